import Verif.Spec.HarnessCost
import Verif.Spec.MeanWork
/-
Sessions of the test driver whose random generator gives given numbers.
-/
namespace Iodyn.Heap

/-- A random generator (`rng: &mut StdRng`, eval/src/test_seq.rs:29) that gives the numbers `w`, one after the other. The state is how many it has given. -/
def reads {n : Nat} (w : Fin n → Fin (2 ^ 64)) (k : Nat) : BitVec 64 × Nat := (if h : k < n then BitVec.ofNat 64 (w ⟨k, h⟩) else 0#64, k + 1)

/-- How many random numbers a session takes: for every archive point of the sequence (eval/src/eval_iraz.rs:110, 115-117), and for every edit one more
than its archive points need (:169-173). -/
def drawsOf (p : Eval.Params) : Nat := p.size / p.datagauge + p.changes * (p.batch / p.datagauge + 1)

end Iodyn.Heap
