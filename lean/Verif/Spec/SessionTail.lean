import Verif.Spec.SessionWork
/-
A bound for the work after a change that is seldom exceeded.
-/
namespace Iodyn

/-- Four times the logarithm of `m + 2`, rounded up. -/
def fourLogs (m : Nat) : Nat := 4 * Nat.clog 2 (m + 2)

end Iodyn

namespace Iodyn.Heap

/-- The work of the computation after one change (eval/src/test_seq.rs:61-66) that is seldom reached: logarithmic in the number of archive points of the session, linear
in those of one batch, and more with `j`. -/
def dear (p : Eval.Params) (j : Nat) : Nat := 2 * (fourLogs (drawsOf p) + j + (p.batch / p.datagauge + 1))

end Iodyn.Heap

namespace Iodyn
variable {E : Type}

/-- For each edit of a batch: four times the logarithm of the number of archive points of the sequence before and 2 (rounded up), `j`, and the number of named archive
points that are added. -/
def likely (j : Nat) (items : List (Item E)) : List (Nat × List (LOp E)) → Nat
  | [] => 0
  | (i, ops) :: l => fourLogs (marksOf items).length + j + LOp.points ops + likely j (editList i ops items) l

/-- The same for all batches. -/
def likelys (j : Nat) (items : List (Item E)) : List (List (Nat × List (LOp E))) → List Nat
  | [] => []
  | es :: l => likely j items es :: likelys j (editLists items es) l

end Iodyn
