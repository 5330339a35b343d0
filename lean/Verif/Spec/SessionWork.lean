import Verif.Spec.MeanHarness
/-
The work of whole sessions.
-/
namespace Iodyn.Heap
variable {A Sp : Type}

/-- The work of the first computation of a session, given the answers with their work (the first entry of `computes`, eval/src/test_seq.rs:43-48). -/
def firstWork (outs : List (A × Nat × Sp)) : Nat := outs.head?.elim 0 (·.2.1)

/-- The work of all computations after the first one, together (eval/src/test_seq.rs:61-66). -/
def laterWork (outs : List (A × Nat × Sp)) : Nat := (outs.tail.map (·.2.1)).sum

/-- A bound for the mean work of the computation after one change (eval/src/test_seq.rs:61-66): logarithmic in the number of archive points of the session, and linear
in those of one batch. -/
def perChange (p : Eval.Params) : Nat := 2 * (2 * (Nat.clog 2 (drawsOf p) + 1) + (p.batch / p.datagauge + 1)) + 1

end Iodyn.Heap
