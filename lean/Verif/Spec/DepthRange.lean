import Verif.Spec.MeanWork
/-
Sequences with given levels.
-/
namespace Iodyn
variable {E : Type}

/-- Calls that make a sequence of equal elements, with an archive point without a name of each of the given levels between two of them. -/
def spaced (x : E) (levels : List Nat) : List (LOp E) := .pushL x :: levels.flatMap fun v => [.archL v none, .pushL x]

/-- The numbers from 1 on, as many as given, as random numbers: their levels by `gen_branch_level` (src/level_tree.rs:251-254). -/
def counted (n : Nat) : List Nat := (List.range n).map fun i => genBranchLevel (BitVec.ofNat 64 (i + 1))

end Iodyn
