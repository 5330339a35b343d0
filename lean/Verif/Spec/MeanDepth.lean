import Verif.Spec.MeanWork
import Mathlib.Data.Finset.Lattice.Fold
/-
How deep a sequence with given levels is, from the list of levels alone, and edits at any place.
-/
namespace Iodyn
variable {E : Type}

/-- The number of entries of a list that see the cut after the first `k`: on the left of it those with no higher one between, on the right those with
none as high between. -/
def sight (k : Nat) (ls : List Nat) : Nat := seenLe [] (ls.take k).reverse + seenLt [] (ls.drop k)

/-- The greatest such number over all cuts. -/
def deepest (ls : List Nat) : Nat := (Finset.range (ls.length + 1)).sup fun k => sight k ls

/-- All edits are at places within sequences that are not empty. They may cross archive points. -/
def within (items : List (Item E)) : List (Nat × List (LOp E)) → Bool
  | [] => true
  | (i, ops) :: l => !(elemsOf items).isEmpty && decide (i ≤ (elemsOf items).length) && decide (i < usizeMax) && within (editList i ops items) l

/-- Six times the logarithm of `m + 2`, rounded up. -/
def sixLogs (m : Nat) : Nat := 6 * Nat.clog 2 (m + 2)

end Iodyn
