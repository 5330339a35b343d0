import Verif.Spec.MeanUnique
/-
Bounds for computations whose work depends on the depths of trees, that hold for all but few random levels.
-/
namespace Iodyn
variable {E : Type}

/-- For each edit of a batch: six times the logarithm of the number of archive points before and 2 (rounded up), `j`, and the number of named archive points that are
added. -/
def likelyDeep (j : Nat) (items : List (Item E)) : List (Nat × List (LOp E)) → Nat
  | [] => 0
  | (i, ops) :: l => sixLogs (marksOf items).length + j + LOp.points ops + likelyDeep j (editList i ops items) l

/-- The same for all batches. -/
def likelyDeeps (j : Nat) (items : List (Item E)) : List (List (Nat × List (LOp E))) → List Nat
  | [] => []
  | es :: l => likelyDeep j items es :: likelyDeeps j (editLists items es) l

end Iodyn
