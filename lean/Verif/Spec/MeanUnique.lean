import Verif.Spec.MeanDepth
import Verif.Spec.UniqueSession
/-
`unique_elms` and `to_list` again after batches of edits: bounds of the mean work over all random levels (and all hash functions), from lists alone.
-/
namespace Iodyn
variable {E : Type}

/-- The length of the longest run of elements without an archive point between them, if there are `c` elements directly before. -/
def longestRun (c : Nat) : List (Item E) → Nat
  | [] => c
  | .elem _ :: l => longestRun (c + 1) l
  | .mark _ _ :: l => max c (longestRun 0 l)
  | .pend _ _ :: l => max c (longestRun 0 l)

/-- The greatest number of archive points that the sequence has before or after an edit of the batch. -/
def peak (items : List (Item E)) : List (Nat × List (LOp E)) → Nat
  | [] => (marksOf items).length
  | (i, ops) :: l => max (marksOf items).length (peak (editList i ops items) l)

/-- The number of named archive points that the edits add. -/
def pointsOf : List (Nat × List (LOp E)) → Nat
  | [] => 0
  | (_, ops) :: l => LOp.points ops + pointsOf l

/-- A bound for `to_list` after a batch: `4 * (edits * (6 * log + 2) + points) + 1`. -/
def listLog (items : List (Item E)) (es : List (Nat × List (LOp E))) : Nat :=
  4 * (es.length * (sixLogs (peak items es) + 2) + pointsOf es) + 1

/-- The same for all batches. -/
def listLogs (items : List (Item E)) : List (List (Nat × List (LOp E))) → List Nat
  | [] => []
  | es :: l => listLog items es :: listLogs (editLists items es) l

namespace Incr

/-- What each place of an edit costs in `unique_elms`: itself, and for each element next to it twice as many others as the logarithm of the number of different elements. -/
def searchBound [DecidableEq E] (L : Nat) (items items' : List (Item E)) : Nat :=
  1 + 2 * max (longestRun 0 items) (longestRun 0 items') *
    (mostOften (elemsOf items') * (Nat.clog 2 (different (elemsOf items')) + 2 + different (elemsOf items') / 2 ^ L))

/-- A bound for `unique_elms` after a batch: as for `to_list`, and `2 * edits * s ^ 2 + (2 * points + 1) * s` times what a place costs, with `s = 6 * log + 2`. -/
def uqLog [DecidableEq E] (L : Nat) (items : List (Item E)) (es : List (Nat × List (LOp E))) : Nat :=
  listLog items es + (2 * es.length * (sixLogs (peak items es) + 2) ^ 2 + (2 * pointsOf es + 1) * (sixLogs (peak items es) + 2)) * searchBound L items (editLists items es)

/-- The same for all batches. -/
def uqLogs [DecidableEq E] (L : Nat) (items : List (Item E)) : List (List (Nat × List (LOp E))) → List Nat
  | [] => []
  | es :: l => uqLog L items es :: uqLogs L (editLists items es) l

end Incr
end Iodyn
