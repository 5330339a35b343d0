import Verif.Spec.MeanAny
import Verif.Spec.Moves
/-
Bounds that hold for all but few random levels, for edits at any places.
-/
namespace Iodyn
variable {E : Type}

/-- For each edit of a batch: six times the logarithm of the number of archive points before and 2 (rounded up), and `j`, once for the edit and once for each crossing,
and the number of named archive points that are added. -/
def likelyAny (j : Nat) (items : List (Item E)) : List (Nat × List (LOp E)) → Nat
  | [] => 0
  | (i, ops) :: l => (1 + crossingsAt (cutAt i items) ops) * (sixLogs (marksOf items).length + j) + LOp.points ops + likelyAny j (editList i ops items) l

/-- The same for all batches. -/
def likelyAnys (j : Nat) (items : List (Item E)) : List (List (Nat × List (LOp E))) → List Nat
  | [] => []
  | es :: l => likelyAny j items es :: likelyAnys j (editLists items es) l

/-- A bound for the moves of cursors in edits: for an edit of a sequence with `m` archive points, two times and for each crossing four times
`6 * log (m + 2) + j`, one for each pop, eight for each archive point and nine. -/
def likelyMoves (j : Nat) (items : List (Item E)) : List (Nat × List (LOp E)) → Nat
  | [] => 0
  | (i, ops) :: l => (2 + crossingsAt (cutAt i items) ops * 4) * (sixLogs (marksOf items).length + j) + LOp.pops ops + 8 * LOp.archs ops + 9 +
      likelyMoves j (editList i ops items) l

end Iodyn
