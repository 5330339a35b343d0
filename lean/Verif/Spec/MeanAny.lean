import Verif.Spec.MeanDepth
/-
Sessions of any edits, also across archive points, with bounds of the mean work from lists alone.
-/
namespace Iodyn
variable {E : Type}

/-- 1 if the call pops across an archive point of the sequence, otherwise 0. -/
def LOp.crossesAt (s : List (Item E) × List (Item E)) : LOp E → Nat
  | .popL => if atMark s.1 then 1 else 0
  | .popR => if atMark s.2 then 1 else 0
  | _ => 0

/-- How often the calls cross an archive point of the sequence, and 1 if at the end nothing is next to the cursor. -/
def crossingsAt (s : List (Item E) × List (Item E)) : List (LOp E) → Nat
  | [] => if atHand s.1 || atHand s.2 then 0 else 1
  | op :: l => op.crossesAt s + crossingsAt (op.onSides s) l

/-- All edits are at places within the sequence and none leaves it empty. -/
def fullList (items : List (Item E)) : List (Nat × List (LOp E)) → Bool
  | [] => true
  | (i, ops) :: l => decide (i ≤ (elemsOf items).length) && decide (i < usizeMax) && !(elemsOf (editList i ops items)).isEmpty && fullList (editList i ops items) l

/-- The same for batches. -/
def fullLists (items : List (Item E)) : List (List (Nat × List (LOp E))) → Bool
  | [] => true
  | es :: l => fullList items es && fullLists (editLists items es) l

/-- A sequence made with some calls, and batches of edits; it is never empty. -/
def fullAll (ops : List (LOp E)) (l : List (List (Nat × List (LOp E)))) : Bool :=
  !(elemsOf (closed (onSides ([], []) ops))).isEmpty && fullLists (closed (onSides ([], []) ops)) l

/-- For each edit of a batch: six times the logarithm of the number of archive points before and 1, once for the edit and once for each crossing, and the
number of named archive points that are added. -/
def anyBound (items : List (Item E)) : List (Nat × List (LOp E)) → Nat
  | [] => 0
  | (i, ops) :: l => (1 + crossingsAt (cutAt i items) ops) * (sixLogs (marksOf items).length + 1) + LOp.points ops + anyBound (editList i ops items) l

/-- The same for all batches. -/
def anyBounds (items : List (Item E)) : List (List (Nat × List (LOp E))) → List Nat
  | [] => []
  | es :: l => anyBound items es :: anyBounds (editLists items es) l

end Iodyn
