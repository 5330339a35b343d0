import Verif.Spec.EditAny
import Verif.Model.Levels
import Mathlib.Data.Nat.Log
/-
Edits of a sequence whose archive points get random levels: the work in the mean over all random numbers. Here a sequence is just a list of items;
nothing refers to trees.
-/
namespace Iodyn
variable {E : Type}

/-! ### Which archive points see the cursor -/

/-- The number of entries of a list that are at least as great as all before them; also those in `before` count as before. -/
def seenLe (before : List Nat) : List Nat → Nat
  | [] => 0
  | l :: rest => (if ∀ b ∈ before, b ≤ l then 1 else 0) + seenLe (l :: before) rest

/-- The number of entries that are greater than all before them. -/
def seenLt (before : List Nat) : List Nat → Nat
  | [] => 0
  | l :: rest => (if ∀ b ∈ before, b < l then 1 else 0) + seenLt (l :: before) rest

/-- The levels of the archive points of an annotated sequence. -/
def levelsOf (l : List (Item E)) : List Nat := (marksOf l).map Prod.fst

/-- A sequence cut after its first `i` elements, on the left directly after the last of them: what is left of the cut, nearest first, and what is right. -/
def cutAt : Nat → List (Item E) → List (Item E) × List (Item E)
  | 0, l => ([], l)
  | _+1, [] => ([], [])
  | n+1, .elem e :: l => ((cutAt n l).1 ++ [.elem e], (cutAt n l).2)
  | n+1, .mark a b :: l => ((cutAt (n + 1) l).1 ++ [.mark a b], (cutAt (n + 1) l).2)
  | n+1, .pend a b :: l => ((cutAt (n + 1) l).1 ++ [.pend a b], (cutAt (n + 1) l).2)

/-- The number of archive points between which and the cut there is no higher one (on the right: none as high). -/
def pathAt (i : Nat) (items : List (Item E)) : Nat :=
  seenLe [] (levelsOf (cutAt i items).1) + seenLt [] (levelsOf (cutAt i items).2)

/-! ### Edits of lists -/

/-- The effect of a call on the two sides of the cursor (src/raz.rs:559-644 as in `archiveSide` and `popSide`). -/
def LOp.onSides : LOp E → List (Item E) × List (Item E) → List (Item E) × List (Item E)
  | .pushL x, s => (.elem x :: s.1, s.2)
  | .pushR x, s => (s.1, .elem x :: s.2)
  | .archL lev nm, s => (archiveSide lev nm s.1, s.2)
  | .archR lev nm, s => (s.1, archiveSide lev nm s.2)
  | .popL, s => ((popSide s.1).2, s.2)
  | .popR, s => (s.1, (popSide s.2).2)

/-- All calls. -/
def onSides (s : List (Item E) × List (Item E)) : List (LOp E) → List (Item E) × List (Item E)
  | [] => s
  | op :: l => onSides (op.onSides s) l

/-- The sequence that `unfocus` makes of the two sides (src/raz.rs:443-529 as in `glue` and `Item.settle`). -/
def closed (s : List (Item E) × List (Item E)) : List (Item E) := (glue s.1 s.2).map Item.settle

/-- One edit of a list. -/
def editList (i : Nat) (ops : List (LOp E)) (items : List (Item E)) : List (Item E) := closed (onSides (cutAt i items) ops)

/-- A batch of edits. -/
def editLists (items : List (Item E)) : List (Nat × List (LOp E)) → List (Item E)
  | [] => items
  | (i, ops) :: l => editLists (editList i ops items) l

/-- The sequences after each batch. -/
def stages (items : List (Item E)) : List (List (Nat × List (LOp E))) → List (List (Item E))
  | [] => []
  | es :: l => editLists items es :: stages (editLists items es) l

/-- The call stays at its place: it does not pop an archive point of the tree, nor at an end of the sequence. -/
def LOp.staysAt (s : List (Item E) × List (Item E)) : LOp E → Bool
  | .popL => atHand s.1
  | .popR => atHand s.2
  | _ => true

/-- All calls stay at their place and at the end something is left there. -/
def localSides (s : List (Item E) × List (Item E)) : List (LOp E) → Bool
  | [] => atHand s.1 || atHand s.2
  | op :: l => op.staysAt s && localSides (op.onSides s) l

/-- All edits are at places within the sequence and stay there. -/
def localList (items : List (Item E)) : List (Nat × List (LOp E)) → Bool
  | [] => true
  | (i, ops) :: l => decide (i ≤ (elemsOf items).length) && decide (i < usizeMax) && localSides (cutAt i items) ops && localList (editList i ops items) l

/-- The same for batches. -/
def localLists (items : List (Item E)) : List (List (Nat × List (LOp E))) → Bool
  | [] => true
  | es :: l => localList items es && localLists (editLists items es) l

/-- A sequence made with some calls, and batches of edits. -/
def localAll (ops : List (LOp E)) (l : List (List (Nat × List (LOp E)))) : Bool :=
  localSides ([], []) ops && localLists (closed (onSides ([], []) ops)) l

/-! ### Random levels -/

/-- The item with another level. -/
def Item.at (f : Nat → Nat) : Item E → Item E
  | .elem e => .elem e
  | .mark lev nm => .mark (f lev) nm
  | .pend lev nm => .pend (f lev) nm

/-- The call with another level. -/
def LOp.at (f : Nat → Nat) : LOp E → LOp E
  | .archL lev nm => .archL (f lev) nm
  | .archR lev nm => .archR (f lev) nm
  | op => op

/-- Edits with other levels. -/
def editsAt (f : Nat → Nat) (l : List (Nat × List (LOp E))) : List (Nat × List (LOp E)) := l.map fun q => (q.1, q.2.map (LOp.at f))

/-- The slots of calls: in place of a level an archive point has the number of a slot, which will get a random number. -/
def LOp.slots : List (LOp E) → List Nat
  | [] => []
  | .archL k _ :: l => k :: LOp.slots l
  | .archR k _ :: l => k :: LOp.slots l
  | _ :: l => LOp.slots l

/-- The slots of batches of edits. -/
def batchSlots (l : List (List (Nat × List (LOp E)))) : List Nat := l.flatMap fun es => es.flatMap fun q => LOp.slots q.2

/-- Each of the `n` slots has a random number of 64 bits; the level is that of `gen_branch_level` (src/level_tree.rs:251-254). -/
def drawn {n : Nat} (w : Fin n → Fin (2 ^ 64)) (k : Nat) : Nat := if h : k < n then genBranchLevel (BitVec.ofNat 64 (w ⟨k, h⟩)) else 1

/-- For each edit of a batch: twice the logarithm of the number of archive points of the sequence before (rounded up) and 2, and the number of named archive
points that are added. -/
def logBound (items : List (Item E)) : List (Nat × List (LOp E)) → Nat
  | [] => 0
  | (i, ops) :: l => 2 * (Nat.clog 2 (marksOf items).length + 1) + LOp.points ops + logBound (editList i ops items) l

/-- The same for all batches. -/
def logBounds (items : List (Item E)) : List (List (Nat × List (LOp E))) → List Nat
  | [] => []
  | es :: l => logBound items es :: logBounds (editLists items es) l

end Iodyn
