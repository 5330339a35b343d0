import Verif.Model.Raz
/-
Specification vocabulary: sequences of elements and archive points, and a zipper over them.
Nothing here refers to cursors, forests or levels comparisons; only the reading functions at the end
(`Tree.items`, `Raz.left`, `Raz.right`) look at the model's data types.
-/
namespace Iodyn

/-- One position of an annotated sequence. -/
inductive Item (E : Type) where
  /-- a sequence element -/
  | elem (e : E)
  /-- an archive point that is part of a tree: level and name -/
  | mark (lev : Nat) (nm : Option Name)
  /-- an archive point made at the cursor since the last `focus`, with the name given by the user -/
  | pend (lev : Nat) (nm : Option Name)
  deriving DecidableEq, Repr

namespace Item
variable {E F : Type}

/-- Whether the item is an archive point. -/
def isMark : Item E → Bool
  | elem _ => false
  | _ => true

/-- The element of an item, if any. -/
def elem? : Item E → Option E
  | elem e => some e
  | _ => none

/-- Unfocusing turns pending archive points into archive points of the tree; their name gets the suffix
"tree" (src/raz.rs:444). -/
def settle : Item E → Item E
  | pend lev nm => mark lev (nm.map (fun n => .pair n (.str "tree")))
  | i => i

/-- Mapping the elements. -/
def map (f : E → F) : Item E → Item F
  | elem e => .elem (f e)
  | mark l n => .mark l n
  | pend l n => .pend l n

/-- The level of an archive point (0 for elements). -/
def level : Item E → Nat
  | elem _ => 0
  | mark l _ => l
  | pend l _ => l

end Item

variable {E M : Type}

/-- The elements of an annotated sequence. -/
def elemsOf (l : List (Item E)) : List E := l.filterMap Item.elem?

/-- The archive points of an annotated sequence. -/
def marksOf (l : List (Item E)) : List (Nat × Option Name) :=
  l.filterMap (fun i => match i with
    | .elem _ => none
    | .mark lev nm => some (lev, nm)
    | .pend lev nm => some (lev, nm))

/-! ### One side of a cursor, nearest item first -/

/-- Pop next to the cursor: an archive point in the way is removed. -/
def popSide : List (Item E) → Option E × List (Item E)
  | [] => (none, [])
  | .elem e :: r => (some e, r)
  | _ :: .elem e :: r => (some e, r)
  | _ :: r => (none, r)

/-- Archive next to the cursor: only directly after an element. -/
def archiveSide (lev : Nat) (nm : Option Name) : List (Item E) → List (Item E)
  | .elem e :: r => .pend lev nm :: .elem e :: r
  | s => s

/-- No two adjacent archive points and no archive point at the far end, i.e. no empty subsequence on
this side. -/
def Tidy : List (Item E) → Prop
  | [] => True
  | .elem _ :: r => Tidy r
  | _ :: r => (∃ e r', r = .elem e :: r') ∧ Tidy r

/-- Gluing both sides (nearest item first) into one sequence. If the cursor is directly between two archive
points, or between an archive point and an end, one of the archive points is dropped (an empty subsequence
would result): the left one, unless only the right one is pending. -/
def glue : List (Item E) → List (Item E) → List (Item E)
  | [], [] => []
  | [], r :: rs => if r.isMark then rs else r :: rs
  | l :: ls, [] => if l.isMark then ls.reverse else (l :: ls).reverse
  | l :: ls, r :: rs =>
    if l.isMark ∧ r.isMark then
      match l, r with
      | .mark .., .pend .. => (l :: ls).reverse ++ rs
      | _, _ => ls.reverse ++ r :: rs
    else (l :: ls).reverse ++ r :: rs

/-! ### Reading the model's data -/

/-- In-order annotated sequence of a tree. -/
def Tree.items : Tree (TreeData E M) → List (Item E)
  | .nil => []
  | .node _ _ (.leaf v) _ _ => v.map .elem
  | .node lv nm _ l r => l.items ++ .mark lv nm :: r.items

/-- The items of a `RazTree`. -/
def RazTree.items (t : RazTree E M) : List (Item E) := t.tree.items
/-- The elements of a `RazTree`. -/
def RazTree.elems (t : RazTree E M) : List E := elemsOf t.items

/-- What lies left of a cursor's focus, nearest first. -/
def Cursor.leftSide (l : List (Bool × TNode (TreeData E M))) : List (Item E) :=
  l.flatMap (fun p => .mark p.2.level p.2.name :: p.2.l.items.reverse)
/-- What lies right of a cursor's focus, nearest first. -/
def Cursor.rightSide (l : List (Bool × TNode (TreeData E M))) : List (Item E) :=
  l.flatMap (fun p => .mark p.2.level p.2.name :: p.2.r.items)

/-- The items of an archive stack, top first. -/
def AStack.side (s : AStack E Nat) : List (Item E) :=
  s.current.reverse.map .elem ++
    s.archived.flatMap (fun p => .pend p.2.1 p.1 :: p.2.2.reverse.map .elem)

/-- Everything left of the cursor, nearest first. -/
def Raz.left (z : Raz E M) : List (Item E) := z.lStack.side ++ Cursor.leftSide z.lForest.lForest
/-- Everything right of the cursor, nearest first. -/
def Raz.right (z : Raz E M) : List (Item E) := z.rStack.side ++ Cursor.rightSide z.rForest.rForest

/-- The elements left of the cursor, nearest first. -/
def Raz.leftElems (z : Raz E M) : List E := elemsOf z.left
/-- The elements right of the cursor, nearest first. -/
def Raz.rightElems (z : Raz E M) : List E := elemsOf z.right

end Iodyn
