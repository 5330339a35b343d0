import Verif.Spec.Meta
import Verif.Spec.Reach
/-
Level discipline of trees, stack programs, and local edits.
-/
namespace Iodyn
variable {D E M : Type}

/-- The levels of all nodes of a tree. -/
def Tree.levels : Tree D → List Nat
  | .nil => []
  | .node lv _ _ l r => l.levels ++ lv :: r.levels

/-- Heap order: every node has a greater level than all nodes of its left branch, and at least the level of
all nodes of its right branch. -/
def HeapOrdered (t : Tree D) : Prop :=
  ∀ lv nm d l r, Tree.Sub (.node lv nm d l r) t → (∀ x ∈ l.levels, x < lv) ∧ (∀ x ∈ r.levels, x ≤ lv)

/-- One step of filling a stack or the left side of a cursor. -/
inductive Fill (E : Type) where
  | push (e : E)
  | archive (nm : Option Name) (lev : Nat)

/-- Filling an archive stack. -/
def fillStack (ops : List (Fill E)) : AStack E Nat :=
  ops.foldl (fun s op => match op with
    | .push e => s.push e
    | .archive nm lev => (s.archive nm lev).1) AStack.new

/-- Filling the left side of a new cursor. -/
def fillCursor (ops : List (Fill E)) : Raz E M :=
  ops.foldl (fun z op => match op with
    | .push e => (z.pushLeft e).1
    | .archive nm lev => z.archiveLeft lev nm) Raz.new

/-- The suffix that `unfocus` adds to names (src/raz.rs:444). -/
def Fill.suffix : Fill E → Fill E
  | .push e => .push e
  | .archive nm lev => .archive (nm.map (fun n => .pair n (.str "tree"))) lev

/-- Edits of the subsequence at the cursor: pushing, and popping elements that are not beyond an archive
point. -/
inductive LocalEdits [RazMeta E M] : Raz E M → Raz E M → Prop
  | refl (z) : LocalEdits z z
  | pushL {z z'} (e : E) : LocalEdits z z' → LocalEdits z (z'.pushLeft e).1
  | pushR {z z'} (e : E) : LocalEdits z z' → LocalEdits z (z'.pushRight e).1
  | popL {z z' z'' o e r} : LocalEdits z z' → z'.left = .elem e :: r → z'.popLeft = .ok (z'', o) → LocalEdits z z''
  | popR {z z' z'' o e r} : LocalEdits z z' → z'.right = .elem e :: r → z'.popRight = .ok (z'', o) → LocalEdits z z''

/-- Two trees that differ only along the path from the root to one leaf: the elements of that leaf, and the
metadata stored on the path for the side where the leaf is. -/
inductive OnPath : Tree (TreeData E M) → Tree (TreeData E M) → Prop
  | leaf {lv nm l r} (v v' : List E) : OnPath (.node lv nm (.leaf v) l r) (.node lv nm (.leaf v') l r)
  | left {lv nm l l' r} {ml ml' mr : M} : OnPath l l' →
    OnPath (.node lv nm (.branch ml mr) l r) (.node lv nm (.branch ml' mr) l' r)
  | right {lv nm l r r'} {ml mr mr' : M} : OnPath r r' →
    OnPath (.node lv nm (.branch ml mr) l r) (.node lv nm (.branch ml mr') l r')

end Iodyn
