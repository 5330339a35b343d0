import Verif.Model.Raz
import Mathlib.Data.Finset.Card
import Mathlib.Data.Finset.Range
import Mathlib.Data.Finset.Filter
/-
Specification vocabulary for the distribution of levels, and pictures of trees.
-/
namespace Iodyn

/-- Number of nodes of height `k` (leaves have height 1) in the perfect binary tree of height `h`: the root, or
the nodes of its two branches. -/
def perfectNodes : Nat → Nat → Nat
  | 0, _ => 0
  | h+1, k => if k = h + 1 then 1 else 2 * perfectNodes h k

/-- Number of 64-bit numbers that `f` sends to `k`. -/
def wordsWith (f : BitVec 64 → Nat) (k : Nat) : Nat :=
  ((Finset.range (2 ^ 64)).filter (fun n => f (BitVec.ofNat 64 n) = k)).card

/-- A drawing of a tree: elements at the leaves, a label and a level at the branches. -/
inductive Picture (A L : Type) where
  | data (v : List A)
  | node (l : Picture A L) (label : L) (lev : Nat) (r : Picture A L)
  deriving DecidableEq

/-- A drawing with other labels. -/
def Picture.relabel {A L L' : Type} (f : L → L') : Picture A L → Picture A L'
  | .data v => .data v
  | .node l n lev r => .node (l.relabel f) (f n) lev (r.relabel f)

/-- The drawing of a raz tree; nothing for trees that are not built of full branches and leaves. -/
def pictureOf {A M : Type} : Tree (TreeData A M) → Option (Picture A (Option Name))
  | .node _ _ (.leaf v) .nil .nil => some (.data v)
  | .node lv nm (.branch _ _) l r => do some (.node (← pictureOf l) nm lv (← pictureOf r))
  | _ => none

end Iodyn
