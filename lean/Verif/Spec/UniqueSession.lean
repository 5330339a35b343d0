import Verif.Spec.EditAgain
import Verif.Spec.ListCost
import Verif.Spec.UniqueWork
import Mathlib.Data.Fintype.Pi
import Mathlib.Algebra.BigOperators.Group.Finset.Basic
import Mathlib.Data.Nat.Log
/-
`unique_elms` again and again: the work that this takes in the mean over all hash functions.
-/
namespace Iodyn.Incr
open Iodyn.Heap
open Iodyn.Skip (Skiplist)
variable {E M : Type}

/-- `unique_elms` (see `uniqueIn`), eval/examples/unique_elms.rs:97-104, with the number of nodes at which the function was run. -/
def countedUnique [DecidableEq E] [DecidableEq M] (hash : E → Word) (L : Nat) (t : HTree M) (s : UqSpace E M) : HR E M (Skiplist × Nat × UqSpace E M) := fun fuel σ =>
  match uniqueIn hash L t s fuel σ with
  | .error q => .error q
  | .ok ((a, s'), σ') =>
    match t.tree with
    | none => .ok ((a, 0, s'), σ')
    | some h =>
      match orun skipView (lrObsBody (uniqueNode hash)) σ fuel ⟨h, startName, Eval.UniqueElms.start L⟩ s with
      | some (.ok o) => .ok ((a, o.work, s'), σ')
      | _ => diverge fuel σ

/-- The skip list, with the cells of its namespace, finds exactly the elements of the list. -/
def Finds [DecidableEq E] (hash : E → Word) (xs : List E) (a : Skiplist) (s : UqSpace E M) : Prop := ∀ x, a.get hash s.mem x = .ok (if x ∈ xs then some () else none)

/-- The elements in a tree, from left to right. -/
def treeElems : Tree (TreeData E M) → List E
  | .nil => []
  | .node _ _ (.leaf w) _ _ => w
  | .node _ _ _ l r => treeElems l ++ treeElems r

/-- The length of the longest leaf. -/
def widest : Tree (TreeData E M) → Nat
  | .nil => 0
  | .node _ _ (.leaf w) _ _ => w.length
  | .node _ _ _ l r => max (widest l) (widest r)

/-- How often the most frequent element occurs. -/
def mostOften [DecidableEq E] (l : List E) : Nat := (l.map fun x => l.count x).foldr max 0

/-- The number of different elements. -/
def different [DecidableEq E] (l : List E) : Nat := l.dedup.length

/-- A bound for the mean work after edits that turn `t` into `t'`; `k` is the sum of the depths before each edit and of the number of archive points added. The first part
is for nodes that are new, the second for the leaves whose updates find something else in the skip list, each with the way to it. -/
def uqBound [DecidableEq E] (L k : Nat) (t t' : Tree (TreeData E M)) : Nat :=
  (4 * k + 1) + depthOf t' * ((2 * k + 1) * (1 + 2 * max (widest t) (widest t') *
    (mostOften (treeElems t') * (Nat.clog 2 (different (treeElems t')) + 2 + different (treeElems t') / 2 ^ L))))

/-- The mean of the work after each batch of edits, over all functions from the elements to 64-bit hashes, is within the bound. -/
def UqMeans [DecidableEq E] [Fintype E] (L : Nat) : RazTree E M → List (RazTree E M × Nat × Nat) → List ((E → Fin (2 ^ 64)) → Nat) → Prop
  | _, [], [] => True
  | t, (t', k, _) :: l, work :: works => ∑ w, work w ≤ (2 ^ 64) ^ Fintype.card E * uqBound L k t.tree t'.tree ∧ UqMeans L t' l works
  | _, _, _ => False

/-- As `UqMeans`, for edits of the driver: `batch` elements with an archive point after every `datagauge` elements. -/
def uqAfter [DecidableEq E] [Fintype E] (L : Nat) (p : Eval.Params) (batch : Nat) : RazTree E M → List (RazTree E M × Unit) → List ((E → Fin (2 ^ 64)) → Nat) → Prop
  | _, [], [] => True
  | t, (t', _) :: l, work :: works =>
    ∑ w, work w ≤ (2 ^ 64) ^ Fintype.card E * uqBound L (t.tree.depth + batch / p.datagauge + 1) t.tree t'.tree ∧ uqAfter L p batch t' l works
  | _, _, _ => False

/-- The work of a session of the driver. The first run takes one step for each node. -/
def uqWithin [DecidableEq E] [Fintype E] (L : Nat) (p : Eval.Params) (batch : Nat) : List (RazTree E M × Unit) → List ((E → Fin (2 ^ 64)) → Nat) → Prop
  | (t, _) :: l, work :: works => (∀ w, work w = t.tree.size) ∧ uqAfter L p batch t l works
  | _, _ => False

end Iodyn.Incr
