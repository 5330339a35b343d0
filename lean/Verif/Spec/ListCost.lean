import Verif.Spec.HarnessCost
import Verif.Spec.IncrLr
/-
`to_list` again and again: the work that this takes.
-/
namespace Iodyn
variable {E M A B G Sp : Type}

namespace Incr
open Iodyn.Heap

/-- `to_list` (see `foldAccIn`), eval/examples/tree_to_list.rs:94-101, src/raz.rs:239-260, with the number of nodes at which the function was run. -/
def countedList [DecidableEq E] [DecidableEq M] (t : HTree M) (s : LSpace E M E Count (ASt E)) : HR E M (ASt E × Nat × LSpace E M E Count (ASt E)) := fun fuel σ =>
  match foldAccIn toListNode ASt.new t s fuel σ with
  | .error q => .error q
  | .ok ((a, s'), σ') =>
    match t.tree with
    | none => .ok ((a, 0, s'), σ')
    | some h =>
      match amrun (lrAccBody toListNode) σ fuel ⟨h, some (.str "start"), ASt.new⟩ s with
      | some (.ok o) => .ok ((a, o.work, s'), σ')
      | _ => diverge fuel σ

/-- Behind the handle `a` is the whole archive stack `b`, with its names and levels. -/
def HoldsList (τ : Mem (TreeData E Count) (Nat × List E)) (a : ASt E) (b : AStack E Nat) : Prop := ∀ n, b.archived.length ≤ n → readArchive τ n a = some b

end Incr

namespace Heap
open Iodyn.Eval

/-- The answers after each edit with `batch` elements belong to those from scratch, and the work is bounded in the depth of the tree before the
edit and the number of names that the edit gives. -/
def listsAfter (p : Params) (batch : Nat) (Rel : B → A → Sp → Prop) : RazTree E M → List (RazTree E M × B) → List (A × Nat × Sp) → Prop
  | _, [], [] => True
  | t, (t', b) :: l, (a, w, s) :: l' =>
    Rel b a s ∧ w ≤ 2 * (2 * t.tree.depth + batch / p.datagauge + 1) + 1 ∧ listsAfter p batch Rel t' l l'
  | _, _, _ => False

/-- The answers of a session. The first one takes at most one step for each node. -/
def listsWithin (p : Params) (batch : Nat) (Rel : B → A → Sp → Prop) : List (RazTree E M × B) → List (A × Nat × Sp) → Prop
  | (t, b) :: l, (a, w, s) :: l' => Rel b a s ∧ w ≤ t.tree.size ∧ listsAfter p batch Rel t l l'
  | _, _ => False

end Heap
end Iodyn
