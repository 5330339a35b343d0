import Verif.Spec.ListCost
import Verif.Spec.OpenWork
/-
`tokenize` again and again: the work that this takes.
-/
namespace Iodyn
variable {E M A B G Sp : Type}
open Iodyn.Eval.Adder (Token)

namespace Incr
open Iodyn.Heap

/-- `tokenize` with values, from scratch, up to the final function: eval/examples/adder.rs:161-185. -/
def tokScratch (t : RazTree Char M) : P (AStack Token Nat × Option Nat) :=
  t.foldLrMeta (.ok (AStack.new, none)) (Eval.Adder.lift (Eval.Adder.tokenizeStep (Eval.Adder.stackAccum Token)))
    (fun a m => a.map fun st => Eval.Adder.tokenizeMeta (Eval.Adder.stackAccum Token) st m)

/-- `tokenize` (see `foldAccIn`), eval/examples/adder.rs:161-185, src/raz.rs:239-260, with the number of nodes at which the function was run. -/
def countedTok [DecidableEq M] (t : HTree M) (s : LSpace Char M Token Count (ASt Token × Option Nat)) :
    HR Char M ((ASt Token × Option Nat) × Nat × LSpace Char M Token Count (ASt Token × Option Nat)) := fun fuel σ =>
  match foldAccIn tokNode (ASt.new, none) t s fuel σ with
  | .error q => .error q
  | .ok ((a, s'), σ') =>
    match t.tree with
    | none => .ok ((a, 0, s'), σ')
    | some h =>
      match amrun (lrAccBody tokNode) σ fuel ⟨h, some (.str "start"), (ASt.new, none)⟩ s with
      | some (.ok o) => .ok ((a, o.work, s'), σ')
      | _ => diverge fuel σ

/-- Behind the handle is the whole archive stack of tokens, and the same number is open. -/
def HoldsTokens (τ : Mem (TreeData Token Count) (Nat × List Token)) (a : ASt Token × Option Nat) (b : AStack Token Nat × Option Nat) : Prop :=
  HoldsList τ a.1 b.1 ∧ a.2 = b.2

/-- In each part of the text some token is complete and some number ends. -/
def Legible (t : RazTree Char M) : Prop := Speaking none t.tree ∧ Separated t.tree

end Incr

open Incr (Legible)

/-- The texts after each edit are legible. -/
def RazTree.LegibleEdits [RazMeta Char M] (t : RazTree Char M) : List (RazMeta.Index Char M × List (LOp Char)) → Prop
  | [] => True
  | (i, ops) :: l => ∀ t', t.edit i ops = .ok t' → Legible t' ∧ t'.LegibleEdits l

/-- The texts after each edit of each batch are legible. -/
def RazTree.LegibleBatches [RazMeta Char M] (t : RazTree Char M) : List (List (RazMeta.Index Char M × List (LOp Char))) → Prop
  | [] => True
  | es :: l => t.LegibleEdits es ∧ ∀ t' k, t.edits es = .ok (t', k) → t'.LegibleBatches l

/-- All texts of a session are legible. -/
def LegibleReruns [RazMeta Char M] (ops : List (LOp Char)) (l : List (List (RazMeta.Index Char M × List (LOp Char)))) : Prop :=
  ∀ z t, (Raz.new : Raz Char M).lops ops = .ok z → z.unfocus = .ok t → Legible t ∧ t.LegibleBatches l

namespace Heap
open Iodyn.Eval

/-- As `listsAfter`, with another bound. -/
def tokensAfter (p : Params) (batch : Nat) (Rel : B → A → Sp → Prop) : RazTree E M → List (RazTree E M × B) → List (A × Nat × Sp) → Prop
  | _, [], [] => True
  | t, (t', b) :: l, (a, w, s) :: l' =>
    Rel b a s ∧ w ≤ 2 * (3 * t.tree.depth + batch / p.datagauge + 1) + 1 ∧ tokensAfter p batch Rel t' l l'
  | _, _, _ => False

/-- The answers of a session. The first one takes at most one step for each node. -/
def tokensWithin (p : Params) (batch : Nat) (Rel : B → A → Sp → Prop) : List (RazTree E M × B) → List (A × Nat × Sp) → Prop
  | (t, b) :: l, (a, w, s) :: l' => Rel b a s ∧ w ≤ t.tree.size ∧ tokensAfter p batch Rel t l l'
  | _, _ => False

end Heap
end Iodyn
