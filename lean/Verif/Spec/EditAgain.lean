import Verif.Spec.EditCost
import Verif.Spec.IncrFold
/-
Batches of edits, and after each batch a memoised computation over the sequence: the work that this takes.
-/
namespace Iodyn
variable {E M F N A B Sp : Type}

/-- A batch of edits with values, each as `RazTree.edit` (src/raz.rs:321-378, 443-529, 559-644). Also returned is the sum of the depths of the trees
before each edit and of the numbers of named archive points that were added. -/
def RazTree.edits [RazMeta E M] (t : RazTree E M) : List (RazMeta.Index E M × List (LOp E)) → P (RazTree E M × Nat)
  | [] => .ok (t, 0)
  | (i, ops) :: l => do
    let t' ← t.edit i ops
    let (t'', k) ← t'.edits l
    return (t'', t.tree.depth + LOp.points ops + k)

/-- All batches have local edits. -/
def RazTree.LocalBatches [RazMeta E M] (t : RazTree E M) : List (List (RazMeta.Index E M × List (LOp E))) → Prop
  | [] => True
  | es :: l => t.LocalEdit es ∧ ∀ t' k, t.edits es = .ok (t', k) → t'.LocalBatches l

/-- Batches of edits with values, the computation `val` after each: its result, the sum of depths and points, and the gap of the tree. -/
def RazTree.reruns [RazMeta E M] (val : RazTree E M → P B) (t : RazTree E M) :
    List (List (RazMeta.Index E M × List (LOp E))) → P (List (B × Nat × Nat))
  | [] => .ok []
  | es :: l => do
    let (t', k) ← t.edits es
    let b ← val t'
    let rest ← t'.reruns val l
    return (b, k, t'.tree.gap) :: rest

/-- A session with values: a sequence is made with some calls, the computation runs, then come the batches. Returned are the first result, the
size of the first tree and what `reruns` returns. -/
def rerunSession [RazMeta E M] (val : RazTree E M → P B) (ops : List (LOp E)) (l : List (List (RazMeta.Index E M × List (LOp E)))) :
    P (B × Nat × List (B × Nat × Nat)) := do
  let z ← (Raz.new : Raz E M).lops ops
  let t ← z.unfocus
  let b ← val t
  let rest ← t.reruns val l
  return (b, t.tree.size, rest)

/-- The sequence of the session is made and edited locally. -/
def LocalReruns [RazMeta E M] (ops : List (LOp E)) (l : List (List (RazMeta.Index E M × List (LOp E)))) : Prop :=
  (Raz.new : Raz E M).Local ops ∧ ∀ z t, (Raz.new : Raz E M).lops ops = .ok z → z.unfocus = .ok t → t.LocalBatches l

/-- The names that the batches give to cells. -/
def batchCells {I : Type} (l : List (List (I × List (LOp E)))) : List Name := l.flatMap fun es => es.flatMap fun q => LOp.cells q.2

/-! ### Over the store -/
namespace Heap

/-- A batch of edits, src/raz.rs:321-378, 443-529, 559-644. -/
def HTree.edits [RazMeta E M] (e : Engine) (t : HTree M) : List (RazMeta.Index E M × List (LOp E)) → HR E M (HTree M)
  | [] => return t
  | (i, ops) :: l => do
    let t' ← t.edit e i ops
    HTree.edits e t' l

/-- Batches, and after each the computation `run` with what it has stored: results and work. With each result comes what is stored at that time
(the cells of the results are there). -/
def HTree.reruns [RazMeta E M] (run : HTree M → Sp → HR E M (A × Nat × Sp)) (t : HTree M) (s : Sp) :
    List (List (RazMeta.Index E M × List (LOp E))) → HR E M (List (A × Nat × Sp))
  | [] => return []
  | es :: l => do
    let t' ← t.edits .dcg es
    let (a, w, s') ← run t' s
    let rest ← HTree.reruns run t' s' l
    return (a, w, s') :: rest

/-- The session; nothing is stored at the start (`new`). -/
def hrerunSession [RazMeta E M] (run : HTree M → Sp → HR E M (A × Nat × Sp)) (new : Sp) (ops : List (LOp E))
    (l : List (List (RazMeta.Index E M × List (LOp E)))) : HR E M (A × Nat × Sp × List (A × Nat × Sp)) := do
  let z ← HRaz.lops .dcg (HRaz.new : HRaz E) ops
  let t ← z.unfocus .dcg
  let (a, w, s) ← run t new
  let rest ← t.reruns run s l
  return (a, w, s, rest)

end Heap

namespace Incr
open Iodyn.Heap

/-- `RazTree::map`, src/raz.rs:288-317, with the number of nodes at which the mapping function was run. -/
def countedMap [RazMeta F N] [DecidableEq E] [DecidableEq M] [DecidableEq F] [DecidableEq N] (f : E → F) (t : HTree M) (s : RSpace E M F N) :
    HR E M (HTree N × Nat × RSpace E M F N) := fun fuel σ =>
  match razMap f t s fuel σ with
  | .error q => .error q
  | .ok ((t', s'), σ') =>
    match t.tree with
    | none => .ok ((t', 0, s'), σ')
    | some h =>
      match amrun (mapBody (razMapFn f : MapFn (TreeData E M) (TreeData F N))) σ fuel h s with
      | some (.ok o) => .ok ((t', o.work, s'), σ')
      | _ => diverge fuel σ

/-- `fold_up_gauged` of reverse and filter (see `rebuildIn`), src/raz.rs:210-230, with the number of nodes at which the function was run. -/
def countedRebuild [RazMeta E N] [DecidableEq E] [DecidableEq M] [DecidableEq N] (c : Rebuild E) (t : HTree M) (s : GSpace E M N) :
    HR E M (Option (HTree N) × Nat × GSpace E M N) := fun fuel σ =>
  match rebuildIn c t s fuel σ with
  | .error q => .error q
  | .ok ((t', s'), σ') =>
    match t.tree with
    | none => .ok ((t', 0, s'), σ')
    | some h =>
      match amrun (upBody c.node) σ fuel h s with
      | some (.ok o) => .ok ((t', o.work, s'), σ')
      | _ => diverge fuel σ

/-- Behind the handle `a` is the whole sequence `b`, with its metadata. -/
def Holds [RazMeta F N] {X : Type} (τ : Mem (TreeData F N) X) (a : HTree N) (b : RazTree F N) : Prop :=
  a.info = b.info ∧ ∀ n, b.tree.size ≤ n → readTree τ n a.tree = some b.tree

end Incr
end Iodyn
