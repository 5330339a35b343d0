import Verif.Spec.EditAgain
/-
Batches of any edits: also such that pop across archive points of the tree, or leave nothing next to the cursor.
-/
namespace Iodyn
variable {E M B : Type}

/-- On this side the next thing is an archive point of the tree. -/
def atMark : List (Item E) → Bool
  | .mark _ _ :: _ => true
  | _ => false

/-- On this side the next thing is an element, or an archive point that was made since the last `focus`. -/
def atHand : List (Item E) → Bool
  | [] => false
  | .mark _ _ :: _ => false
  | _ => true

/-- 1 if the call pops across an archive point of the tree (src/raz.rs:613-625, 632-643), otherwise 0. -/
def LOp.crosses (z : Raz E M) : LOp E → Nat
  | .popL => if atMark z.left then 1 else 0
  | .popR => if atMark z.right then 1 else 0
  | _ => 0

/-- The number of pops. -/
def LOp.pops : List (LOp E) → Nat
  | [] => 0
  | .popL :: l => 1 + LOp.pops l
  | .popR :: l => 1 + LOp.pops l
  | _ :: l => LOp.pops l

/-- How often the calls cross an archive point of the tree. It counts once more if at the end nothing is next to the cursor: then `unfocus` takes the
next tree as its center (src/raz.rs:499-508). -/
def Raz.crossings [RazMeta E M] (z : Raz E M) : List (LOp E) → Nat
  | [] => if atHand z.left || atHand z.right then 0 else 1
  | op :: l =>
    match z.lop op with
    | .ok z' => op.crosses z + z'.crossings l
    | .error _ => 0

/-- A batch of edits with values (`RazTree.edit`, src/raz.rs:321-378, 443-529, 559-644). Also returned is a number: for each edit the depth of the tree
before, once for `focus` and once for each crossing, and the number of named archive points that were added. -/
def RazTree.editsAny [RazMeta E M] (t : RazTree E M) : List (RazMeta.Index E M × List (LOp E)) → P (RazTree E M × Nat)
  | [] => .ok (t, 0)
  | (i, ops) :: l => do
    let o ← t.focus i
    let z ← unwrap o
    let t' ← t.edit i ops
    let (t'', k) ← t'.editsAny l
    return (t'', (1 + z.crossings ops) * t.tree.depth + LOp.points ops + k)

/-- No edit leaves the sequence empty. -/
def RazTree.NeverEmpty [RazMeta E M] (t : RazTree E M) : List (RazMeta.Index E M × List (LOp E)) → Prop
  | [] => True
  | (i, ops) :: l => (∀ op ∈ ops, op.Lifts) ∧ ∀ t', t.edit i ops = .ok t' → t'.tree ≠ .nil ∧ t'.NeverEmpty l

/-- The same for all batches. -/
def RazTree.NeverEmptied [RazMeta E M] (t : RazTree E M) : List (List (RazMeta.Index E M × List (LOp E))) → Prop
  | [] => True
  | es :: l => t.NeverEmpty es ∧ ∀ t' k, t.editsAny es = .ok (t', k) → t'.NeverEmptied l

/-- Batches of edits with values, the computation `val` after each: its result, the number of `editsAny`, and the gap of the tree. -/
def RazTree.rerunsAny [RazMeta E M] (val : RazTree E M → P B) (t : RazTree E M) :
    List (List (RazMeta.Index E M × List (LOp E))) → P (List (B × Nat × Nat))
  | [] => .ok []
  | es :: l => do
    let (t', k) ← t.editsAny es
    let b ← val t'
    let rest ← t'.rerunsAny val l
    return (b, k, t'.tree.gap) :: rest

/-- A session with values, as `rerunSession`. -/
def rerunAnySession [RazMeta E M] (val : RazTree E M → P B) (ops : List (LOp E)) (l : List (List (RazMeta.Index E M × List (LOp E)))) :
    P (B × Nat × List (B × Nat × Nat)) := do
  let z ← (Raz.new : Raz E M).lops ops
  let t ← z.unfocus
  let b ← val t
  let rest ← t.rerunsAny val l
  return (b, t.tree.size, rest)

/-- The sequence of the session is made and never empty. -/
def FullReruns [RazMeta E M] (ops : List (LOp E)) (l : List (List (RazMeta.Index E M × List (LOp E)))) : Prop :=
  (∀ op ∈ ops, op.Lifts) ∧ ∀ z t, (Raz.new : Raz E M).lops ops = .ok z → z.unfocus = .ok t → t.tree ≠ .nil ∧ t.NeverEmptied l

end Iodyn
