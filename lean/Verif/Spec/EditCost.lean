import Verif.Spec.Incr
/-
Editing a sequence at one place after another and folding it again after each edit: the work that this takes.
-/
namespace Iodyn
variable {E M R D : Type}

/-- The calls that change what is next to the cursor: `push_left`, `push_right`, `archive_left`, `archive_right`, `pop_left` and `pop_right`,
src/raz.rs:559-570, 599-606, 611-644. -/
inductive LOp (E : Type) where
  | pushL (x : E)
  | pushR (x : E)
  | archL (lev : Nat) (nm : Option Name)
  | archR (lev : Nat) (nm : Option Name)
  | popL
  | popR

/-- The name that a call gives to an archive point. -/
def LOp.name? : LOp E → Option Name
  | .archL _ nm => nm
  | .archR _ nm => nm
  | _ => none

/-- The names that calls give to cells: that of the archive point and that of its tree node (src/raz.rs:482). -/
def LOp.cells : List (LOp E) → List Name
  | [] => []
  | op :: l => op.name?.toList ++ (op.name?.map (fun n => .pair n (.str "tree"))).toList ++ LOp.cells l

/-- The number of named archive points. -/
def LOp.points : List (LOp E) → Nat
  | [] => 0
  | op :: l => (if op.name?.isSome then 1 else 0) + LOp.points l

/-- The call gives a name to its archive point, if it makes one. -/
def LOp.Titles : LOp E → Prop
  | .archL _ nm => nm.isSome = true
  | .archR _ nm => nm.isSome = true
  | _ => True

/-- Levels start from 1. -/
def LOp.Lifts : LOp E → Prop
  | .archL lev _ => 1 ≤ lev
  | .archR lev _ => 1 ≤ lev
  | _ => True

/-- On this side the cursor is next to an element, or to an archive point that was made since the last `focus`. -/
def Near (side : List (Item E)) : Prop := ∃ i r, side = i :: r ∧ ∀ lev nm, i ≠ .mark lev nm

/-- One call, with values, src/raz.rs:559-644. -/
def Raz.lop [RazMeta E M] (z : Raz E M) : LOp E → P (Raz E M)
  | .pushL x => .ok (z.pushLeft x).1
  | .pushR x => .ok (z.pushRight x).1
  | .archL lev nm => .ok (z.archiveLeft lev nm)
  | .archR lev nm => .ok (z.archiveRight lev nm)
  | .popL => do
    let (z', _) ← z.popLeft
    return z'
  | .popR => do
    let (z', _) ← z.popRight
    return z'

/-- All calls. -/
def Raz.lops [RazMeta E M] (z : Raz E M) : List (LOp E) → P (Raz E M)
  | [] => .ok z
  | op :: l => do
    let z' ← z.lop op
    z'.lops l

/-- The call stays at its place: it does not pop an archive point of the tree, nor at an end of the sequence. Levels start from 1. -/
def LOp.Stays (z : Raz E M) : LOp E → Prop
  | .archL lev _ => 1 ≤ lev
  | .archR lev _ => 1 ≤ lev
  | .popL => Near z.left
  | .popR => Near z.right
  | _ => True

/-- All calls stay at their place and at the end something is left there. -/
def Raz.Local [RazMeta E M] (z : Raz E M) : List (LOp E) → Prop
  | [] => Near z.left ∨ Near z.right
  | op :: l => op.Stays z ∧ ∀ z', z.lop op = .ok z' → z'.Local l

/-- One edit with values: `focus` (with `unwrap`), the calls, `unfocus`, src/raz.rs:321-378, 443-529. -/
def RazTree.edit [RazMeta E M] (t : RazTree E M) (i : RazMeta.Index E M) (ops : List (LOp E)) : P (RazTree E M) := do
  let o ← t.focus i
  let z ← unwrap o
  let z ← z.lops ops
  z.unfocus

/-- All edits stay at their place. -/
def RazTree.LocalEdit [RazMeta E M] (t : RazTree E M) : List (RazMeta.Index E M × List (LOp E)) → Prop
  | [] => True
  | (i, ops) :: l => (∀ z, t.focus i = .ok (some z) → z.Local ops) ∧ ∀ t', t.edit i ops = .ok t' → t'.LocalEdit l

/-- The number of steps from the root of a tree to its deepest node. -/
def Tree.depth : Tree D → Nat
  | .nil => 0
  | .node _ _ _ .nil .nil => 0
  | .node _ _ _ l r => 1 + max l.depth r.depth

/-- The nodes that are reached from the root through nodes without a name. -/
def Tree.unnamed : Tree D → Nat
  | .nil => 0
  | .node _ (some _) _ _ _ => 1
  | .node _ none _ l r => 1 + l.unnamed + r.unnamed

/-- The largest such part of a tree. It is 1 if all nodes that have branches have a name. -/
def Tree.gap : Tree D → Nat
  | .nil => 0
  | .node lv n d l r => max (Tree.unnamed (.node lv n d l r)) (max l.gap r.gap)

/-- Edits with values: for each the result of the fold over the new tree, the depth of the tree before, the number of named archive points
that were added, and the gap of the new tree. -/
def RazTree.refolds [RazMeta E M] (up : Option R → TreeData E M → Nat → Option Name → Option R → P R) (t : RazTree E M) :
    List (RazMeta.Index E M × List (LOp E)) → P (List (Option R × Nat × Nat × Nat))
  | [] => .ok []
  | (i, ops) :: l => do
    let t' ← t.edit i ops
    let r ← t'.tree.foldUpMeta up
    let rest ← t'.refolds up l
    return (r, t.tree.depth, LOp.points ops, t'.tree.gap) :: rest

/-- A session with values: a sequence is made with some calls and folded, then come the edits. Returned are the result of the first fold,
the size of the first tree and what `refolds` returns. -/
def refoldSession [RazMeta E M] (up : Option R → TreeData E M → Nat → Option Name → Option R → P R) (ops : List (LOp E))
    (l : List (RazMeta.Index E M × List (LOp E))) : P (Option R × Nat × List (Option R × Nat × Nat × Nat)) := do
  let z ← (Raz.new : Raz E M).lops ops
  let t ← z.unfocus
  let r ← t.tree.foldUpMeta up
  let rest ← t.refolds up l
  return (r, t.tree.size, rest)

/-- The sequence of the session is made and edited locally. -/
def LocalSession [RazMeta E M] (ops : List (LOp E)) (l : List (RazMeta.Index E M × List (LOp E))) : Prop :=
  (Raz.new : Raz E M).Local ops ∧ ∀ z t, (Raz.new : Raz E M).lops ops = .ok z → z.unfocus = .ok t → t.LocalEdit l

/-- The names that the session gives to cells. -/
def sessionCells {I : Type} (ops : List (LOp E)) : List (I × List (LOp E)) → List Name
  | [] => LOp.cells ops
  | (_, ops') :: l => LOp.cells ops' ++ sessionCells ops l

/-! ### Over the store -/
namespace Heap

/-- One call, src/raz.rs:559-644. -/
def HRaz.lop [RazMeta E M] (e : Engine) (z : HRaz E) : LOp E → HR E M (HRaz E)
  | .pushL x => return (z.pushLeft x).1
  | .pushR x => return (z.pushRight x).1
  | .archL lev nm => z.archiveLeft e lev nm
  | .archR lev nm => z.archiveRight e lev nm
  | .popL => do
    let (z', _) ← z.popLeft e
    return z'
  | .popR => do
    let (z', _) ← z.popRight e
    return z'

/-- All calls. -/
def HRaz.lops [RazMeta E M] (e : Engine) (z : HRaz E) : List (LOp E) → HR E M (HRaz E)
  | [] => return z
  | op :: l => do
    let z' ← z.lop e op
    HRaz.lops e z' l

/-- One edit: `focus` (with `unwrap`), the calls, `unfocus`, src/raz.rs:321-378, 443-529. -/
def HTree.edit [RazMeta E M] (e : Engine) (t : HTree M) (i : RazMeta.Index E M) (ops : List (LOp E)) : HR E M (HTree M) := do
  let o ← t.focus i
  let z ← liftP (unwrap o)
  let z ← z.lops e ops
  z.unfocus e

/-- The fold over a tree in namespace `p` with the stored calls `T` (`fold_up_meta`, src/level_tree.rs:101-121, as in src/raz.rs:148-177): result,
number of nodes at which the function was run, and the stored calls afterwards. -/
def refold [DecidableEq E] [DecidableEq M] [DecidableEq R] (F : Incr.Fns (TreeData E M) R) (p : Name) (t : HTree M) (T : RTable E M R) :
    HR E M (Option R × Nat × RTable E M R) := fun f σ =>
  match t.tree with
  | none => .ok ((none, 0, T), σ)
  | some h =>
    match Incr.mrun (Incr.foldBody F) p σ f (.up h) T with
    | none => diverge f σ
    | some (.error q) => .error q
    | some (.ok o) => .ok ((some o.val, o.work, o.table), σ)

/-- Edits, and after each the fold: results and work. -/
def HTree.refolds [RazMeta E M] [DecidableEq E] [DecidableEq M] [DecidableEq R] (F : Incr.Fns (TreeData E M) R) (p : Name) (t : HTree M)
    (T : RTable E M R) : List (RazMeta.Index E M × List (LOp E)) → HR E M (List (Option R × Nat))
  | [] => return []
  | (i, ops) :: l => do
    let t' ← t.edit .dcg i ops
    let (r, w, T') ← refold F p t' T
    let rest ← HTree.refolds F p t' T' l
    return (r, w) :: rest

/-- The session. -/
def hrefoldSession [RazMeta E M] [DecidableEq E] [DecidableEq M] [DecidableEq R] (F : Incr.Fns (TreeData E M) R) (p : Name) (ops : List (LOp E))
    (l : List (RazMeta.Index E M × List (LOp E))) : HR E M (Option R × Nat × List (Option R × Nat)) := do
  let z ← HRaz.lops .dcg (HRaz.new : HRaz E) ops
  let t ← z.unfocus .dcg
  let (r, w, T) ← refold F p t Incr.Table.empty
  let rest ← t.refolds F p T l
  return (r, w, rest)

end Heap
end Iodyn
