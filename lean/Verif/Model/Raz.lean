import Verif.Model.Cursor
import Verif.Model.Stack
import Verif.Model.Meta
/-
Model of src/raz.rs (functional engine).
-/
namespace Iodyn

/-- `enum TreeData`, src/raz.rs:57-61. -/
inductive TreeData (E M : Type) where
  | dummy
  | branch (l r : M)
  | leaf (v : List E)
  deriving DecidableEq, Repr

section
variable {E M R N A : Type}

/-- The closure `meta` in `rebuild`, src/raz.rs:70-77. -/
def rebuildMeta [RazMeta E M] (level : Nat) (name : Option Name) : Option (TreeData E M) → P M
  | none => .ok (RazMeta.fromNone E level name)
  | some .dummy => .error .unreachable
  | some (.leaf v) => .ok (RazMeta.fromVec v level name)
  | some (.branch l r) => .ok (RazMeta.fromMeta E l r level name)

/-- `TreeData::rebuild`, src/raz.rs:63-82. -/
def TreeData.rebuild [RazMeta E M] (l : Option (TreeData E M)) (old : TreeData E M) (level : Nat)
    (name : Option Name) (r : Option (TreeData E M)) : P (TreeData E M) :=
  match old with
  | .leaf v => .ok (.leaf v)
  | _ => do
    let a ← rebuildMeta level name l
    let b ← rebuildMeta level name r
    return .branch a b

/-- `impl TreeUpdate for TreeData`, src/raz.rs:63-82. -/
instance instTreeUpdateTreeData [RazMeta E M] : TreeUpdate (TreeData E M) where
  rebuild := TreeData.rebuild

/-- `struct RazTree`, src/raz.rs:88-91. -/
structure RazTree (E M : Type) where
  info : M
  tree : Tree (TreeData E M)
  deriving DecidableEq, Repr

/-- `struct Raz`, src/raz.rs:46-51. -/
structure Raz (E M : Type) where
  lForest : Cursor (TreeData E M)
  lStack : AStack E Nat
  rStack : AStack E Nat
  rForest : Cursor (TreeData E M)
  deriving DecidableEq, Repr

/-- `treetop_meta`, src/raz.rs:93-105. -/
def treetopMeta [RazMeta E M] (t : Tree (TreeData E M)) : P M :=
  match t with
  | .nil => .ok (RazMeta.fromNone E 0 none)
  | .node _ _ .dummy _ _ => .error .unreachable
  | .node _ _ (.leaf v) _ _ => .ok (RazMeta.fromVec v 0 none)
  | .node _ _ (.branch l r) _ _ => .ok (RazMeta.fromMeta E l r 0 none)

/-- `RazTree{meta: treetop_meta(t), tree: t}`, e.g. src/raz.rs:529. -/
def mkRazTree [RazMeta E M] (t : Tree (TreeData E M)) : P (RazTree E M) := do
  let m ← treetopMeta t
  return { info := m, tree := t }

/-- `leaf`, src/raz.rs:687-689. -/
def leaf (v : List E) (n : Option Name) : Tree (TreeData E M) := .node 0 n (.leaf v) .nil .nil

/-- `bin`, src/raz.rs:692-708. -/
def bin [RazMeta E M] (t1 : Tree (TreeData E M)) (l : Nat) (n : Option Name) (t2 : Tree (TreeData E M)) :
    P (Tree (TreeData E M)) := do
  let td ← TreeData.rebuild t1.peek? .dummy l n t2.peek?
  return .node l n td t1 t2

namespace RazTree

/-- `is_empty`, src/raz.rs:110. -/
def isEmpty (t : RazTree E M) : Bool := !t.tree.isSome

/-- `empty`, src/raz.rs:113-115. -/
def empty [RazMeta E M] : RazTree E M := { info := RazMeta.fromNone E 0 none, tree := .nil }

/-- `join`, src/raz.rs:121-131. -/
def join [RazMeta E M] (lt : RazTree E M) (level : Nat) (name : Option Name) (rt : RazTree E M) :
    P (Option (RazTree E M)) :=
  match lt.tree, rt.tree with
  | .node .., .node .. => do
    let t ← bin lt.tree level name rt.tree
    let rz ← mkRazTree t
    return some rz
  | _, _ => .ok none

/-- `from_vec`, src/raz.rs:137-141. -/
def fromVec [RazMeta E M] (v : List E) : P (Option (RazTree E M)) :=
  if v = [] then .ok none
  else do
    let rz ← mkRazTree (leaf v none)
    return some rz

/-- The leaf case of the node function in `fold_up` and `fold_up_nl`, src/raz.rs:157-163, 189-195. -/
def foldLeaf (init : E → R) (bin : R → R → R) (v : List E) : P R :=
  match v.map init with
  | [] => .error .expect
  | first :: rest => .ok (rest.foldl bin first)

/-- `fold_up`, src/raz.rs:148-172. -/
def foldUp (init : E → R) (bin : R → R → R) (t : RazTree E M) : P (Option R) :=
  t.tree.foldUp (fun l c r =>
    match c with
    | .leaf v => foldLeaf init bin v
    | _ =>
      match l, r with
      | none, none => .error .explicit
      | some r, none => .ok r
      | none, some r => .ok r
      | some r1, some r2 => .ok (bin r1 r2))

/-- `fold_up_nl`, src/raz.rs:179-204. -/
def foldUpNl (init : E → R) (bin : R → R → R) (binnl : R → Nat → Option Name → R → R) (t : RazTree E M) :
    P (Option R) :=
  t.tree.foldUpMeta (fun l c lv n r =>
    match c with
    | .leaf v => foldLeaf init bin v
    | _ =>
      match l, r with
      | none, none => .error .explicit
      | some r, none => .ok r
      | none, some r => .ok r
      | some lr, some rr => .ok (binnl lr lv n rr))

/-- `fold_up_gauged`, src/raz.rs:210-230. The user functions may panic (as in eval/examples/reverse.rs). -/
def foldUpGauged (init : List E → P R) (bin : R → Nat → Option Name → R → P R) (t : RazTree E M) :
    P (Option R) :=
  t.tree.foldUpMeta (fun l c lv n r =>
    match c with
    | .leaf v => init v
    | _ =>
      match l, r with
      | none, none => .error .explicit
      | some r, none => .ok r
      | none, some r => .ok r
      | some lr, some rr => bin lr lv n rr)

/-- `fold_lr_meta`, src/raz.rs:239-260. -/
def foldLrMeta (init : A) (bin : A → E → A) (mt : A → Nat × Option Name → A) (t : RazTree E M) : A :=
  t.tree.foldLrMeta (fun a e l n =>
    match e with
    | .leaf v => v.foldl bin a
    | _ => mt a (l, n)) (some (.str "start")) init

/-- `fold_lr`, src/raz.rs:233-236. -/
def foldLr (init : A) (bin : A → E → A) (t : RazTree E M) : A :=
  t.foldLrMeta init bin (fun a _ => a)

/-- `fold_lr_archive`, src/raz.rs:263-285. -/
def foldLrArchive (init : A) (bin : A → E → A) (finbin : A → Option Name → A) (mt : A → Nat → A)
    (t : RazTree E M) : A :=
  t.tree.foldLrMeta (fun a e l n =>
    match e with
    | .leaf v => finbin (v.foldl bin a) n
    | _ => mt a l) (some (.str "start")) init

/-- `map`, src/raz.rs:288-317. -/
def map [RazMeta R N] (f : E → R) (t : RazTree E M) : P (RazTree R N) := do
  let tree ← t.tree.map (fun d lev n l r =>
    match d with
    | .leaf v => .ok (.leaf (v.map f))
    | _ => TreeData.rebuild l.peek? .dummy lev n r.peek?)
  mkRazTree tree

/-- Loop of `focus`, src/raz.rs:335-352: walk down while the node is a branch. `none` is `return None`
(line 350). At most `n` iterations, `n` = tree size. -/
def focusLoop [RazMeta E M] : Nat → Cursor (TreeData E M) → RazMeta.Index E M →
    P (Option (Cursor (TreeData E M) × RazMeta.Index E M))
  | n, c, i => do
    let d ← unwrap c.peek
    match d with
    | .branch l r =>
      match n with
      | 0 => .ok (some (c, i)) -- not reached, see `focusLoop` lemmas
      | n+1 =>
        match ← RazMeta.navigate l r i with
        | .left j => do
          let (c', ok) := c.downLeft
          assert ok
          focusLoop n c' j
        | .right j => do
          let (c', ok) := c.downRight
          assert ok
          focusLoop n c' j
        | .here => do
          let (c', ok) := c.downLeft
          assert ok
          focusLoop n c'.downRightAll RazMeta.last
        | .nowhere => .ok none
    | _ => .ok (some (c, i))

/-- The empty `Raz` of src/raz.rs:325-330, 383-388, 433-438. -/
def emptyRaz : Raz E M := { lForest := Cursor.new, lStack := AStack.new, rStack := AStack.new, rForest := Cursor.new }

/-- `focus`, src/raz.rs:321-377. -/
def focus [RazMeta E M] (t : RazTree E M) (index : RazMeta.Index E M) : P (Option (Raz E M)) :=
  match t.tree with
  | .nil => .ok (some emptyRaz)
  | .node .. => do
    match ← focusLoop t.tree.size (Cursor.ofTree t.tree) index with
    | none => .ok none
    | some (cursor, index) => do
      let (lc, tree, rc) := cursor.split
      match tree with
      | .node _ _ (.leaf v) _ _ => do
        let (a, b) ← RazMeta.splitVec v index
        return some { lForest := lc, lStack := AStack.new.extend a, rStack := AStack.new.extendRev b, rForest := rc }
      | _ => .error .unreachable

/-- `focus_left`, src/raz.rs:380-416. -/
def focusLeft (t : RazTree E M) : P (Raz E M) :=
  match t.tree with
  | .nil => .ok emptyRaz
  | .node .. => do
    let cursor := (Cursor.ofTree t.tree).downLeftAll
    let (lc, tree, rc) := cursor.split
    match tree with
    | .node _ _ (.leaf v) _ _ =>
      return { lForest := lc, lStack := AStack.new, rStack := AStack.new.extendRev v, rForest := rc }
    | _ => .error .unreachable

end RazTree

namespace Raz

/-- `Raz::new`, src/raz.rs:432-439. -/
def new : Raz E M := RazTree.emptyRaz

/-- `stack.name().map(|n| name_pair(n, nmtree))`, src/raz.rs:444, 450, 455, 465, 471, 482, 488, 490, 497. -/
def treeName (s : AStack E Nat) : Option Name := s.name.map (fun n => .pair n (.str "tree"))

/-- Loop of src/raz.rs:483-489, over the left stack. -/
def joinLeftLoop [RazMeta E M] (s : AStack E Nat) (cursor : Cursor (TreeData E M)) (lLev : Option Nat)
    (lNm nextNm : Option Name) : P (Cursor (TreeData E M)) :=
  match h : s.nextArchive with
  | (_, none) => .ok cursor
  | (s', some (lVec, nextLev)) =>
    have := AStack.nextArchive_weight h
    do
      let lev ← unwrap lLev
      let cursor ← Cursor.join (Cursor.ofTree (leaf lVec none)) lev lNm .dummy cursor
      joinLeftLoop s' cursor nextLev nextNm (treeName s')
termination_by s.weight

/-- Loop of src/raz.rs:491-498, over the right stack. -/
def joinRightLoop [RazMeta E M] (s : AStack E Nat) (cursor : Cursor (TreeData E M)) (rLev : Option Nat)
    (rNm nextNm : Option Name) : P (Cursor (TreeData E M)) :=
  match h : s.nextArchive with
  | (_, none) => .ok cursor
  | (s', some (rVec, nextLev)) =>
    have := AStack.nextArchive_weight h
    do
      let lev ← unwrap rLev
      let cursor ← Cursor.join cursor lev rNm .dummy (Cursor.ofTree (leaf rVec.reverse none))
      joinRightLoop s' cursor nextLev nextNm (treeName s')
termination_by s.weight

/-- State of `unfocus` after step 1 (src/raz.rs:449-478): the stacks, pending levels and names, and the
center vector `vec`. -/
structure Center (E : Type) where
  lStack : AStack E Nat
  rStack : AStack E Nat
  lLev : Option Nat
  rLev : Option Nat
  lNm : Option Name
  rNm : Option Name
  vec : Option (List E)

/-- The result of one `next_archive` at src/raz.rs:451-454 / 456-459: new stack, level, non-empty vector. -/
def openSide (s : AStack E Nat) : AStack E Nat × Option Nat × Option (List E) :=
  match s.nextArchive with
  | (s', none) => (s', none, none)
  | (s', some (v, lev)) => (s', lev, if v.length > 0 then some v else none)

/-- Step 1 of `unfocus`, src/raz.rs:444-478. -/
def center (ls rs : AStack E Nat) : P (Center E) := do
  let lNm := treeName ls
  let (ls, lLev, lVec) := openSide ls
  let rNm := treeName rs
  let (rs, rLev, rVec) := openSide rs
  match lVec, rVec with
  | some v, none => return ⟨ls, rs, lLev, rLev, lNm, rNm, some v⟩
  | none, some v => return ⟨ls, rs, lLev, rLev, lNm, rNm, some v.reverse⟩
  | some lv, some rv => return ⟨ls, rs, lLev, rLev, lNm, rNm, some (lv ++ rv.reverse)⟩
  | none, none =>
    if ls.isEmpty = false then do
      let lNm := treeName ls
      match ls.nextArchive with
      | (ls, some (v, lev)) => return ⟨ls, rs, lev, rLev, lNm, rNm, some v⟩
      | (_, none) => .error .unwrapNone
    else if rs.isEmpty = false then do
      let rNm := treeName rs
      match rs.nextArchive with
      | (rs, some (v, lev)) => return ⟨ls, rs, lLev, lev, lNm, rNm, some v.reverse⟩
      | (_, none) => .error .unwrapNone
    else return ⟨ls, rs, lLev, rLev, lNm, rNm, none⟩

/-- `unwrap` of an optional tree, src/raz.rs:500, 506, 509. -/
def unwrapTree (t : Tree (TreeData E M)) : P (Tree (TreeData E M)) :=
  if t.isSome then .ok t else .error .unwrapNone

/-- Step 2 of `unfocus`, src/raz.rs:479-511: the center tree, with the remaining forests. `none` is the early
`return` at line 504. -/
def centerTree [RazMeta E M] (c : Center E) (lf rf : Cursor (TreeData E M)) :
    P (Option (Tree (TreeData E M) × Cursor (TreeData E M) × Cursor (TreeData E M))) :=
  match c.vec with
  | some v => do
    let cursor := Cursor.ofTree (leaf v none)
    let cursor ← joinLeftLoop c.lStack cursor c.lLev c.lNm (treeName c.lStack)
    let cursor ← joinRightLoop c.rStack cursor c.rLev c.rNm (treeName c.rStack)
    let cursor ← cursor.upAll cursor.height
    let t ← unwrapTree cursor.atTree
    return some (t, lf, rf)
  | none => do
    let (lf, res) ← lf.up
    if res = .fail then do
      let (rf, res) ← rf.up
      if res = .fail then return none
      else do
        let t ← unwrapTree rf.rightTree
        return some (t, lf, rf)
    else do
      let t ← unwrapTree lf.leftTree
      return some (t, lf, rf)

/-- Step 3 of `unfocus`, left half, src/raz.rs:514-519. -/
def joinLeftForest [RazMeta E M] (lf jc : Cursor (TreeData E M)) : P (Cursor (TreeData E M)) := do
  let (lf, res) ← lf.up
  if res ≠ .fail then do
    let lev ← unwrap lf.peekLevel
    let nm := lf.peekName
    Cursor.join (lf.downLeftForce .discard).1 lev nm .dummy jc
  else return jc

/-- Step 3 of `unfocus`, right half, src/raz.rs:520-525. -/
def joinRightForest [RazMeta E M] (jc rf : Cursor (TreeData E M)) : P (Cursor (TreeData E M)) := do
  let (rf, res) ← rf.up
  if res ≠ .fail then do
    let lev ← unwrap rf.peekLevel
    let nm := rf.peekName
    Cursor.join jc lev nm .dummy (rf.downRightForce .discard).1
  else return jc

/-- Step 3 and 4 of `unfocus`, src/raz.rs:512-529. -/
def joinForests [RazMeta E M] (tree : Tree (TreeData E M)) (lf rf : Cursor (TreeData E M)) : P (RazTree E M) := do
  let jc ← joinLeftForest lf (Cursor.ofTree tree)
  let jc ← joinRightForest jc rf
  let jc ← jc.upAll jc.height
  mkRazTree jc.atTree

/-- `unfocus`, src/raz.rs:443-530. -/
def unfocus [RazMeta E M] (z : Raz E M) : P (RazTree E M) := do
  let c ← center z.lStack z.rStack
  match ← centerTree c z.lForest z.rForest with
  | none => mkRazTree .nil
  | some (t, lf, rf) => joinForests t lf rf

/-- `push_left`, src/raz.rs:559-562. -/
def pushLeft (z : Raz E M) (e : E) : Raz E M × Nat :=
  let s := z.lStack.push e
  ({ z with lStack := s }, s.activeLen)
/-- `push_right`, src/raz.rs:566-569. -/
def pushRight (z : Raz E M) (e : E) : Raz E M × Nat :=
  let s := z.rStack.push e
  ({ z with rStack := s }, s.activeLen)

/-- `peek_left`, src/raz.rs:571-583. -/
def peekLeft [RazMeta E M] (z : Raz E M) : P (Option E) :=
  if z.lStack.isEmpty then do
    let (pf, res) ← z.lForest.up
    if res = .fail then return none
    else
      let pf := pf.downLeft.1
      let pf := pf.downRightAll
      match pf.peek with
      | some (.leaf data) => return data.getLast?
      | _ => .error .explicit
  else z.lStack.peek

/-- `peek_right`, src/raz.rs:585-597. -/
def peekRight [RazMeta E M] (z : Raz E M) : P (Option E) :=
  if z.rStack.isEmpty then do
    let (pf, res) ← z.rForest.up
    if res = .fail then return none
    else
      let pf := pf.downRight.1
      let pf := pf.downLeftAll
      match pf.peek with
      | some (.leaf data) => return data.head?
      | _ => .error .explicit
  else z.rStack.peek

/-- `archive_left`, src/raz.rs:599-601. -/
def archiveLeft (z : Raz E M) (level : Nat) (name : Option Name) : Raz E M :=
  { z with lStack := (z.lStack.archive name level).1 }
/-- `archive_right`, src/raz.rs:603-605. -/
def archiveRight (z : Raz E M) (level : Nat) (name : Option Name) : Raz E M :=
  { z with rStack := (z.rStack.archive name level).1 }

/-- `pop_left`, src/raz.rs:611-623. -/
def popLeft [RazMeta E M] (z : Raz E M) : P (Raz E M × Option E) := do
  if z.lStack.isEmpty then
    let (lf, res) ← z.lForest.up
    if res = .fail then return ({ z with lForest := lf }, none)
    else
      let lf := (lf.downLeftForce .discard).1
      let lf := lf.downRightAll
      match lf.peek with
      | some (.leaf data) => do
        let (s, e) ← (z.lStack.extend data).pop
        return ({ z with lForest := lf, lStack := s }, e)
      | _ => .error .explicit
  else do
    let (s, e) ← z.lStack.pop
    return ({ z with lStack := s }, e)

/-- `pop_right`, src/raz.rs:628-640. -/
def popRight [RazMeta E M] (z : Raz E M) : P (Raz E M × Option E) := do
  if z.rStack.isEmpty then
    let (rf, res) ← z.rForest.up
    if res = .fail then return ({ z with rForest := rf }, none)
    else
      let rf := (rf.downRightForce .discard).1
      let rf := rf.downLeftAll
      match rf.peek with
      | some (.leaf data) => do
        let (s, e) ← (z.rStack.extendRev data).pop
        return ({ z with rForest := rf, rStack := s }, e)
      | _ => .error .explicit
  else do
    let (s, e) ← z.rStack.pop
    return ({ z with rStack := s }, e)

end Raz
end
end Iodyn
