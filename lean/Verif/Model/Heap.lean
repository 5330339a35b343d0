import Verif.Model.Store
import Verif.Model.Raz
/-
Model of src/stack.rs, src/archive_stack.rs, src/level_tree.rs, src/tree_cursor.rs and src/raz.rs over a store of
articulations: trees and stacks are handles whose content is read with `force` and made with `put` (no name) or `cell`
(named). With the incremental engine (`Engine.dcg`) a `cell` with a name in use replaces the content that all other
handles see. One store holds the cells of both types; reading a cell as the wrong type is a panic here.
Memoisation is not modelled; `memo_from`, `map` and the folds are not part of this file.
-/
namespace Iodyn.Heap
variable {D X E M A B : Type}

/-- `struct Tree<E>`, src/level_tree.rs:20-25: level, name and the articulation of the node. -/
structure Tr where
  level : Nat
  name : Option Name
  link : Loc
  deriving DecidableEq

/-- `struct Head<T>`, src/stack.rs:28-31. -/
structure Head where
  name : Option Name
  main : Loc
  deriving DecidableEq

/-- Content of an articulation: `TreeNode<E>`, src/level_tree.rs:26-31, or `Body<T>`, src/stack.rs:32-36. -/
inductive Cell (D X : Type) where
  | node (data : D) (l r : Option Tr)
  | body (elem : X) (next : Option Head)
  deriving DecidableEq

/-- The store of all articulations, cf. `Verif/Model/Store.lean` (src/level_tree.rs:58, 66; src/stack.rs:120, 127). -/
abbrev Mem (D X : Type) := Store (Cell D X)

/-- A computation on the store that may panic. The first argument bounds the number of iterations of each loop that follows
links of the store (e.g. src/raz.rs:576); it stands for a call that does not return if no bound suffices. -/
def H (D X A : Type) := Nat → Mem D X → P (A × Mem D X)

/-- Sequencing of statements; no counterpart in /repo (a Rust block, e.g. src/raz.rs:611-623). -/
instance : Monad (H D X) where
  pure a := fun _ σ => .ok (a, σ)
  bind m k := fun f σ =>
    match m f σ with
    | .error p => .error p
    | .ok (a, σ') => k a f σ'

/-- A computation that does not touch the store, e.g. `unwrap()` at src/raz.rs:467. -/
def liftP (x : P A) : H D X A := fun _ σ =>
  match x with
  | .error p => .error p
  | .ok a => .ok (a, σ)

/-- A loop that does not end, e.g. src/tree_cursor.rs:222-225 on a cyclic store; no counterpart in /repo, see `H`. -/
def diverge : H D X A := fun _ _ => .error .explicit

/-- `ns(name, body)`, src/lib.rs:23-26, eval/src/actions.rs:287: runs the body in the namespace `name` of the current one. The
function is Adapton's and not in /repo; names are looked up in the current namespace only, and the namespace is that of the
caller again afterwards. -/
def ns (n : Name) (m : H D X A) : H D X A := fun f σ =>
  match m f { σ with path := n :: σ.path } with
  | .error p => .error p
  | .ok (a, σ') => .ok (a, { σ' with path := σ.path })

/-! ### src/level_tree.rs -/

/-- `force(&self.link)`, src/level_tree.rs:82-88. -/
def forceNode (l : Loc) : H D X (D × Option Tr × Option Tr) := fun _ σ =>
  match σ.cells l with
  | some (.node d a b) => .ok ((d, a, b), σ)
  | _ => .error .unreachable

/-- `Tree::new`, src/level_tree.rs:36-73. -/
def newTree (e : Engine) (level : Nat) (name : Option Name) (data : D) (l r : Option Tr) : H D X Tr := fun _ σ =>
  match name with
  | some n =>
    let (σ', a) := σ.cell e n (.node data l r)
    .ok (⟨level, some n, a⟩, σ')
  | none =>
    let (σ', a) := σ.put (.node data l r)
    .ok (⟨level, none, a⟩, σ')

namespace Tr
/-- `l_tree`, src/level_tree.rs:82. -/
def lTree (t : Tr) : H D X (Option Tr) := do
  let (_, l, _) ← forceNode t.link
  return l
/-- `r_tree`, src/level_tree.rs:85. -/
def rTree (t : Tr) : H D X (Option Tr) := do
  let (_, _, r) ← forceNode t.link
  return r
/-- `peek`, src/level_tree.rs:88. -/
def peek (t : Tr) : H D X D := do
  let (d, _, _) ← forceNode t.link
  return d
end Tr

/-- `peek_op`, src/tree_cursor.rs:101-106. -/
def peekOp : Option Tr → H D X (Option D)
  | none => return none
  | some t => do
    let d ← t.peek
    return some d

/-! ### src/tree_cursor.rs -/

/-- `struct Cursor`, src/tree_cursor.rs:30-36. The list head of a forest is the last entry of the `Vec`. -/
structure Cur where
  dirty : Bool
  lForest : List (Bool × Tr)
  tree : Option Tr
  rForest : List (Bool × Tr)

namespace Cur

/-- `From<Tree<E>>`, src/tree_cursor.rs:110-120. -/
def ofTree (t : Tr) : Cur := { dirty := false, lForest := [], tree := some t, rForest := [] }
/-- `Cursor::new`, src/tree_cursor.rs:125-132. -/
def new : Cur := { dirty := false, lForest := [], tree := none, rForest := [] }

/-- `left_tree`, src/tree_cursor.rs:257-259. -/
def leftTree (c : Cur) : H D X (Option Tr) :=
  match c.tree with
  | none => return none
  | some t => t.lTree
/-- `right_tree`, src/tree_cursor.rs:261-263. -/
def rightTree (c : Cur) : H D X (Option Tr) :=
  match c.tree with
  | none => return none
  | some t => t.rTree

/-- `split`, src/tree_cursor.rs:146-166. -/
def split (c : Cur) : H D X (Cur × Option Tr × Cur) := do
  let l ← c.leftTree
  let r ← c.rightTree
  return ({ dirty := true, lForest := c.lForest, tree := l, rForest := [] }, c.tree,
    { dirty := true, lForest := [], tree := r, rForest := c.rForest })

/-- `peek`, src/tree_cursor.rs:266-268. -/
def peek (c : Cur) : H D X (Option D) := peekOp c.tree
/-- `peek_level`, src/tree_cursor.rs:271-273. -/
def peekLevel (c : Cur) : Option Nat := c.tree.map Tr.level
/-- `peek_name`, src/tree_cursor.rs:277-282. -/
def peekName (c : Cur) : Option Name := c.tree.bind Tr.name

/-- `down_left_force`, src/tree_cursor.rs:305-320. -/
def downLeftForce (force : Force) (c : Cur) : H D X (Cur × Bool) :=
  match c.tree with
  | none => return (c, false)
  | some t => do
    let lt ← t.lTree
    if lt.isNone && decide (force = .no) then return (c, false)
    else if force = .discard then return ({ c with tree := lt, dirty := true }, true)
    else return ({ c with tree := lt, rForest := (c.dirty, t) :: c.rForest, dirty := false }, true)

/-- `down_right_force`, src/tree_cursor.rs:326-341. -/
def downRightForce (force : Force) (c : Cur) : H D X (Cur × Bool) :=
  match c.tree with
  | none => return (c, false)
  | some t => do
    let rt ← t.rTree
    if rt.isNone && decide (force = .no) then return (c, false)
    else if force = .discard then return ({ c with tree := rt, dirty := true }, true)
    else return ({ c with tree := rt, lForest := (c.dirty, t) :: c.lForest, dirty := false }, true)

/-- The choice of direction in `up`, src/tree_cursor.rs:351-356. -/
def upDir (c : Cur) : UpResult :=
  match c.lForest, c.rForest with
  | [], [] => .fail
  | _ :: _, [] => .left
  | (_, lt) :: _, (_, rt) :: _ => if rt.level > lt.level then .left else .right
  | [], _ :: _ => .right

/-- `up`, src/tree_cursor.rs:350-383. -/
def up [TreeUpdate D] (e : Engine) (c : Cur) : H D X (Cur × UpResult) :=
  match c.upDir with
  | .fail => return (c, .fail)
  | .left =>
    match c.lForest with
    | [] => liftP (.error .explicit)
    | (d, u) :: rest =>
      if c.dirty then do
        let lb ← u.lTree
        let ld ← peekOp lb
        let old ← u.peek
        let rd ← peekOp c.tree
        let data ← liftP (TreeUpdate.rebuild ld old u.level u.name rd)
        let t ← newTree e u.level u.name data lb c.tree
        return ({ c with lForest := rest, tree := some t }, .left)
      else return ({ c with lForest := rest, dirty := d, tree := some u }, .left)
  | .right =>
    match c.rForest with
    | [] => liftP (.error .explicit)
    | (d, u) :: rest =>
      if c.dirty then do
        let rb ← u.rTree
        let ld ← peekOp c.tree
        let old ← u.peek
        let rd ← peekOp rb
        let data ← liftP (TreeUpdate.rebuild ld old u.level u.name rd)
        let t ← newTree e u.level u.name data c.tree rb
        return ({ c with rForest := rest, tree := some t }, .right)
      else return ({ c with rForest := rest, dirty := d, tree := some u }, .right)

/-- Number of `up` moves until the root (src/tree_cursor.rs:350-383); bound for the loops below. Not in the code. -/
def height (c : Cur) : Nat := c.lForest.length + c.rForest.length

/-- The loops `while .. { assert!(cursor.up() != Fail) }`, src/tree_cursor.rs:215-221, 226-229; see `Cursor.upUntil`. -/
def upUntil [TreeUpdate D] (e : Engine) (stop : Cur → Bool) : Nat → Cur → H D X Cur
  | 0, c => if stop c then return c else liftP (.error .assertion)
  | n+1, c =>
    if stop c then return c
    else do
      let (c', res) ← c.up e
      if res = .fail then liftP (.error .assertion) else upUntil e stop n c'

/-- `while cursor.up() != UpResult::Fail {}`, src/raz.rs:499, 527. -/
def upAll [TreeUpdate D] (e : Engine) : Nat → Cur → H D X Cur
  | 0, c => return c
  | n+1, c => do
    let (c', res) ← c.up e
    if res = .fail then return c' else upAll e n c'

/-- Loop of src/tree_cursor.rs:222-225, at most `n` iterations. -/
def descendRightN (level : Nat) : Nat → Cur → H D X Cur
  | 0, _ => diverge
  | n+1, c =>
    match c.peekLevel with
    | none => return c
    | some h =>
      if h < level then return c
      else do
        let (c', ok) ← c.downRightForce .yes
        liftP (assert ok)
        descendRightN level n c'

/-- Loop of src/tree_cursor.rs:222-225. -/
def descendRight (level : Nat) (c : Cur) : H D X Cur := fun f => descendRightN level f c f

/-- Loop of src/tree_cursor.rs:230-233, at most `n` iterations. -/
def descendLeftN (level : Nat) : Nat → Cur → H D X Cur
  | 0, _ => diverge
  | n+1, c =>
    match c.peekLevel with
    | none => return c
    | some h =>
      if h ≤ level then return c
      else do
        let (c', ok) ← c.downLeftForce .yes
        liftP (assert ok)
        descendLeftN level n c'

/-- Loop of src/tree_cursor.rs:230-233. -/
def descendLeft (level : Nat) (c : Cur) : H D X Cur := fun f => descendLeftN level f c f

/-- `while cursor.down_right() {}`, e.g. src/raz.rs:347, 576, 615, at most `n` iterations. -/
def downRightAllN : Nat → Cur → H D X Cur
  | 0, _ => diverge
  | n+1, c => do
    let (c', ok) ← c.downRightForce .no
    if ok then downRightAllN n c' else return c'

/-- `while cursor.down_right() {}`, e.g. src/raz.rs:347, 576, 615. -/
def downRightAll (c : Cur) : H D X Cur := fun f => downRightAllN f c f

/-- `while cursor.down_left() {}`, e.g. src/raz.rs:393, 590, 632, at most `n` iterations. -/
def downLeftAllN : Nat → Cur → H D X Cur
  | 0, _ => diverge
  | n+1, c => do
    let (c', ok) ← c.downLeftForce .no
    if ok then downLeftAllN n c' else return c'

/-- `while cursor.down_left() {}`, e.g. src/raz.rs:393, 590, 632. -/
def downLeftAll (c : Cur) : H D X Cur := fun f => downLeftAllN f c f

/-- Stop condition of the loop src/tree_cursor.rs:218-221. -/
def stopLeft (level : Nat) (c : Cur) : Bool :=
  match c.lForest.head? with
  | none => true
  | some p => decide (p.2.level ≥ level)

/-- Stop condition of the loop src/tree_cursor.rs:226-229. -/
def stopRight (level : Nat) (c : Cur) : Bool :=
  match c.rForest.head? with
  | none => true
  | some p => decide (p.2.level > level)

/-- `Cursor::join`, src/tree_cursor.rs:213-249. -/
def join [TreeUpdate D] (e : Engine) (lc : Cur) (level : Nat) (name : Option Name) (data : D) (rc : Cur) : H D X Cur := do
  let lc ← upUntil e (fun c => c.rForest.isEmpty) lc.height lc
  let rc ← upUntil e (fun c => c.lForest.isEmpty) rc.height rc
  let lc ← upUntil e (stopLeft level) lc.height lc
  let lc ← lc.descendRight level
  let rc ← upUntil e (stopRight level) rc.height rc
  let rc ← rc.descendLeft level
  let ld ← peekOp lc.tree
  let rd ← peekOp rc.tree
  let d ← liftP (TreeUpdate.rebuild ld data level name rd)
  let t ← newTree e level name d lc.tree rc.tree
  return { dirty := true, lForest := lc.lForest, tree := some t, rForest := rc.rForest }

end Cur

/-! ### src/stack.rs and src/archive_stack.rs -/

/-- `force(&self.main)`, src/stack.rs:94, 104. -/
def forceBody (l : Loc) : H D X (X × Option Head) := fun _ σ =>
  match σ.cells l with
  | some (.body x n) => .ok ((x, n), σ)
  | _ => .error .unreachable

/-- `push_onto`, src/stack.rs:114-133; `Stack::push`, :51-53. -/
def pushOnto (e : Engine) (tail : Option Head) (name : Option Name) (elem : X) : H D X Head := fun _ σ =>
  match name with
  | none =>
    let (σ', a) := σ.put (.body elem tail)
    .ok (⟨none, a⟩, σ')
  | some n =>
    let (σ', a) := σ.cell e n (.body elem tail)
    .ok (⟨some n, a⟩, σ')

/-- `Stack::peek`, src/stack.rs:56-58. -/
def stackPeek : Option Head → H D X (Option X)
  | none => return none
  | some h => do
    let (x, _) ← forceBody h.main
    return some x

/-- `Stack::pull`, src/stack.rs:69-71. -/
def stackPull : Option Head → H D X (Option (Option Head))
  | none => return none
  | some h => do
    let (_, n) ← forceBody h.main
    return some n

/-- `struct AStack`, src/archive_stack.rs:35-40, with levels as metadata. -/
structure ASt (E : Type) where
  current : List E
  archived : Option Head

namespace ASt

/-- `AStack::new`, src/archive_stack.rs:62-75. -/
def new : ASt E := { current := [], archived := none }
/-- `is_empty`, src/archive_stack.rs:78. -/
def isEmpty (s : ASt E) : Bool := decide (s.current.length = 0) && s.archived.isNone
/-- `name`, src/archive_stack.rs:82, and `Stack::name`, src/stack.rs:61-66. -/
def name (s : ASt E) : Option Name := s.archived.bind Head.name
/-- `push`, src/archive_stack.rs:84. -/
def push (s : ASt E) (x : E) : ASt E := { s with current := s.current ++ [x] }
/-- `extend`, src/archive_stack.rs:107-109. -/
def extend (s : ASt E) (v : List E) : ASt E := { s with current := s.current ++ v }
/-- `extend_rev`, src/archive_stack.rs:113-116. -/
def extendRev (s : ASt E) (v : List E) : ASt E := { s with current := (s.current ++ v).reverse }

/-- `retrieve`, src/archive_stack.rs:170-177 (the result is not used by `pop`). -/
def retrieve (s : ASt E) : H D (Nat × List E) (ASt E) :=
  if s.current.length = 0 then do
    let o ← stackPeek s.archived
    let (_, v) ← liftP (unwrap o)
    let p ← stackPull s.archived
    let a ← liftP (unwrap p)
    return { current := v, archived := a }
  else return s

/-- `pop`, src/archive_stack.rs:90-94. -/
def pop (s : ASt E) : H D (Nat × List E) (ASt E × Option E) :=
  if s.isEmpty then return (s, none)
  else do
    let s ← s.retrieve
    return ({ s with current := s.current.dropLast }, s.current.getLast?)

/-- `next_archive`, src/archive_stack.rs:120-132. -/
def nextArchive (s : ASt E) : H D (Nat × List E) (ASt E × Option (List E × Option Nat)) :=
  if s.isEmpty then return (s, none)
  else if s.archived.isNone then return ({ current := [], archived := none }, some (s.current, none))
  else do
    let o ← stackPeek s.archived
    let (m, v) ← liftP (o.elim (.error .expect) .ok)
    let p ← stackPull s.archived
    let a ← liftP (unwrap p)
    return ({ current := v, archived := a }, some (s.current, some m))

/-- `peek`, src/archive_stack.rs:144-150. -/
def peek (s : ASt E) : H D (Nat × List E) (Option E) :=
  if s.isEmpty then return none
  else if s.current.length = 0 then do
    let o ← stackPeek s.archived
    let (_, v) ← liftP (unwrap o)
    let x ← liftP (unwrap v.getLast?)
    return some x
  else do
    let x ← liftP (unwrap s.current.getLast?)
    return some x

/-- `archive`, src/archive_stack.rs:156-166. -/
def archive (e : Engine) (s : ASt E) (name : Option Name) (m : Nat) : H D (Nat × List E) (ASt E) :=
  if s.current.length = 0 then return s
  else do
    let h ← pushOnto e s.archived name (m, s.current)
    return { current := [], archived := some h }

end ASt

/-! ### src/raz.rs -/

/-- Computations of the sequence: tree cells hold `TreeData`, stack cells a level and a vector (src/raz.rs:46-61). -/
abbrev HR (E M A : Type) := H (TreeData E M) (Nat × List E) A

/-- `struct Raz`, src/raz.rs:46-51. -/
structure HRaz (E : Type) where
  lForest : Cur
  lStack : ASt E
  rStack : ASt E
  rForest : Cur

/-- `struct RazTree`, src/raz.rs:88-91. -/
structure HTree (M : Type) where
  info : M
  tree : Option Tr

/-- `treetop_meta`, src/raz.rs:93-105. -/
def treetopMeta [RazMeta E M] : Option Tr → HR E M M
  | none => return RazMeta.fromNone E 0 none
  | some t => do
    let d ← t.peek
    match d with
    | .dummy => liftP (.error .unreachable)
    | .leaf v => return RazMeta.fromVec v 0 none
    | .branch l r => return RazMeta.fromMeta E l r 0 none

/-- `RazTree{meta: treetop_meta(t), tree: t}`, e.g. src/raz.rs:529. -/
def mkTree [RazMeta E M] (t : Option Tr) : HR E M (HTree M) := do
  let m ← treetopMeta t
  return { info := m, tree := t }

/-- `leaf`, src/raz.rs:687-689. -/
def leaf (e : Engine) (v : List E) (n : Option Name) : HR E M Tr := newTree e 0 n (.leaf v) none none

/-- `bin`, src/raz.rs:692-708. -/
def bin [RazMeta E M] (e : Engine) (t1 : Tr) (l : Nat) (n : Option Name) (t2 : Tr) : HR E M Tr := do
  let a ← t1.peek
  let b ← t2.peek
  let td ← liftP (TreeData.rebuild (some a) .dummy l n (some b))
  newTree e l n td (some t1) (some t2)

namespace HTree

/-- `empty`, src/raz.rs:113-115. -/
def empty (E : Type) [RazMeta E M] : HTree M := { info := RazMeta.fromNone E 0 none, tree := none }

/-- `join`, src/raz.rs:121-131. -/
def join [RazMeta E M] (e : Engine) (lt : HTree M) (level : Nat) (name : Option Name) (rt : HTree M) :
    HR E M (Option (HTree M)) :=
  match lt.tree, rt.tree with
  | some a, some b => do
    let t ← bin e a level name b
    let rz ← mkTree (some t)
    return some rz
  | _, _ => return none

/-- `from_vec`, src/raz.rs:137-141. -/
def fromVec [RazMeta E M] (e : Engine) (v : List E) : HR E M (Option (HTree M)) :=
  if v.isEmpty then return none
  else do
    let t ← leaf e v none
    let rz ← mkTree (some t)
    return some rz

/-- Loop of `focus`, src/raz.rs:335-352, at most `n` iterations. -/
def focusLoopN [RazMeta E M] : Nat → Cur → RazMeta.Index E M → HR E M (Option (Cur × RazMeta.Index E M))
  | 0, _, _ => diverge
  | n+1, c, i => do
    let o ← c.peek
    let d ← liftP (unwrap o)
    match d with
    | .branch l r => do
      let nav ← liftP (RazMeta.navigate l r i)
      match nav with
      | .left j => do
        let (c', ok) ← c.downLeftForce .no
        liftP (assert ok)
        focusLoopN n c' j
      | .right j => do
        let (c', ok) ← c.downRightForce .no
        liftP (assert ok)
        focusLoopN n c' j
      | .here => do
        let (c', ok) ← c.downLeftForce .no
        liftP (assert ok)
        let c'' ← c'.downRightAll
        focusLoopN n c'' RazMeta.last
      | .nowhere => return none
    | _ => return some (c, i)

/-- The empty `Raz`, src/raz.rs:325-330, 383-388, 433-438. -/
def emptyRaz : HRaz E := { lForest := Cur.new, lStack := ASt.new, rStack := ASt.new, rForest := Cur.new }

/-- `focus`, src/raz.rs:321-377. -/
def focus [RazMeta E M] (t : HTree M) (index : RazMeta.Index E M) : HR E M (Option (HRaz E)) :=
  match t.tree with
  | none => return some emptyRaz
  | some tr => do
    let res ← (fun f => focusLoopN f (Cur.ofTree tr) index f : HR E M (Option (Cur × RazMeta.Index E M)))
    match res with
    | none => return none
    | some (cursor, index) => do
      let (lc, tree, rc) ← cursor.split
      match tree with
      | none => liftP (.error .unreachable)
      | some t => do
        let d ← t.peek
        match d with
        | .leaf v => do
          let (a, b) ← liftP (RazMeta.splitVec v index)
          return some { lForest := lc, lStack := ASt.new.extend a, rStack := ASt.new.extendRev b, rForest := rc }
        | _ => liftP (.error .unreachable)

/-- `focus_left`, src/raz.rs:380-416. -/
def focusLeft (t : HTree M) : HR E M (HRaz E) :=
  match t.tree with
  | none => return emptyRaz
  | some tr => do
    let cursor ← (Cur.ofTree tr).downLeftAll
    let (lc, tree, rc) ← cursor.split
    match tree with
    | none => liftP (.error .unreachable)
    | some t => do
      let d ← t.peek
      match d with
      | .leaf v => return { lForest := lc, lStack := ASt.new, rStack := ASt.new.extendRev v, rForest := rc }
      | _ => liftP (.error .unreachable)

end HTree

namespace HRaz

/-- `Raz::new`, src/raz.rs:432-439. -/
def new : HRaz E := HTree.emptyRaz

/-- `stack.name().map(|n| name_pair(n, nmtree))`, src/raz.rs:444, 450, 455, 465, 471, 482, 488, 490, 497. -/
def treeName (s : ASt E) : Option Name := s.name.map (fun n => .pair n (.str "tree"))

/-- Loop of src/raz.rs:483-489, at most `n` iterations. -/
def joinLeftLoopN [RazMeta E M] (e : Engine) : Nat → ASt E → Cur → Option Nat → Option Name → Option Name → HR E M Cur
  | 0, _, _, _, _, _ => diverge
  | n+1, s, cursor, lLev, lNm, nextNm => do
    let (s', o) ← s.nextArchive
    match o with
    | none => return cursor
    | some (lVec, nextLev) => do
      let t ← newTree e 0 none (.leaf lVec) none none
      let lev ← liftP (unwrap lLev)
      let cursor ← Cur.join e (Cur.ofTree t) lev lNm .dummy cursor
      joinLeftLoopN e n s' cursor nextLev nextNm (treeName s')

/-- Loop of src/raz.rs:491-498, at most `n` iterations. -/
def joinRightLoopN [RazMeta E M] (e : Engine) : Nat → ASt E → Cur → Option Nat → Option Name → Option Name → HR E M Cur
  | 0, _, _, _, _, _ => diverge
  | n+1, s, cursor, rLev, rNm, nextNm => do
    let (s', o) ← s.nextArchive
    match o with
    | none => return cursor
    | some (rVec, nextLev) => do
      let t ← newTree e 0 none (.leaf rVec.reverse) none none
      let lev ← liftP (unwrap rLev)
      let cursor ← Cur.join e cursor lev rNm .dummy (Cur.ofTree t)
      joinRightLoopN e n s' cursor nextLev nextNm (treeName s')

/-- State of `unfocus` after step 1, src/raz.rs:449-478; see `Raz.Center`. -/
structure Center (E : Type) where
  lStack : ASt E
  rStack : ASt E
  lLev : Option Nat
  rLev : Option Nat
  lNm : Option Name
  rNm : Option Name
  vec : Option (List E)

/-- src/raz.rs:451-454, 456-459. -/
def openSide (s : ASt E) : HR E M (ASt E × Option Nat × Option (List E)) := do
  let (s', o) ← s.nextArchive
  match o with
  | none => return (s', none, none)
  | some (v, lev) => return (s', lev, if v.length > 0 then some v else none)

/-- Step 1 of `unfocus`, src/raz.rs:444-478. -/
def center (ls rs : ASt E) : HR E M (Center E) := do
  let lNm := treeName ls
  let (ls, lLev, lVec) ← openSide ls
  let rNm := treeName rs
  let (rs, rLev, rVec) ← openSide rs
  match lVec, rVec with
  | some v, none => return ⟨ls, rs, lLev, rLev, lNm, rNm, some v⟩
  | none, some v => return ⟨ls, rs, lLev, rLev, lNm, rNm, some v.reverse⟩
  | some lv, some rv => return ⟨ls, rs, lLev, rLev, lNm, rNm, some (lv ++ rv.reverse)⟩
  | none, none =>
    if ls.isEmpty = false then do
      let lNm := treeName ls
      let (ls, o) ← ls.nextArchive
      let (v, lev) ← liftP (unwrap o)
      return ⟨ls, rs, lev, rLev, lNm, rNm, some v⟩
    else if rs.isEmpty = false then do
      let rNm := treeName rs
      let (rs, o) ← rs.nextArchive
      let (v, lev) ← liftP (unwrap o)
      return ⟨ls, rs, lLev, lev, lNm, rNm, some v.reverse⟩
    else return ⟨ls, rs, lLev, rLev, lNm, rNm, none⟩

/-- Step 2 of `unfocus`, src/raz.rs:479-511; `none` is the early `return`. -/
def centerTree [RazMeta E M] (e : Engine) (c : Center E) (lf rf : Cur) : HR E M (Option (Tr × Cur × Cur)) :=
  match c.vec with
  | some v => do
    let t ← newTree e 0 none (.leaf v) none none
    let cursor ← (fun f => joinLeftLoopN e f c.lStack (Cur.ofTree t) c.lLev c.lNm (treeName c.lStack) f : HR E M Cur)
    let cursor ← (fun f => joinRightLoopN e f c.rStack cursor c.rLev c.rNm (treeName c.rStack) f : HR E M Cur)
    let cursor ← Cur.upAll e cursor.height cursor
    let t ← liftP (unwrap cursor.tree)
    return some (t, lf, rf)
  | none => do
    let (lf, res) ← lf.up e
    if res = .fail then do
      let (rf, res) ← rf.up e
      if res = .fail then return none
      else do
        let o ← rf.rightTree
        let t ← liftP (unwrap o)
        return some (t, lf, rf)
    else do
      let o ← lf.leftTree
      let t ← liftP (unwrap o)
      return some (t, lf, rf)

/-- Step 3 of `unfocus`, left half, src/raz.rs:514-519. -/
def joinLeftForest [RazMeta E M] (e : Engine) (lf jc : Cur) : HR E M Cur := do
  let (lf, res) ← lf.up e
  if res ≠ .fail then do
    let lev ← liftP (unwrap lf.peekLevel)
    let nm := lf.peekName
    let (lf, _) ← lf.downLeftForce .discard
    Cur.join e lf lev nm .dummy jc
  else return jc

/-- Step 3 of `unfocus`, right half, src/raz.rs:520-525. -/
def joinRightForest [RazMeta E M] (e : Engine) (jc rf : Cur) : HR E M Cur := do
  let (rf, res) ← rf.up e
  if res ≠ .fail then do
    let lev ← liftP (unwrap rf.peekLevel)
    let nm := rf.peekName
    let (rf, _) ← rf.downRightForce .discard
    Cur.join e jc lev nm .dummy rf
  else return jc

/-- `unfocus`, src/raz.rs:443-530. -/
def unfocus [RazMeta E M] (e : Engine) (z : HRaz E) : HR E M (HTree M) := do
  let c ← center z.lStack z.rStack
  let o ← centerTree e c z.lForest z.rForest
  match o with
  | none => return HTree.empty E
  | some (t, lf, rf) => do
    let jc ← joinLeftForest e lf (Cur.ofTree t)
    let jc ← joinRightForest e jc rf
    let jc ← Cur.upAll e jc.height jc
    mkTree jc.tree

/-- `push_left`, src/raz.rs:559-562. -/
def pushLeft (z : HRaz E) (x : E) : HRaz E × Nat :=
  let s := z.lStack.push x
  ({ z with lStack := s }, s.current.length)
/-- `push_right`, src/raz.rs:566-569. -/
def pushRight (z : HRaz E) (x : E) : HRaz E × Nat :=
  let s := z.rStack.push x
  ({ z with rStack := s }, s.current.length)

/-- `peek_left`, src/raz.rs:571-583. -/
def peekLeft [RazMeta E M] (e : Engine) (z : HRaz E) : HR E M (Option E) :=
  if z.lStack.isEmpty then do
    let (pf, res) ← z.lForest.up e
    if res = .fail then return none
    else do
      let (pf, _) ← pf.downLeftForce .no
      let pf ← pf.downRightAll
      let o ← pf.peek
      match o with
      | some (.leaf data) => return data.getLast?
      | _ => liftP (.error .explicit)
  else z.lStack.peek

/-- `peek_right`, src/raz.rs:585-597. -/
def peekRight [RazMeta E M] (e : Engine) (z : HRaz E) : HR E M (Option E) :=
  if z.rStack.isEmpty then do
    let (pf, res) ← z.rForest.up e
    if res = .fail then return none
    else do
      let (pf, _) ← pf.downRightForce .no
      let pf ← pf.downLeftAll
      let o ← pf.peek
      match o with
      | some (.leaf data) => return data.head?
      | _ => liftP (.error .explicit)
  else z.rStack.peek

/-- `archive_left`, src/raz.rs:599-601. -/
def archiveLeft (e : Engine) (z : HRaz E) (level : Nat) (name : Option Name) : HR E M (HRaz E) := do
  let s ← z.lStack.archive e name level
  return { z with lStack := s }
/-- `archive_right`, src/raz.rs:603-605. -/
def archiveRight (e : Engine) (z : HRaz E) (level : Nat) (name : Option Name) : HR E M (HRaz E) := do
  let s ← z.rStack.archive e name level
  return { z with rStack := s }

/-- `pop_left`, src/raz.rs:611-623. -/
def popLeft [RazMeta E M] (e : Engine) (z : HRaz E) : HR E M (HRaz E × Option E) :=
  if z.lStack.isEmpty then do
    let (lf, res) ← z.lForest.up e
    if res = .fail then return ({ z with lForest := lf }, none)
    else do
      let (lf, _) ← lf.downLeftForce .discard
      let lf ← lf.downRightAll
      let o ← lf.peek
      match o with
      | some (.leaf data) => do
        let (s, x) ← (z.lStack.extend data).pop
        return ({ z with lForest := lf, lStack := s }, x)
      | _ => liftP (.error .explicit)
  else do
    let (s, x) ← z.lStack.pop
    return ({ z with lStack := s }, x)

/-- `pop_right`, src/raz.rs:628-640. -/
def popRight [RazMeta E M] (e : Engine) (z : HRaz E) : HR E M (HRaz E × Option E) :=
  if z.rStack.isEmpty then do
    let (rf, res) ← z.rForest.up e
    if res = .fail then return ({ z with rForest := rf }, none)
    else do
      let (rf, _) ← rf.downRightForce .discard
      let rf ← rf.downLeftAll
      let o ← rf.peek
      match o with
      | some (.leaf data) => do
        let (s, x) ← (z.rStack.extendRev data).pop
        return ({ z with rForest := rf, rStack := s }, x)
      | _ => liftP (.error .explicit)
  else do
    let (s, x) ← z.rStack.pop
    return ({ z with rStack := s }, x)

end HRaz
end Iodyn.Heap
