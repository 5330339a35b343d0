import Verif.Model.Tree
/-
Model of src/tree_cursor.rs (functional engine).
-/
namespace Iodyn

/-- `trait TreeUpdate`, src/tree_cursor.rs:53-62. `rebuild` may panic (src/raz.rs:73). -/
class TreeUpdate (E : Type) where
  rebuild : Option E → E → Nat → Option Name → Option E → P E

/-- The blanket implementation for `DeriveTreeUpdate`, src/tree_cursor.rs:66-70. -/
@[reducible] def deriveTreeUpdate (E : Type) : TreeUpdate E where
  rebuild _ old _ _ _ := .ok old

/-- `enum Force`, src/tree_cursor.rs:81-85. -/
inductive Force where
  | no | yes | discard
  deriving DecidableEq, Repr

/-- `enum UpResult`, src/tree_cursor.rs:95-99. -/
inductive UpResult where
  | fail | left | right
  deriving DecidableEq, Repr

/-- `struct Cursor`, src/tree_cursor.rs:30-36. The forests are `Vec`s in Rust, pushed and popped at the end;
here the list head is the last `Vec` entry. -/
structure Cursor (E : Type) where
  dirty : Bool
  lForest : List (Bool × TNode E)
  tree : Tree E
  rForest : List (Bool × TNode E)
  deriving DecidableEq, Repr

namespace Cursor
variable {E R : Type}

/-- `From<Tree<E>>`, src/tree_cursor.rs:110-120. -/
def ofTree (t : Tree E) : Cursor E := { dirty := false, lForest := [], tree := t, rForest := [] }

/-- `Cursor::new` / `with_depth`, src/tree_cursor.rs:125-141. -/
def new : Cursor E := { dirty := false, lForest := [], tree := .nil, rForest := [] }

/-- Left branch of an optional tree, `None => None`; src/tree_cursor.rs:147-150, 257-259. -/
def leftTree (c : Cursor E) : Tree E :=
  match c.tree with
  | .nil => .nil
  | .node _ _ _ l _ => l

/-- Right branch of an optional tree; src/tree_cursor.rs:147-150, 261-263. -/
def rightTree (c : Cursor E) : Tree E :=
  match c.tree with
  | .nil => .nil
  | .node _ _ _ _ r => r

/-- `Cursor::split`, src/tree_cursor.rs:146-166. -/
def split (c : Cursor E) : Cursor E × Tree E × Cursor E :=
  ({ dirty := true, lForest := c.lForest, tree := c.leftTree, rForest := [] },
   c.tree,
   { dirty := true, lForest := [], tree := c.rightTree, rForest := c.rForest })

/-- `at_tree`, src/tree_cursor.rs:254. -/
def atTree (c : Cursor E) : Tree E := c.tree
/-- `peek`, src/tree_cursor.rs:266-268. -/
def peek (c : Cursor E) : Option E := c.tree.peek?
/-- `peek_level`, src/tree_cursor.rs:271-273. -/
def peekLevel (c : Cursor E) : Option Nat := c.tree.level?
/-- `peek_name`, src/tree_cursor.rs:277-282. -/
def peekName (c : Cursor E) : Option Name := c.tree.name?
/-- `up_left_level`, src/tree_cursor.rs:287-292. -/
def upLeftLevel (c : Cursor E) : Option Nat := c.lForest.head?.map (fun p => p.2.level)
/-- `up_right_level`, src/tree_cursor.rs:296-301. -/
def upRightLevel (c : Cursor E) : Option Nat := c.rForest.head?.map (fun p => p.2.level)

/-- `down_left_force`, src/tree_cursor.rs:305-320. -/
def downLeftForce (force : Force) (c : Cursor E) : Cursor E × Bool :=
  match c.tree with
  | .nil => (c, false)
  | .node lv nm d l r =>
    if l.isSome = false ∧ force = .no then (c, false)
    else if force = .discard then ({ c with tree := l, dirty := true }, true)
    else ({ c with tree := l, rForest := (c.dirty, ⟨lv, nm, d, l, r⟩) :: c.rForest, dirty := false }, true)

/-- `down_right_force`, src/tree_cursor.rs:326-341. -/
def downRightForce (force : Force) (c : Cursor E) : Cursor E × Bool :=
  match c.tree with
  | .nil => (c, false)
  | .node lv nm d l r =>
    if r.isSome = false ∧ force = .no then (c, false)
    else if force = .discard then ({ c with tree := r, dirty := true }, true)
    else ({ c with tree := r, lForest := (c.dirty, ⟨lv, nm, d, l, r⟩) :: c.lForest, dirty := false }, true)

/-- `down_left`, src/tree_cursor.rs:322. -/
def downLeft (c : Cursor E) : Cursor E × Bool := c.downLeftForce .no
/-- `down_right`, src/tree_cursor.rs:343. -/
def downRight (c : Cursor E) : Cursor E × Bool := c.downRightForce .no

/-- The choice of direction in `up` and `up_discard`, src/tree_cursor.rs:351-356, 388-393. -/
def upDir (c : Cursor E) : UpResult :=
  match c.lForest, c.rForest with
  | [], [] => .fail
  | _ :: _, [] => .left
  | (_, lt) :: _, (_, rt) :: _ => if rt.level > lt.level then .left else .right
  | [], _ :: _ => .right

/-- `up`, src/tree_cursor.rs:350-383. The `panic!`s at lines 368 and 380 are the `[]` cases. -/
def up [TreeUpdate E] (c : Cursor E) : P (Cursor E × UpResult) :=
  match c.upDir with
  | .fail => .ok (c, .fail)
  | .left =>
    match c.lForest with
    | [] => .error .explicit
    | (d, u) :: rest =>
      if c.dirty then do
        let data ← TreeUpdate.rebuild u.l.peek? u.data u.level u.name c.tree.peek?
        return ({ c with lForest := rest, tree := .node u.level u.name data u.l c.tree }, .left)
      else
        .ok ({ c with lForest := rest, dirty := d, tree := u.toTree }, .left)
  | .right =>
    match c.rForest with
    | [] => .error .explicit
    | (d, u) :: rest =>
      if c.dirty then do
        let data ← TreeUpdate.rebuild c.tree.peek? u.data u.level u.name u.r.peek?
        return ({ c with rForest := rest, tree := .node u.level u.name data c.tree u.r }, .right)
      else
        .ok ({ c with rForest := rest, dirty := d, tree := u.toTree }, .right)

/-- `up_discard`, src/tree_cursor.rs:387-406. -/
def upDiscard (c : Cursor E) : Cursor E × UpResult :=
  match c.upDir with
  | .fail => (c, .fail)
  | .left =>
    match c.lForest with
    | [] => (c, .fail) -- the `panic!` of line 398, excluded by `upDir`
    | (d, u) :: rest => ({ c with lForest := rest, dirty := d, tree := u.toTree }, .left)
  | .right =>
    match c.rForest with
    | [] => (c, .fail) -- the `panic!` of line 403, excluded by `upDir`
    | (d, u) :: rest => ({ c with rForest := rest, dirty := d, tree := u.toTree }, .right)

/-- Number of `up` moves until the root (src/tree_cursor.rs:350-383); bound for the loops below. Not in the code. -/
def height (c : Cursor E) : Nat := c.lForest.length + c.rForest.length

/-- A loop `while !stop { assert!(cursor.up() != Fail) }`, src/tree_cursor.rs:215-221, 226-229, with at most `n` iterations; used with
`n = height`. With no iteration left the cursor is at the root, where `up` fails and the `assert!` panics. -/
def upUntil [TreeUpdate E] (stop : Cursor E → Bool) : Nat → Cursor E → P (Cursor E)
  | 0, c => if stop c then .ok c else .error .assertion
  | n+1, c =>
    if stop c then .ok c
    else do
      let (c', res) ← c.up
      if res = .fail then .error .assertion else upUntil stop n c'

/-- `while cursor.up() != UpResult::Fail {}`, src/raz.rs:499 and 527. -/
def upAll [TreeUpdate E] : Nat → Cursor E → P (Cursor E)
  | 0, c => .ok c
  | n+1, c => do
    let (c', res) ← c.up
    if res = .fail then .ok c' else upAll n c'

/-- Loop of src/tree_cursor.rs:222-225: go down right (forced) while the level is not below `level`.
Recursion on the focused tree; each iteration is `down_right_force(Force::Yes)`. -/
def descendRight (level : Nat) (c : Cursor E) : P (Cursor E) :=
  match h : c.tree with
  | .nil => .ok c
  | .node lv _ _ _ r =>
    if lv < level then .ok c
    else
      have : r.size < c.tree.size := by rw [h]; simp [Tree.size]; omega
      match h2 : c.downRightForce .yes with
      | (c', true) =>
        have : c'.tree = r := by
          simp [downRightForce, h] at h2; rw [← h2]
        have : c'.tree.size < c.tree.size := by rw [this]; assumption
        descendRight level c'
      | (_, false) => .error .assertion
termination_by c.tree.size

/-- Loop of src/tree_cursor.rs:230-233: go down left (forced) while the level is above `level`. -/
def descendLeft (level : Nat) (c : Cursor E) : P (Cursor E) :=
  match h : c.tree with
  | .nil => .ok c
  | .node lv _ _ l _ =>
    if lv ≤ level then .ok c
    else
      have : l.size < c.tree.size := by rw [h]; simp [Tree.size]; omega
      match h2 : c.downLeftForce .yes with
      | (c', true) =>
        have : c'.tree = l := by
          simp [downLeftForce, h] at h2; rw [← h2]
        have : c'.tree.size < c.tree.size := by rw [this]; assumption
        descendLeft level c'
      | (_, false) => .error .assertion
termination_by c.tree.size

/-- `while cursor.down_right() {}`, e.g. src/raz.rs:347, 576, 615. -/
def downRightAll (c : Cursor E) : Cursor E :=
  match h : c.downRight with
  | (c', true) =>
    have : c'.tree.size < c.tree.size := by
      unfold downRight downRightForce at h
      split at h
      · simp at h
      · rename_i heq
        split at h
        · simp at h
        · simp at h; rw [← h, heq]; simp [Tree.size]; omega
    downRightAll c'
  | (_, false) => c
termination_by c.tree.size

/-- `while cursor.down_left() {}`, e.g. src/raz.rs:393, 590, 632. -/
def downLeftAll (c : Cursor E) : Cursor E :=
  match h : c.downLeft with
  | (c', true) =>
    have : c'.tree.size < c.tree.size := by
      unfold downLeft downLeftForce at h
      split at h
      · simp at h
      · rename_i heq
        split at h
        · simp at h
        · simp at h; rw [← h, heq]; simp [Tree.size]; omega
    downLeftAll c'
  | (_, false) => c
termination_by c.tree.size

/-- Stop condition of the loop src/tree_cursor.rs:218-221: no entry above on the left, or its level is at least
`level`. -/
def stopLeft (level : Nat) (c : Cursor E) : Bool :=
  match c.upLeftLevel with
  | none => true
  | some h => decide (h ≥ level)

/-- Stop condition of the loop src/tree_cursor.rs:226-229. -/
def stopRight (level : Nat) (c : Cursor E) : Bool :=
  match c.upRightLevel with
  | none => true
  | some h => decide (h > level)

/-- `Cursor::join`, src/tree_cursor.rs:213-249. -/
def join [TreeUpdate E] (lc : Cursor E) (level : Nat) (name : Option Name) (data : E) (rc : Cursor E) :
    P (Cursor E) := do
  -- step 1: remove center forests
  let lc ← lc.upUntil (fun c => c.rForest.isEmpty) lc.height
  let rc ← rc.upUntil (fun c => c.lForest.isEmpty) rc.height
  -- step 2: find insertion point
  let lc ← lc.upUntil (stopLeft level) lc.height
  let lc ← lc.descendRight level
  let rc ← rc.upUntil (stopRight level) rc.height
  let rc ← rc.descendLeft level
  -- step 3: build center tree
  let d ← TreeUpdate.rebuild lc.tree.peek? data level name rc.tree.peek?
  -- step 4: join structures
  return { dirty := true, lForest := lc.lForest, tree := .node level name d lc.tree rc.tree, rForest := rc.rForest }

/-- `Cursor::into_iters`, src/tree_cursor.rs:176-207: the two seeked cursors and the focused tree. -/
def intoIters (c : Cursor E) : Cursor E × Tree E × Cursor E :=
  let lc : Cursor E := { dirty := true, lForest := c.lForest, tree := c.leftTree, rForest := [] }
  let rc : Cursor E := { dirty := true, lForest := [], tree := c.rightTree, rForest := c.rForest }
  (if lc.tree.isSome then lc.downRightAll else lc.upDiscard.1,
   c.tree,
   if rc.tree.isSome then rc.downLeftAll else rc.upDiscard.1)

/-- Inner loop of `IterR::next`, src/tree_cursor.rs:447-456, with at most `n` iterations (`n = height + 1`). -/
def iterUp : Nat → Cursor E → Cursor E
  | 0, c => c
  | n+1, c =>
    match c.upDiscard with
    | (c', .left) => iterUp n c'
    | (c', .right) => c'
    | (_, .fail) => Cursor.new

/-- `IterR::next`, src/tree_cursor.rs:442-458. -/
def iterNext (c : Cursor E) : Cursor E × Option E :=
  let result := c.peek
  match c.downRight with
  | (c', true) => (c'.downLeftAll, result)
  | (c', false) => (iterUp (c'.height + 1) c', result)

/-- `IterR::fold_out`, src/tree_cursor.rs:416-436, at most `n` elements; memoisation is a plain call. -/
def foldOut (f : R → E → R) : Nat → R → Cursor E → R
  | 0, a, _ => a
  | n+1, a, c =>
    match c.iterNext with
    | (_, none) => a
    | (c', some e) => foldOut f n (f a e) c'

end Cursor
end Iodyn
