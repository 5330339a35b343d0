import Verif.Model.Basic
/-
Model of src/level_tree.rs (functional engine: an `Art` is its value, `memo!` is a call).
-/
namespace Iodyn

/-- `Option<Tree<E>>`, src/level_tree.rs:21-31. `nil` is `None`; `node` is a `Tree{level,name,link}`
together with the `TreeNode{data,l_branch,r_branch}` behind its link. Simplification: the link is followed
(functional engine), see `Verif/Model/Store*.lean` for the store version. -/
inductive Tree (E : Type) where
  | nil
  | node (level : Nat) (name : Option Name) (data : E) (l r : Tree E)
  deriving DecidableEq, Repr

/-- A non-empty `Tree<E>` (src/level_tree.rs:21-31), used where Rust has `Tree<E>` and not an option. -/
structure TNode (E : Type) where
  level : Nat
  name : Option Name
  data : E
  l : Tree E
  r : Tree E
  deriving DecidableEq, Repr

/-- `Some(tree)`: a `Tree<E>` (src/level_tree.rs:20-24) seen as `Option<Tree<E>>`. -/
def TNode.toTree {E : Type} (t : TNode E) : Tree E := .node t.level t.name t.data t.l t.r

namespace Tree
variable {E R A : Type}

/-- `op.as_ref().map(|t| t.level())`, src/level_tree.rs:76. -/
def level? : Tree E → Option Nat
  | nil => none
  | node lv _ _ _ _ => some lv

/-- `Tree::name` on an option, src/level_tree.rs:79. -/
def name? : Tree E → Option Name
  | nil => none
  | node _ nm _ _ _ => nm

/-- `Tree::peek` on an option (= `peek_op`, src/tree_cursor.rs:101-106), src/level_tree.rs:88. -/
def peek? : Tree E → Option E
  | nil => none
  | node _ _ d _ _ => some d

/-- `Option::is_some`, src/tree_cursor.rs:241 -/
def isSome : Tree E → Bool
  | nil => false
  | node .. => true

/-- Number of nodes (src/level_tree.rs:20-30); only used to justify termination. -/
def size : Tree E → Nat
  | nil => 0
  | node _ _ _ l r => l.size + r.size + 1

/-- `Tree::fold_up_meta`, src/level_tree.rs:101-120, lifted to `Option<Tree>` by the `map`s at lines
107-108. The node function may panic. Memoisation (lines 110-116) is a plain call. -/
def foldUpMeta (f : Option R → E → Nat → Option Name → Option R → P R) : Tree E → P (Option R)
  | nil => .ok none
  | node lv nm d l r => do
    let a ← foldUpMeta f l
    let b ← foldUpMeta f r
    let c ← f a d lv nm b
    return some c

/-- `Tree::fold_up`, src/level_tree.rs:91-95. -/
def foldUp (f : Option R → E → Option R → P R) (t : Tree E) : P (Option R) :=
  t.foldUpMeta (fun l d _ _ r => f l d r)

/-- `Tree::fold_lr_meta`, src/level_tree.rs:135-170; `nil` is the `None => accum` case of line 140;
the `else` is the special leaf case of line 161, the `then` lines 162-167. -/
def foldLrMeta (f : A → E → Nat → Option Name → A) : Option Name → A → Tree E → A
  | _, a, nil => a
  | start, a, node lv nm d l r =>
    if l.isSome || r.isSome then
      foldLrMeta f nm (f (foldLrMeta f start a l) d lv nm) r
    else f a d lv start

/-- `Tree::fold_lr`, src/level_tree.rs:123-129. -/
def foldLr (f : A → E → A) (a : A) (t : Tree E) : A :=
  t.foldLrMeta (fun a e _ _ => f a e) (some (.str "start")) a

/-- `Tree::map`, src/level_tree.rs:178-200. The mapping function may panic (src/raz.rs:306 calls
`rebuild`). Memoisation is a plain call. -/
def map (f : E → Nat → Option Name → Tree R → Tree R → P R) : Tree E → P (Tree R)
  | nil => .ok nil
  | node lv nm d l r => do
    let l' ← map f l
    let r' ← map f r
    let d' ← f d lv nm l' r'
    return node lv nm d' l' r'

/-- `good_levels`, src/level_tree.rs:219-236 (without the printing). -/
def goodLevels : Tree E → Bool
  | nil => true
  | node lv _ _ l r =>
    (match l.level? with
      | none => true
      | some x => !(decide (x > lv)) && goodLevels l) &&
    (match r.level? with
      | none => true
      | some x => !(decide (x ≥ lv)) && goodLevels r)

end Tree

/-- `gen_branch_level`, src/level_tree.rs:251-254: `(num << 1).trailing_zeros()` of the random 64-bit
number `num`. `trailing_zeros` of 0 is 64. -/
def trailingZeros (w : BitVec 64) : Nat :=
  go 64 0
where
  go : Nat → Nat → Nat
    | 0, i => i
    | n+1, i => if w.getLsbD i then i else go n (i+1)

/-- `gen_branch_level`, src/level_tree.rs:251-254. See `trailingZeros`; the random number is the parameter. -/
def genBranchLevel (num : BitVec 64) : Nat := trailingZeros (num <<< 1)

end Iodyn
