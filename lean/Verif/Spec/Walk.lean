import Verif.Model.Cursor
import Verif.Spec.Levels
/-
Walking a tree: positions are paths from the root. Nothing here refers to forests or compares levels.
-/
namespace Iodyn
variable {D K A : Type}

/-- A step of a path from the root. -/
inductive Dir where
  | left | right
  deriving DecidableEq

/-- The branch of a tree on one side. -/
def child : Tree D → Dir → Tree D
  | .nil, _ => .nil
  | .node _ _ _ l _, .left => l
  | .node _ _ _ _ r, .right => r

/-- The subtree at a path (empty below a missing branch). -/
def subAt (t : Tree D) (p : List Dir) : Tree D := p.foldl child t

/-- Moves of a cursor that keep the tree. `force` is `Force::Yes`. -/
inductive Move where
  | down (d : Dir) (force : Bool)
  | up
  | upDiscard

/-- Answers of the moves. -/
inductive MoveOut where
  | moved (b : Bool)
  | went (r : UpResult)
  deriving DecidableEq

/-- One move, src/tree_cursor.rs:305-345, 350-406. -/
def Cursor.move [TreeUpdate D] (c : Cursor D) : Move → P (Cursor D × MoveOut)
  | .down .left f => .ok ((c.downLeftForce (if f then .yes else .no)).1, .moved (c.downLeftForce (if f then .yes else .no)).2)
  | .down .right f => .ok ((c.downRightForce (if f then .yes else .no)).1, .moved (c.downRightForce (if f then .yes else .no)).2)
  | .up => do let (c', r) ← c.up; return (c', .went r)
  | .upDiscard => .ok (c.upDiscard.1, .went c.upDiscard.2)

/-- A sequence of moves; after each one the answer and `at_tree` (src/tree_cursor.rs:254) are recorded. -/
def Cursor.walk [TreeUpdate D] (c : Cursor D) : List Move → P (Cursor D × List (MoveOut × Tree D))
  | [] => .ok (c, [])
  | m :: ms => do
    let (c', o) ← c.move m
    let (c'', os) ← c'.walk ms
    return (c'', (o, c'.atTree) :: os)

/-- Specification of a move on a path: down goes to a branch that is there (or also to a missing one, if
forced); up removes the last step and reports the side of the parent. -/
def pathMove (t : Tree D) (p : List Dir) : Move → List Dir × MoveOut
  | .down d f =>
    match subAt t p with
    | .nil => (p, .moved false)
    | .node .. => if (subAt t (p ++ [d])).isSome || f then (p ++ [d], .moved true) else (p, .moved false)
  | _ =>
    match p.getLast? with
    | none => (p, .went .fail)
    | some .left => (p.dropLast, .went .right)
    | some .right => (p.dropLast, .went .left)

/-- Specification of a sequence of moves. -/
def pathWalk (t : Tree D) (p : List Dir) : List Move → List Dir × List (MoveOut × Tree D)
  | [] => (p, [])
  | m :: ms =>
    let q := (pathMove t p m).1
    ((pathWalk t q ms).1, ((pathMove t p m).2, subAt t q) :: (pathWalk t q ms).2)

/-- The nodes of a tree in order. -/
def Tree.nodes : Tree D → List (Nat × Option Name × D)
  | .nil => []
  | .node lv nm d l r => l.nodes ++ (lv, nm, d) :: r.nodes

/-- The nodes, with the data seen through `k`. -/
def Tree.nodesBy (k : D → K) (t : Tree D) : List (Nat × Option Name × K) :=
  t.nodes.map (fun n => (n.1, n.2.1, k n.2.2))

/-- The nodes after the node at a path, in order. -/
def nodesAfter : Tree D → List Dir → List (Nat × Option Name × D)
  | .nil, _ => []
  | .node _ _ _ _ r, [] => r.nodes
  | .node lv nm d l r, .left :: p => nodesAfter l p ++ (lv, nm, d) :: r.nodes
  | .node _ _ _ _ r, .right :: p => nodesAfter r p

/-- The whole tree of a cursor: `while cursor.up() != UpResult::Fail {}` and then `at_tree()`. -/
def Cursor.whole [TreeUpdate D] (c : Cursor D) : P (Tree D) := do
  let c' ← c.upAll c.height
  return c'.atTree

/-- Cursors that a client can make: from trees in heap order, by moving, splitting and joining. -/
inductive Cursor.Made [TreeUpdate D] : Cursor D → Prop
  | ofTree {t} : HeapOrdered t → Cursor.Made (Cursor.ofTree t)
  | new : Cursor.Made Cursor.new
  | downLeft {c} (f : Force) : f ≠ .discard → Cursor.Made c → Cursor.Made (c.downLeftForce f).1
  | downRight {c} (f : Force) : f ≠ .discard → Cursor.Made c → Cursor.Made (c.downRightForce f).1
  | up {c c' res} : Cursor.Made c → c.up = .ok (c', res) → Cursor.Made c'
  | splitL {c} : Cursor.Made c → Cursor.Made c.split.1
  | splitR {c} : Cursor.Made c → Cursor.Made c.split.2.2
  | join {lc rc c lv nm d} : Cursor.Made lc → Cursor.Made rc → Cursor.join lc lv nm d rc = .ok c → Cursor.Made c

/-- Updating node data does not change what `k` sees. -/
def KeepsUnder [TreeUpdate D] (k : D → K) : Prop :=
  ∀ a (d : D) lv nm b d', TreeUpdate.rebuild a d lv nm b = .ok d' → k d' = k d

/-- Repeated `IterR::next` until `None`, at most `n` times; with the iterator left. -/
def iterAll : Nat → Cursor D → List D × Cursor D
  | 0, c => ([], c)
  | n+1, c => match c.iterNext with
    | (c', none) => ([], c')
    | (c', some e) => (e :: (iterAll n c').1, (iterAll n c').2)

/-- A left fold over nodes in order, where a node without branches gets the name of the node before it (or the
start name), src/level_tree.rs:158-167. -/
def foldNames (f : A → D → Nat → Option Name → A) : Option Name → A → List (Bool × Nat × Option Name × D) → A
  | _, a, [] => a
  | prev, a, (isLeaf, lv, nm, d) :: l => foldNames f nm (f a d lv (if isLeaf then prev else nm)) l

/-- The nodes in order, each with whether it has no branches. -/
def Tree.nodesLeaf : Tree D → List (Bool × Nat × Option Name × D)
  | .nil => []
  | .node lv nm d l r => l.nodesLeaf ++ (!(l.isSome || r.isSome), lv, nm, d) :: r.nodesLeaf

end Iodyn
