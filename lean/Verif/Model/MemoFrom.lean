import Verif.Model.Raz
/-
Model of the `MemoFrom` conversions in src/raz.rs:710-859. `memo!` is a plain call, so `from_stack_memo` is
`from_stack`.
-/
namespace Iodyn
variable {E M : Type}

/-- Result of `from_stack`: rest of the stack, pending level and name, tree (src/raz.rs:737, 812). -/
abbrev FromStackRes (E M : Type) := AStack E Nat × Option Nat × Option Name × Tree (TreeData E M)

/-- `accum_tree.level()`, src/raz.rs:738, 813 -/
def levelOr0 (t : Tree (TreeData E M)) : Nat := t.level?.getD 0

/-- `from_stack` for `AtTail`, src/raz.rs:731-762. The recursion consumes one archive per call; `fuel` bounds
its depth, the correctness theorem shows that `archived.length + 1` suffices (the `0` case is not reached). -/
def fromStackTail [RazMeta E M] : Nat → AStack E Nat → Nat → Option Name → Tree (TreeData E M) → Nat →
    P (FromStackRes E M)
  | 0, _, _, _, _, _ => .error .explicit
  | fuel+1, stack, firstLevel, firstName, accum, maxLevel => do
    assert (decide (levelOr0 accum ≤ firstLevel))
    assert (decide (firstLevel < maxLevel))
    let nextName := stack.name
    match stack.nextArchive with
    | (_, none) => .error .explicit
    | (stack, some (vec, nextLevel)) => do
      let leafTree := leaf vec none
      let (shorter, finalLevel, finalName, small) ←
        (match nextLevel with
        | none => .ok (AStack.new, none, none, leafTree)
        | some lev =>
          if lev < firstLevel then fromStackTail fuel stack lev nextName leafTree firstLevel
          else .ok (stack, some lev, nextName, leafTree) : P (FromStackRes E M))
      let newTree ← bin small firstLevel firstName accum
      match finalLevel with
      | none => return (AStack.new, none, none, newTree)
      | some lev =>
        if lev < maxLevel then fromStackTail fuel shorter lev finalName newTree maxLevel
        else return (shorter, some lev, finalName, newTree)

/-- `from_stack` for `AtHead`, src/raz.rs:806-838. -/
def fromStackHead [RazMeta E M] : Nat → AStack E Nat → Nat → Option Name → Tree (TreeData E M) → Nat →
    P (FromStackRes E M)
  | 0, _, _, _, _, _ => .error .explicit
  | fuel+1, stack, firstLevel, firstName, accum, maxLevel => do
    assert (decide (levelOr0 accum < firstLevel))
    assert (decide (firstLevel ≤ maxLevel))
    let nextName := stack.name
    match stack.nextArchive with
    | (_, none) => .error .explicit
    | (stack, some (vec, nextLevel)) => do
      let leafTree := leaf vec.reverse none
      let (shorter, finalLevel, finalName, small) ←
        (match nextLevel with
        | none => .ok (AStack.new, none, none, leafTree)
        | some lev =>
          if lev ≤ firstLevel then fromStackHead fuel stack lev nextName leafTree firstLevel
          else .ok (stack, some lev, nextName, leafTree) : P (FromStackRes E M))
      let newTree ← bin accum firstLevel firstName small
      match finalLevel with
      | none => return (AStack.new, none, none, newTree)
      | some lev =>
        if lev ≤ maxLevel then fromStackHead fuel shorter lev finalName newTree maxLevel
        else return (shorter, some lev, finalName, newTree)

/-- `RazTree::memo_from(&AtTail(stack))`, src/raz.rs:717-778. -/
def memoFromTail [RazMeta E M] (stack : AStack E Nat) : P (RazTree E M) :=
  let name := stack.name
  match stack.nextArchive with
  | (_, none) => mkRazTree .nil
  | (_, some (vec, none)) => mkRazTree (leaf vec none)
  | (s, some (vec, some level)) => do
    let (s, l, n, t) ← fromStackTail (stack.archived.length + 1) s level name (leaf vec none) u32Max
    assert l.isNone
    assert n.isNone
    assert s.isEmpty
    mkRazTree t

/-- `RazTree::memo_from(&AtHead(stack))`, src/raz.rs:792-858. -/
def memoFromHead [RazMeta E M] (stack : AStack E Nat) : P (RazTree E M) :=
  let name := stack.name
  match stack.nextArchive with
  | (_, none) => mkRazTree .nil
  | (_, some (vec, none)) => mkRazTree (leaf vec.reverse none)
  | (s, some (vec, some level)) => do
    let (s, l, n, t) ← fromStackHead (stack.archived.length + 1) s level name (leaf vec.reverse none) u32Max
    assert l.isNone
    assert n.isNone
    assert s.isEmpty
    mkRazTree t

end Iodyn
