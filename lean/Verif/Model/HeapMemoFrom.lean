import Verif.Model.Heap
/-
The `MemoFrom` conversions of src/raz.rs:710-859 over the store. `memo!` is a plain call here, so `from_stack_memo` is `from_stack`
(as in Verif/Model/MemoFrom.lean). The names of the stack become the names of the tree nodes without a suffix (`bin(.., first_name, ..)`,
src/raz.rs:752, 828), unlike in `unfocus`: with the incremental engine a tree node replaces the cell of the stack it comes from.
-/
namespace Iodyn.Heap
variable {E M : Type}

/-- Result of `from_stack`, src/raz.rs:737, 812. -/
abbrev FromRes (E : Type) := ASt E × Option Nat × Option Name × Tr

/-- `from_stack` for `AtTail`, src/raz.rs:731-762, calls nested at most `n` deep. -/
def fromStackTailN [RazMeta E M] (e : Engine) : Nat → ASt E → Nat → Option Name → Tr → Nat → HR E M (FromRes E)
  | 0, _, _, _, _, _ => diverge
  | n+1, stack, firstLevel, firstName, accum, maxLevel => do
    liftP (assert (decide (accum.level ≤ firstLevel)))
    liftP (assert (decide (firstLevel < maxLevel)))
    let nextName := stack.name
    let (stack, o) ← stack.nextArchive
    match o with
    | none => liftP (.error .explicit)
    | some (vec, nextLevel) => do
      let leafTree ← leaf e vec none
      let (shorter, finalLevel, finalName, small) ←
        (match nextLevel with
        | none => return (ASt.new, none, none, leafTree)
        | some lev =>
          if lev < firstLevel then fromStackTailN e n stack lev nextName leafTree firstLevel
          else return (stack, some lev, nextName, leafTree) : HR E M (FromRes E))
      let newTree ← bin e small firstLevel firstName accum
      match finalLevel with
      | none => return (ASt.new, none, none, newTree)
      | some lev =>
        if lev < maxLevel then fromStackTailN e n shorter lev finalName newTree maxLevel
        else return (shorter, some lev, finalName, newTree)

/-- `from_stack` for `AtHead`, src/raz.rs:806-838, calls nested at most `n` deep. -/
def fromStackHeadN [RazMeta E M] (e : Engine) : Nat → ASt E → Nat → Option Name → Tr → Nat → HR E M (FromRes E)
  | 0, _, _, _, _, _ => diverge
  | n+1, stack, firstLevel, firstName, accum, maxLevel => do
    liftP (assert (decide (accum.level < firstLevel)))
    liftP (assert (decide (firstLevel ≤ maxLevel)))
    let nextName := stack.name
    let (stack, o) ← stack.nextArchive
    match o with
    | none => liftP (.error .explicit)
    | some (vec, nextLevel) => do
      let leafTree ← leaf e vec.reverse none
      let (shorter, finalLevel, finalName, small) ←
        (match nextLevel with
        | none => return (ASt.new, none, none, leafTree)
        | some lev =>
          if lev ≤ firstLevel then fromStackHeadN e n stack lev nextName leafTree firstLevel
          else return (stack, some lev, nextName, leafTree) : HR E M (FromRes E))
      let newTree ← bin e accum firstLevel firstName small
      match finalLevel with
      | none => return (ASt.new, none, none, newTree)
      | some lev =>
        if lev ≤ maxLevel then fromStackHeadN e n shorter lev finalName newTree maxLevel
        else return (shorter, some lev, finalName, newTree)

/-- The end of `memo_from`, src/raz.rs:774-777, 854-857. -/
def finishFrom [RazMeta E M] (r : FromRes E) : HR E M (HTree M) := do
  liftP (assert r.2.1.isNone)
  liftP (assert r.2.2.1.isNone)
  liftP (assert r.1.isEmpty)
  mkTree (some r.2.2.2)

/-- `RazTree::memo_from(&AtTail(stack))`, src/raz.rs:717-778. -/
def memoFromTail [RazMeta E M] (e : Engine) (stack : ASt E) : HR E M (HTree M) := do
  let name := stack.name
  let (s, o) ← stack.nextArchive
  match o with
  | none => mkTree none
  | some (vec, none) => do
    let t ← leaf e vec none
    mkTree (some t)
  | some (vec, some level) => do
    let t ← leaf e vec none
    let r ← (fun f => fromStackTailN e f s level name t u32Max f : HR E M (FromRes E))
    finishFrom r

/-- `RazTree::memo_from(&AtHead(stack))`, src/raz.rs:792-858. -/
def memoFromHead [RazMeta E M] (e : Engine) (stack : ASt E) : HR E M (HTree M) := do
  let name := stack.name
  let (s, o) ← stack.nextArchive
  match o with
  | none => mkTree none
  | some (vec, none) => do
    let t ← leaf e vec.reverse none
    mkTree (some t)
  | some (vec, some level) => do
    let t ← leaf e vec.reverse none
    let r ← (fun f => fromStackHeadN e f s level name t u32Max f : HR E M (FromRes E))
    finishFrom r

end Iodyn.Heap
