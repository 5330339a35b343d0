import Verif.Model.Raz
/-
The navigation of src/raz.rs and src/tree_cursor.rs with a counter of the moves of cursors. The counter is not in the code: each call of `up`, `down_left_force` and
`down_right_force` (so also of `down_left` and `down_right`) adds 1 to it, also the calls that fail. Apart from the counter the functions are those of
`Model/Cursor.lean` and `Model/Raz.lean` (proved in `Proof/MovesSame.lean`).
-/
namespace Iodyn

/-- A computation that counts moves and may panic. The counter is not in the code (src/tree_cursor.rs, src/raz.rs). -/
abbrev Counting (A : Type) := StateT Nat (Except Panic) A

/-- One move: a call of `up` (src/tree_cursor.rs:350), `down_left_force` (:305) or `down_right_force` (:326). -/
def move : Counting Unit := fun n => .ok ((), n + 1)

/-- A part that moves no cursor, e.g. src/raz.rs:444-478. -/
def still {A : Type} (x : P A) : Counting A := fun n =>
  match x with
  | .ok a => .ok (a, n)
  | .error p => .error p

namespace Cursor
variable {E : Type}

/-- `up`, src/tree_cursor.rs:350-383: one move. -/
def upC [TreeUpdate E] (c : Cursor E) : Counting (Cursor E × UpResult) := do
  move
  still c.up

/-- `down_left_force`, src/tree_cursor.rs:305-320: one move. -/
def downLeftForceC (force : Force) (c : Cursor E) : Counting (Cursor E × Bool) := do
  move
  return c.downLeftForce force

/-- `down_right_force`, src/tree_cursor.rs:326-341: one move. -/
def downRightForceC (force : Force) (c : Cursor E) : Counting (Cursor E × Bool) := do
  move
  return c.downRightForce force

/-- `while !stop { assert!(cursor.up() != Fail) }`, src/tree_cursor.rs:215-221, 226-229; as `upUntil`. -/
def upUntilC [TreeUpdate E] (stop : Cursor E → Bool) : Nat → Cursor E → Counting (Cursor E)
  | 0, c => if stop c then return c else still (.error .assertion)
  | n+1, c =>
    if stop c then return c
    else do
      let (c', res) ← c.upC
      if res = .fail then still (.error .assertion) else upUntilC stop n c'

/-- `while cursor.up() != UpResult::Fail {}`, src/raz.rs:499, 527; as `upAll`. With no iteration left the cursor is at the root, and the last call fails. -/
def upAllC [TreeUpdate E] : Nat → Cursor E → Counting (Cursor E)
  | 0, c => do
    move
    return c
  | n+1, c => do
    let (c', res) ← c.upC
    if res = .fail then return c' else upAllC n c'

/-- Loop of src/tree_cursor.rs:222-225; as `descendRight`. -/
def descendRightC (level : Nat) (c : Cursor E) : Counting (Cursor E) :=
  match h : c.tree with
  | .nil => return c
  | .node lv _ _ _ r =>
    if lv < level then return c
    else do
      move
      have : r.size < c.tree.size := by rw [h]; simp [Tree.size]; omega
      match h2 : c.downRightForce .yes with
      | (c', true) =>
        have : c'.tree = r := by
          simp [downRightForce, h] at h2; rw [← h2]
        have : c'.tree.size < c.tree.size := by rw [this]; assumption
        descendRightC level c'
      | (_, false) => still (.error .assertion)
termination_by c.tree.size

/-- Loop of src/tree_cursor.rs:230-233; as `descendLeft`. -/
def descendLeftC (level : Nat) (c : Cursor E) : Counting (Cursor E) :=
  match h : c.tree with
  | .nil => return c
  | .node lv _ _ l _ =>
    if lv ≤ level then return c
    else do
      move
      have : l.size < c.tree.size := by rw [h]; simp [Tree.size]; omega
      match h2 : c.downLeftForce .yes with
      | (c', true) =>
        have : c'.tree = l := by
          simp [downLeftForce, h] at h2; rw [← h2]
        have : c'.tree.size < c.tree.size := by rw [this]; assumption
        descendLeftC level c'
      | (_, false) => still (.error .assertion)
termination_by c.tree.size

/-- `while cursor.down_right() {}`, src/raz.rs:347, 576, 615; as `downRightAll`. The last call fails. -/
def downRightAllC (c : Cursor E) : Counting (Cursor E) := do
  move
  match h : c.downRight with
  | (c', true) =>
    have : c'.tree.size < c.tree.size := by
      unfold downRight downRightForce at h
      split at h
      · simp at h
      · rename_i heq
        split at h
        · simp at h
        · simp at h; rw [← h, heq]; simp [Tree.size]; omega
    downRightAllC c'
  | (_, false) => return c
termination_by c.tree.size

/-- `while cursor.down_left() {}`, src/raz.rs:393, 590, 632; as `downLeftAll`. The last call fails. -/
def downLeftAllC (c : Cursor E) : Counting (Cursor E) := do
  move
  match h : c.downLeft with
  | (c', true) =>
    have : c'.tree.size < c.tree.size := by
      unfold downLeft downLeftForce at h
      split at h
      · simp at h
      · rename_i heq
        split at h
        · simp at h
        · simp at h; rw [← h, heq]; simp [Tree.size]; omega
    downLeftAllC c'
  | (_, false) => return c
termination_by c.tree.size

/-- `Cursor::join`, src/tree_cursor.rs:213-249. -/
def joinC [TreeUpdate E] (lc : Cursor E) (level : Nat) (name : Option Name) (data : E) (rc : Cursor E) : Counting (Cursor E) := do
  let lc ← lc.upUntilC (fun c => c.rForest.isEmpty) lc.height
  let rc ← rc.upUntilC (fun c => c.lForest.isEmpty) rc.height
  let lc ← lc.upUntilC (stopLeft level) lc.height
  let lc ← lc.descendRightC level
  let rc ← rc.upUntilC (stopRight level) rc.height
  let rc ← rc.descendLeftC level
  let d ← still (TreeUpdate.rebuild lc.tree.peek? data level name rc.tree.peek?)
  return { dirty := true, lForest := lc.lForest, tree := .node level name d lc.tree rc.tree, rForest := rc.rForest }

end Cursor

section
variable {E M : Type}

namespace RazTree

/-- Loop of `focus`, src/raz.rs:335-352; as `focusLoop`. -/
def focusLoopC [RazMeta E M] : Nat → Cursor (TreeData E M) → RazMeta.Index E M → Counting (Option (Cursor (TreeData E M) × RazMeta.Index E M))
  | n, c, i => do
    let d ← still (unwrap c.peek)
    match d with
    | .branch l r =>
      match n with
      | 0 => return some (c, i)
      | n+1 =>
        match ← still (RazMeta.navigate l r i) with
        | .left j => do
          let (c', ok) ← c.downLeftForceC .no
          still (assert ok)
          focusLoopC n c' j
        | .right j => do
          let (c', ok) ← c.downRightForceC .no
          still (assert ok)
          focusLoopC n c' j
        | .here => do
          let (c', ok) ← c.downLeftForceC .no
          still (assert ok)
          let c' ← c'.downRightAllC
          focusLoopC n c' RazMeta.last
        | .nowhere => return none
    | _ => return some (c, i)

/-- `focus`, src/raz.rs:321-377. -/
def focusC [RazMeta E M] (t : RazTree E M) (index : RazMeta.Index E M) : Counting (Option (Raz E M)) :=
  match t.tree with
  | .nil => return some emptyRaz
  | .node .. => do
    match ← focusLoopC t.tree.size (Cursor.ofTree t.tree) index with
    | none => return none
    | some (cursor, index) => do
      let (lc, tree, rc) := cursor.split
      match tree with
      | .node _ _ (.leaf v) _ _ => do
        let (a, b) ← still (RazMeta.splitVec v index)
        return some { lForest := lc, lStack := AStack.new.extend a, rStack := AStack.new.extendRev b, rForest := rc }
      | _ => still (.error .unreachable)

/-- `focus_left`, src/raz.rs:380-416. -/
def focusLeftC (t : RazTree E M) : Counting (Raz E M) :=
  match t.tree with
  | .nil => return emptyRaz
  | .node .. => do
    let cursor ← (Cursor.ofTree t.tree).downLeftAllC
    let (lc, tree, rc) := cursor.split
    match tree with
    | .node _ _ (.leaf v) _ _ =>
      return { lForest := lc, lStack := AStack.new, rStack := AStack.new.extendRev v, rForest := rc }
    | _ => still (.error .unreachable)

end RazTree

namespace Raz

/-- Loop of src/raz.rs:483-489; as `joinLeftLoop`. -/
def joinLeftLoopC [RazMeta E M] (s : AStack E Nat) (cursor : Cursor (TreeData E M)) (lLev : Option Nat) (lNm nextNm : Option Name) :
    Counting (Cursor (TreeData E M)) :=
  match h : s.nextArchive with
  | (_, none) => return cursor
  | (s', some (lVec, nextLev)) =>
    have := AStack.nextArchive_weight h
    do
      let lev ← still (unwrap lLev)
      let cursor ← Cursor.joinC (Cursor.ofTree (leaf lVec none)) lev lNm .dummy cursor
      joinLeftLoopC s' cursor nextLev nextNm (treeName s')
termination_by s.weight

/-- Loop of src/raz.rs:491-498; as `joinRightLoop`. -/
def joinRightLoopC [RazMeta E M] (s : AStack E Nat) (cursor : Cursor (TreeData E M)) (rLev : Option Nat) (rNm nextNm : Option Name) :
    Counting (Cursor (TreeData E M)) :=
  match h : s.nextArchive with
  | (_, none) => return cursor
  | (s', some (rVec, nextLev)) =>
    have := AStack.nextArchive_weight h
    do
      let lev ← still (unwrap rLev)
      let cursor ← Cursor.joinC cursor lev rNm .dummy (Cursor.ofTree (leaf rVec.reverse none))
      joinRightLoopC s' cursor nextLev nextNm (treeName s')
termination_by s.weight

/-- Step 2 of `unfocus`, src/raz.rs:479-511; as `centerTree`. -/
def centerTreeC [RazMeta E M] (c : Center E) (lf rf : Cursor (TreeData E M)) :
    Counting (Option (Tree (TreeData E M) × Cursor (TreeData E M) × Cursor (TreeData E M))) :=
  match c.vec with
  | some v => do
    let cursor := Cursor.ofTree (leaf v none)
    let cursor ← joinLeftLoopC c.lStack cursor c.lLev c.lNm (treeName c.lStack)
    let cursor ← joinRightLoopC c.rStack cursor c.rLev c.rNm (treeName c.rStack)
    let cursor ← cursor.upAllC cursor.height
    let t ← still (unwrapTree cursor.atTree)
    return some (t, lf, rf)
  | none => do
    let (lf, res) ← lf.upC
    if res = .fail then do
      let (rf, res) ← rf.upC
      if res = .fail then return none
      else do
        let t ← still (unwrapTree rf.rightTree)
        return some (t, lf, rf)
    else do
      let t ← still (unwrapTree lf.leftTree)
      return some (t, lf, rf)

/-- Step 3 of `unfocus`, left half, src/raz.rs:514-519. -/
def joinLeftForestC [RazMeta E M] (lf jc : Cursor (TreeData E M)) : Counting (Cursor (TreeData E M)) := do
  let (lf, res) ← lf.upC
  if res ≠ .fail then do
    let lev ← still (unwrap lf.peekLevel)
    let nm := lf.peekName
    let (lf, _) ← lf.downLeftForceC .discard
    Cursor.joinC lf lev nm .dummy jc
  else return jc

/-- Step 3 of `unfocus`, right half, src/raz.rs:520-525. -/
def joinRightForestC [RazMeta E M] (jc rf : Cursor (TreeData E M)) : Counting (Cursor (TreeData E M)) := do
  let (rf, res) ← rf.upC
  if res ≠ .fail then do
    let lev ← still (unwrap rf.peekLevel)
    let nm := rf.peekName
    let (rf, _) ← rf.downRightForceC .discard
    Cursor.joinC jc lev nm .dummy rf
  else return jc

/-- Step 3 and 4 of `unfocus`, src/raz.rs:512-529. -/
def joinForestsC [RazMeta E M] (tree : Tree (TreeData E M)) (lf rf : Cursor (TreeData E M)) : Counting (RazTree E M) := do
  let jc ← joinLeftForestC lf (Cursor.ofTree tree)
  let jc ← joinRightForestC jc rf
  let jc ← jc.upAllC jc.height
  still (mkRazTree jc.atTree)

/-- `unfocus`, src/raz.rs:443-530. -/
def unfocusC [RazMeta E M] (z : Raz E M) : Counting (RazTree E M) := do
  let c ← still (center z.lStack z.rStack)
  match ← centerTreeC c z.lForest z.rForest with
  | none => still (mkRazTree .nil)
  | some (t, lf, rf) => joinForestsC t lf rf

/-- `pop_left`, src/raz.rs:611-623. -/
def popLeftC [RazMeta E M] (z : Raz E M) : Counting (Raz E M × Option E) := do
  if z.lStack.isEmpty then
    let (lf, res) ← z.lForest.upC
    if res = .fail then return ({ z with lForest := lf }, none)
    else
      let (lf, _) ← lf.downLeftForceC .discard
      let lf ← lf.downRightAllC
      match lf.peek with
      | some (.leaf data) => do
        let (s, e) ← still (z.lStack.extend data).pop
        return ({ z with lForest := lf, lStack := s }, e)
      | _ => still (.error .explicit)
  else do
    let (s, e) ← still z.lStack.pop
    return ({ z with lStack := s }, e)

/-- `pop_right`, src/raz.rs:628-640. -/
def popRightC [RazMeta E M] (z : Raz E M) : Counting (Raz E M × Option E) := do
  if z.rStack.isEmpty then
    let (rf, res) ← z.rForest.upC
    if res = .fail then return ({ z with rForest := rf }, none)
    else
      let (rf, _) ← rf.downRightForceC .discard
      let rf ← rf.downLeftAllC
      match rf.peek with
      | some (.leaf data) => do
        let (s, e) ← still (z.rStack.extendRev data).pop
        return ({ z with rForest := rf, rStack := s }, e)
      | _ => still (.error .explicit)
  else do
    let (s, e) ← still z.rStack.pop
    return ({ z with rStack := s }, e)

end Raz
end
end Iodyn
