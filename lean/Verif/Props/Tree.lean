import Verif.Proof.Walk
import Verif.Props.Canon
/-
C29–C34: level trees and tree cursors.
-/
namespace Iodyn
variable {D K A R F : Type}

/-! ### C29 -/

/-- **C29.** The level of a random number is the position (from 1) of its lowest bit among the lower 63 bits;
64 if they are all clear. -/
theorem C29_level (num : BitVec 64) : ∃ k, genBranchLevel num = k + 1 ∧ k ≤ 63 ∧ (∀ i < k, num.getLsbD i = false) ∧
    (k < 63 → num.getLsbD k = true) := by
  have key : ∀ (w : BitVec 64) (n i : Nat), n + i = 64 → ∃ k, trailingZeros.go w n i = k ∧ i ≤ k ∧ k ≤ 64 ∧
      (∀ j, i ≤ j → j < k → w.getLsbD j = false) ∧ (k < 64 → w.getLsbD k = true) := by
    intro w n
    induction n with
    | zero => intro i h; exact ⟨i, rfl, Nat.le_refl _, by omega, fun j h1 h2 => by omega, fun h => by omega⟩
    | succ n ih =>
      intro i h
      by_cases hb : w.getLsbD i = true
      · exact ⟨i, by simp [trailingZeros.go, hb], Nat.le_refl _, by omega, fun j h1 h2 => by omega, fun _ => hb⟩
      · obtain ⟨k, h1, h2, h3, h4, h5⟩ := ih (i+1) (by omega)
        refine ⟨k, by simp [trailingZeros.go, hb, h1], by omega, h3, fun j h6 h7 => ?_, h5⟩
        by_cases hj : j = i
        · subst hj; simpa using hb
        · exact h4 j (by omega) h7
  obtain ⟨k, h1, -, h3, h4, h5⟩ := key (num <<< 1) 64 0 rfl
  have hk : 1 ≤ k := by
    rcases Nat.eq_zero_or_pos k with rfl | h
    · have := h5 (by decide)
      simp at this
    · exact h
  refine ⟨k - 1, ?_, by omega, ?_, ?_⟩
  · have : genBranchLevel num = k := h1
    omega
  · intro i hi
    have := h4 (i + 1) (Nat.zero_le _) (by omega)
    simp [BitVec.getLsbD_shiftLeft] at this
    exact this (by omega)
  · intro hlt
    have := h5 (by omega)
    simp [BitVec.getLsbD_shiftLeft] at this
    exact this.2

/-- **C29.** Levels lie between 1 and 64, so that they are never 0 and below `u32::MAX`. -/
theorem C29_level_range (num : BitVec 64) : 1 ≤ genBranchLevel num ∧ genBranchLevel num ≤ 64 ∧ genBranchLevel num < u32Max := by
  obtain ⟨k, h1, h2, -⟩ := C29_level num
  refine ⟨by omega, by omega, ?_⟩
  have : (64 : Nat) < u32Max := by decide
  omega

/-- Both ends of the range occur. -/
example : genBranchLevel 5#64 = 1 ∧ genBranchLevel 0#64 = 64 ∧ genBranchLevel 24#64 = 4 := by decide +kernel

/-! ### C30 -/

/-- An example tree with ties. -/
def exT : Tree Nat :=
  .node 4 (some (.usize 4)) 40 (.node 3 none 30 (.node 1 none 10 .nil .nil) (.node 3 (some (.usize 3)) 31 (.node 2 none 20 .nil .nil) .nil))
    (.node 4 none 41 .nil (.node 1 none 11 .nil .nil))

theorem exT_heap : HeapOrdered exT := Canon.heap (by simp [exT, Canon, Tree.level?])

/-- **C30.** On a heap ordered tree every sequence of moves (with answers, and the subtree at the cursor after
each move) is the walk on paths of that tree: the cursor is always on a node of the original tree, `up` undoes
the last step down and reports its side. -/
theorem C30_walk [TreeUpdate D] {t : Tree D} (ht : HeapOrdered t) (ms : List Move) :
    ∃ c, (Cursor.ofTree t).walk ms = .ok (c, (pathWalk t [] ms).2) ∧ c.atTree = subAt t (pathWalk t [] ms).1 ∧ c.whole = .ok t := by
  obtain ⟨c, h1, h2⟩ := At.walk ht.canon ms At.root
  exact ⟨c, h1, h2.tree, h2.whole ht.canon⟩

/-- Without heap order the walk does not come back: the cursor ends on a node that is not on the path. -/
theorem C30_needs_heap_order [TreeUpdate Nat] : ∃ (t : Tree Nat) (ms : List Move) (c : Cursor Nat) (os : _),
    (Cursor.ofTree t).walk ms = .ok (c, os) ∧ os ≠ (pathWalk t [] ms).2 ∧
    c.whole = .ok (.node 2 none 2 (.node 1 none 3 .nil .nil) .nil) ∧ t.nodes.length = 3 := by
  refine ⟨.node 1 none 1 .nil (.node 2 none 2 (.node 1 none 3 .nil .nil) .nil), [.down .right false, .down .left false, .up], _, _, rfl, ?_, rfl, rfl⟩
  intro h
  have := congrArg (fun l => l.map Prod.fst) h
  exact absurd this (by decide +kernel)

example [TreeUpdate Nat] : ∃ c, (Cursor.ofTree exT).walk [.down .left false, .down .right false, .down .left false, .up, .up, .down .left true, .down .left true] =
    .ok (c, (pathWalk exT [] [.down .left false, .down .right false, .down .left false, .up, .up, .down .left true, .down .left true]).2) := by
  obtain ⟨c, h, -⟩ := C30_walk exT_heap [.down .left false, .down .right false, .down .left false, .up, .up, .down .left true, .down .left true]
  exact ⟨c, h⟩
example : (pathWalk exT [] [.down .left false, .down .right false, .down .left false, .up, .up, .down .left true, .down .left true]).1 = [.left, .left, .left] := rfl

/-! ### C31 -/

/-- **C31.** Joining two cursors that a client can make: the whole tree of the result has the nodes of the left
cursor's whole tree, the new node, and those of the right one, in this order; and it is heap ordered. `k` is
anything about node data that `TreeUpdate::rebuild` keeps: nothing (levels and names) in general, everything
for `DeriveTreeUpdate`. -/
theorem C31_join [TreeUpdate D] {k : D → K} (hk : KeepsUnder k) {lc rc c : Cursor D} (hl : lc.Made) (hr : rc.Made) {lv nm d}
    (hj : Cursor.join lc lv nm d rc = .ok c) {tl tr t : Tree D} (h1 : lc.whole = .ok tl) (h2 : rc.whole = .ok tr) (h3 : c.whole = .ok t) :
    t.nodesBy k = tl.nodesBy k ++ (lv, nm, k d) :: tr.nodesBy k ∧ HeapOrdered t := by
  obtain ⟨g1, g2⟩ := Sound.join hk hl.sound hr.sound hj
  obtain ⟨e1, e2⟩ := g1.whole hk h3
  rw [e1, g2, (hl.sound.whole hk h1).1, (hr.sound.whole hk h2).1]
  exact ⟨rfl, e2.heap⟩

/-- **C31.** Splitting: the whole trees of the parts and the node at the cursor make up the whole tree. -/
theorem C31_split [TreeUpdate D] {k : D → K} (hk : KeepsUnder k) {c : Cursor D} (hc : c.Made) {tl tr t : Tree D}
    (h1 : c.split.1.whole = .ok tl) (h2 : c.split.2.2.whole = .ok tr) (h3 : c.whole = .ok t) :
    t.nodesBy k = tl.nodesBy k ++ (match c.split.2.1 with
      | .nil => []
      | .node lv nm d _ _ => [(lv, nm, k d)]) ++ tr.nodesBy k ∧ c.split.2.1 = c.atTree ∧ HeapOrdered tl ∧ HeapOrdered tr := by
  obtain ⟨g1, g2, g3⟩ := hc.sound.split
  obtain ⟨e1, e2⟩ := g1.whole hk h1
  obtain ⟨e3, e4⟩ := g2.whole hk h2
  refine ⟨?_, rfl, e2.heap, e4.heap⟩
  rw [(hc.sound.whole hk h3).1, g3, e1, e3]
  cases c.split.2.1 <;> simp [seen]

/-- **C31.** Moving a cursor does not change its whole tree's nodes. -/
theorem C31_moves [TreeUpdate D] {k : D → K} (hk : KeepsUnder k) {c c' : Cursor D} (hc : c.Made) {t t' : Tree D}
    (hm : (∃ f, f ≠ .discard ∧ c' = (c.downLeftForce f).1) ∨ (∃ f, f ≠ .discard ∧ c' = (c.downRightForce f).1) ∨ (∃ res, c.up = .ok (c', res)))
    (h1 : c.whole = .ok t) (h2 : c'.whole = .ok t') : t'.nodesBy k = t.nodesBy k := by
  rw [(hc.sound.whole hk h1).1]
  rcases hm with ⟨f, hf, rfl⟩ | ⟨f, hf, rfl⟩ | ⟨res, hu⟩
  · obtain ⟨g1, g2⟩ := hc.sound.downLeftForce hf
    rw [(g1.whole hk h2).1, g2]
  · obtain ⟨g1, g2⟩ := hc.sound.downRightForce hf
    rw [(g1.whole hk h2).1, g2]
  · obtain ⟨g1, g2, -⟩ := hc.sound.up hk hu
    rw [(g1.whole hk h2).1, g2]

/-- **C31.** Neither join nor going up panics, unless `rebuild` does. -/
theorem C31_no_panic [TreeUpdate D] (ht : ∀ a (d : D) lv nm b, ∃ d', TreeUpdate.rebuild a d lv nm b = .ok d') {lc rc : Cursor D}
    (hl : lc.Made) (hr : rc.Made) (lv nm d) : ∃ c t, Cursor.join lc lv nm d rc = .ok c ∧ c.whole = .ok t := by
  obtain ⟨c, hc⟩ := join_total ht hl.sound hr.sound lv nm d
  obtain ⟨c', h⟩ := upAll_total ht c.height c
  exact ⟨c, c'.tree, hc, by simp [Cursor.whole, h, bind, Except.bind, pure, Except.pure, Cursor.atTree]⟩

/-- **C31.** Splitting at a node and joining the same node gives back the same tree. -/
theorem C31_split_join [TreeUpdate D] (hd : KeepsUnder (id : D → D)) (ht : ∀ a (d : D) lv nm b, ∃ d', TreeUpdate.rebuild a d lv nm b = .ok d')
    {c : Cursor D} (hc : c.Made) {lv nm d l r} (hn : c.atTree = .node lv nm d l r) :
    ∃ c' t, Cursor.join c.split.1 lv nm d c.split.2.2 = .ok c' ∧ c'.whole = .ok t ∧ c.whole = .ok t := by
  obtain ⟨c', t, h1, h2⟩ := C31_no_panic ht hc.splitL hc.splitR lv nm d
  obtain ⟨c1, g1⟩ := upAll_total ht c.height c
  obtain ⟨c2, g2⟩ := upAll_total ht c.split.1.height c.split.1
  obtain ⟨c3, g3⟩ := upAll_total ht c.split.2.2.height c.split.2.2
  have w1 : c.whole = .ok c1.tree := by simp [Cursor.whole, g1, bind, Except.bind, pure, Except.pure, Cursor.atTree]
  have w2 : c.split.1.whole = .ok c2.tree := by simp [Cursor.whole, g2, bind, Except.bind, pure, Except.pure, Cursor.atTree]
  have w3 : c.split.2.2.whole = .ok c3.tree := by simp [Cursor.whole, g3, bind, Except.bind, pure, Except.pure, Cursor.atTree]
  obtain ⟨e1, e2⟩ := C31_join hd hc.splitL hc.splitR h1 w2 w3 h2
  obtain ⟨e3, e4, -⟩ := C31_split hd hc w2 w3 w1
  rw [e4, hn] at e3
  refine ⟨c', t, h1, h2, ?_⟩
  rw [w1]
  congr 1
  have hi : ∀ x : Tree D, x.nodesBy id = x.nodes := by intro x; simp [Tree.nodesBy]
  refine nodes_unique (hc.sound.whole hd w1).2 e2.canon ?_
  rw [← hi, ← hi t, e3, e1]
  simp

/-- The data type of the source's cursor tests: `impl DeriveTreeUpdate for usize` (src/tree_cursor.rs:477). -/
@[reducible] def natUpdate : TreeUpdate Nat := deriveTreeUpdate Nat
section
attribute [local instance] natUpdate
theorem natUpdate_keeps : @KeepsUnder Nat Nat natUpdate id := by
  intro a d lv nm b d' h
  simpa [natUpdate, TreeUpdate.rebuild] using h.symm
theorem natUpdate_total : ∀ a (d : Nat) lv nm b, ∃ d', @TreeUpdate.rebuild Nat natUpdate a d lv nm b = .ok d' := fun _ d _ _ _ => ⟨d, rfl⟩

/-- A cursor of the example, on the node with level 3 and data 31. -/
def exC : Cursor Nat := ((Cursor.ofTree exT).downLeftForce .no).1.downRightForce .no |>.1
theorem exC_made : @Cursor.Made Nat natUpdate exC := .downRight _ (by decide) (.downLeft _ (by decide) (.ofTree exT_heap))

example : ∃ tl tr t, exC.split.1.whole = .ok tl ∧ exC.split.2.2.whole = .ok tr ∧ exC.whole = .ok t ∧
    t.nodesBy id = tl.nodesBy id ++ [(3, some (.usize 3), 31)] ++ tr.nodesBy id :=
  ⟨_, _, _, rfl, rfl, rfl, (C31_split natUpdate_keeps exC_made rfl rfl rfl).1⟩

example : ∃ t t', exC.whole = .ok t ∧ (exC.downLeftForce .no).1.whole = .ok t' ∧ t'.nodesBy id = t.nodesBy id :=
  ⟨_, _, rfl, rfl, C31_moves natUpdate_keeps exC_made (.inl ⟨.no, by decide, rfl⟩) rfl rfl⟩

example : ∃ c' t, @Cursor.join Nat natUpdate exC.split.1 3 (some (.usize 3)) 31 exC.split.2.2 = .ok c' ∧ @Cursor.whole Nat natUpdate c' = .ok t ∧
    @Cursor.whole Nat natUpdate exC = .ok t :=
  @C31_split_join Nat natUpdate natUpdate_keeps natUpdate_total exC exC_made _ _ _ _ _ rfl
example : ∃ c t, @Cursor.join Nat natUpdate exC.split.1 7 none 99 exC.split.2.2 = .ok c ∧ @Cursor.whole Nat natUpdate c = .ok t ∧
    t.nodes.map (·.2.2) = [10, 30, 20, 99, 40, 41, 11] := by
  obtain ⟨c, t, h1, h2⟩ := C31_no_panic natUpdate_total (.splitL exC_made) (.splitR exC_made) 7 none 99
  refine ⟨c, t, h1, h2, ?_⟩
  have hi : ∀ x : Tree Nat, x.nodesBy id = x.nodes := by intro x; simp [Tree.nodesBy]
  have := (C31_join natUpdate_keeps (.splitL exC_made) (.splitR exC_made) h1 (tl := .node 3 none 30 (.node 1 none 10 .nil .nil) (.node 2 none 20 .nil .nil))
    (tr := .node 4 (some (.usize 4)) 40 .nil (.node 4 none 41 .nil (.node 1 none 11 .nil .nil))) rfl rfl h2).1
  rw [← hi, this]
  rfl

/-! ### C32 -/

/-- **C32.** The right iterator of `into_iters` on a cursor that walked a heap ordered tree yields the data of
all nodes after the cursor's position, in order and once each, and then `None` for ever. -/
theorem C32_iterator [TreeUpdate D] {t : Tree D} (ht : HeapOrdered t) (ms : List Move) {c os}
    (hw : (Cursor.ofTree t).walk ms = .ok (c, os)) (n : Nat) (hn : (nodesAfter t (pathWalk t [] ms).1).length < n) :
    iterAll n c.intoIters.2.2 = ((nodesAfter t (pathWalk t [] ms).1).map (·.2.2), Cursor.new) ∧
    (Cursor.new : Cursor D).iterNext = (Cursor.new, none) ∧ c.intoIters.2.1 = subAt t (pathWalk t [] ms).1 := by
  obtain ⟨c', h1, h2⟩ := At.walk ht.canon ms At.root
  rw [h1] at hw
  simp only [Except.ok.injEq, Prod.mk.injEq] at hw
  obtain ⟨rfl, -⟩ := hw
  obtain ⟨g1, g2⟩ := intoIters_pending c'
  rw [h2.after] at g1
  exact ⟨by rw [iterAll_spec n _ g2 (by rw [g1]; exact hn), g1], rfl, h2.tree⟩

/-- **C32.** `fold_out` is the left fold over that sequence. -/
theorem C32_fold_out [TreeUpdate D] {t : Tree D} (ht : HeapOrdered t) (ms : List Move) {c os}
    (hw : (Cursor.ofTree t).walk ms = .ok (c, os)) (f : A → D → A) (a : A) (n : Nat) (hn : (nodesAfter t (pathWalk t [] ms).1).length < n) :
    Cursor.foldOut f n a c.intoIters.2.2 = ((nodesAfter t (pathWalk t [] ms).1).map (·.2.2)).foldl f a := by
  obtain ⟨c', h1, h2⟩ := At.walk ht.canon ms At.root
  rw [h1] at hw
  simp only [Except.ok.injEq, Prod.mk.injEq] at hw
  obtain ⟨rfl, -⟩ := hw
  obtain ⟨g1, g2⟩ := intoIters_pending c'
  rw [h2.after] at g1
  rw [foldOut_spec f n _ a g2 (by rw [g1]; exact hn), g1]

/-- **C32.** For every cursor a client can make: the iterator yields the data of the right part that `split`
gives (seen through what `rebuild` keeps). -/
theorem C32_iterator_split [TreeUpdate D] {k : D → K} (hk : KeepsUnder k) {c : Cursor D} (hc : c.Made) {tr : Tree D}
    (h : c.split.2.2.whole = .ok tr) (n : Nat) (hn : tr.nodes.length < n) :
    (iterAll n c.intoIters.2.2).1.map k = (tr.nodesBy k).map (·.2.2) ∧ (iterAll n c.intoIters.2.2).2 = Cursor.new := by
  obtain ⟨-, g2, -⟩ := hc.sound.split
  obtain ⟨e1, -⟩ := g2.whole hk h
  obtain ⟨p1, p2⟩ := intoIters_pending c
  have hall : allNodes c.split.2.2 = pending c.intoIters.2.2 := by
    rw [p1]; simp [allNodes, Cursor.split, lfNodes]
  have hlen : (pending c.intoIters.2.2).length = tr.nodes.length := by
    have := congrArg List.length e1
    rw [hall] at this
    simpa [Tree.nodesBy] using this.symm
  rw [iterAll_spec n _ p2 (by omega), e1, hall]
  simp [seen]

example : ∃ c os, @Cursor.walk Nat natUpdate (Cursor.ofTree exT) [.down .left false] = .ok (c, os) ∧
    iterAll 9 c.intoIters.2.2 = ([20, 31, 40, 41, 11], Cursor.new) := by
  obtain ⟨c, h, -⟩ := C30_walk exT_heap [.down .left false]
  exact ⟨c, _, h, (C32_iterator exT_heap _ h 9 (by decide)).1⟩
example : ∃ c os, @Cursor.walk Nat natUpdate (Cursor.ofTree exT) [.down .left false] = .ok (c, os) ∧
    Cursor.foldOut (fun a d => 100 * a + d) 9 0 c.intoIters.2.2 = 2031404111 := by
  obtain ⟨c, h, -⟩ := C30_walk exT_heap [.down .left false]
  exact ⟨c, _, h, C32_fold_out exT_heap _ h _ _ 9 (by decide)⟩
example : (iterAll 9 exC.intoIters.2.2).1.map id = [40, 41, 11] :=
  (@C32_iterator_split Nat Nat natUpdate id natUpdate_keeps exC exC_made
    (.node 4 (some (.usize 4)) 40 .nil (.node 4 none 41 .nil (.node 1 none 11 .nil .nil))) rfl 9 (by decide)).1

end

/-! ### C33 -/

/-- **C33.** `fold_up_meta` is the bottom-up catamorphism: whatever function satisfies the recursion equations
of the node function is computed by it. -/
theorem C33_fold_up_meta (f : Option R → D → Nat → Option Name → Option R → R) (g : Tree D → Option R) (h0 : g .nil = none)
    (h1 : ∀ lv nm d l r, g (.node lv nm d l r) = some (f (g l) d lv nm (g r))) (t : Tree D) :
    t.foldUpMeta (fun a d lv nm b => .ok (f a d lv nm b)) = .ok (g t) := by
  induction t with
  | nil => simp [Tree.foldUpMeta, h0]
  | node lv nm d l r ihl ihr => simp [Tree.foldUpMeta, ihl, ihr, bind, Except.bind, pure, Except.pure, h1]

example : exT.foldUpMeta (fun a _ _ _ b => .ok (a.getD 0 + 1 + b.getD 0)) = .ok (some 7) :=
  C33_fold_up_meta (D := Nat) (fun a _ _ _ b => a.getD 0 + 1 + b.getD 0) (fun t => if t.size = 0 then none else some t.size) rfl (by
    intro lv nm d l r
    by_cases h1 : l.size = 0 <;> by_cases h2 : r.size = 0 <;> simp [Tree.size, h1, h2] <;> omega) exT

/-- **C33.** `fold_up` sees every node exactly once, in order: with concatenation it gives the nodes' data. -/
theorem C33_fold_up (t : Tree D) :
    t.foldUp (fun a d b => .ok (a.getD [] ++ d :: b.getD [])) = .ok (if t.isSome then some (t.nodes.map (·.2.2)) else none) := by
  have := C33_fold_up_meta (R := List D) (fun a d _ _ b => a.getD [] ++ d :: b.getD []) (fun t => if t.isSome then some (t.nodes.map (·.2.2)) else none)
    rfl (by
      intro lv nm d l r
      have e : ∀ t : Tree D, (if t.isSome = true then some (t.nodes.map (·.2.2)) else none).getD [] = t.nodes.map (·.2.2) := by
        intro t; cases t <;> simp [Tree.isSome, Tree.nodes]
      simp only [e]
      simp [Tree.isSome, Tree.nodes]) t
  exact this

/-- **C33.** `fold_lr_meta` is the left fold over the nodes in order, each with its level and name; a node
without branches gets the name of the node before it. -/
theorem C33_fold_lr_meta (f : A → D → Nat → Option Name → A) (t : Tree D) (start : Option Name) (a : A) :
    t.foldLrMeta f start a = foldNames f start a t.nodesLeaf := by
  have app : ∀ (l l' : List (Bool × Nat × Option Name × D)) (s : Option Name) (a : A),
      foldNames f s a (l ++ l') = foldNames f ((l.getLast?.map (·.2.2.1)).getD s) (foldNames f s a l) l' := by
    intro l
    induction l with
    | nil => intro l' s a; rfl
    | cons x l ih =>
      intro l' s a
      obtain ⟨b, lv, nm, d⟩ := x
      simp only [List.cons_append, foldNames, ih]
      congr 1
      cases l <;> simp [List.getLast?_cons]
  induction t generalizing start a with
  | nil => rfl
  | node lv nm d l r ihl ihr =>
    unfold Tree.foldLrMeta Tree.nodesLeaf
    rw [app, foldNames]
    by_cases hb : (l.isSome || r.isSome) = true
    · rw [if_pos hb, ihr, ihl]
      simp [hb]
    · rw [if_neg hb]
      simp at hb
      have hl : l = .nil := by cases l <;> simp [Tree.isSome] at hb; rfl
      have hr : r = .nil := by cases r <;> simp [Tree.isSome] at hb; rfl
      subst hl hr
      rfl

/-- **C33.** `fold_lr` is the left fold over the data in order. -/
theorem C33_fold_lr (f : A → D → A) (t : Tree D) (a : A) : t.foldLr f a = (t.nodes.map (·.2.2)).foldl f a := by
  have key : ∀ (l : List (Bool × Nat × Option Name × D)) (s : Option Name) (a : A),
      foldNames (fun a e _ _ => f a e) s a l = (l.map (·.2.2.2)).foldl f a := by
    intro l
    induction l with
    | nil => intro s a; rfl
    | cons x l ih => intro s a; obtain ⟨b, lv, nm, d⟩ := x; simp [foldNames, ih]
  have e : ∀ t : Tree D, t.nodesLeaf.map (·.2.2.2) = t.nodes.map (·.2.2) := by
    intro t
    induction t with
    | nil => rfl
    | node lv nm d l r ihl ihr => simp [Tree.nodesLeaf, Tree.nodes, ihl, ihr]
  rw [Tree.foldLr, C33_fold_lr_meta, key, e]

/-- **C33.** `map` keeps shape, levels and names, and maps the data of every node. -/
theorem C33_map (f : D → Nat → Option Name → R) (t : Tree D) :
    ∃ t', t.map (fun d lv nm _ _ => .ok (f d lv nm)) = .ok t' ∧ t'.shape = t.shape ∧
      t'.nodes = t.nodes.map (fun n => (n.1, n.2.1, f n.2.2 n.1 n.2.1)) := by
  induction t with
  | nil => exact ⟨.nil, rfl, rfl, rfl⟩
  | node lv nm d l r ihl ihr =>
    obtain ⟨l', a1, a2, a3⟩ := ihl
    obtain ⟨r', b1, b2, b3⟩ := ihr
    exact ⟨.node lv nm (f d lv nm) l' r', by simp [Tree.map, a1, b1, bind, Except.bind, pure, Except.pure], by simp [Tree.shape, a2, b2], by simp [Tree.nodes, a3, b3]⟩

/-- **C33.** A mapping function that uses the mapped branches gets them as they are in the result. -/
theorem C33_map_branches (f : D → Nat → Option Name → Tree R → Tree R → R) (t : Tree D) :
    ∃ t', t.map (fun d lv nm l r => .ok (f d lv nm l r)) = .ok t' ∧ t'.shape = t.shape ∧
      ∀ p lv nm d l r lv' nm' d' l' r', subAt t p = .node lv nm d l r → subAt t' p = .node lv' nm' d' l' r' → d' = f d lv nm l' r' := by
  induction t with
  | nil => exact ⟨.nil, rfl, rfl, by
      intro p lv nm d l r lv' nm' d' l' r' h
      have : ∀ p, subAt (.nil : Tree D) p = .nil := by intro p; induction p with
        | nil => rfl
        | cons d p ih => exact ih
      rw [this] at h; simp at h⟩
  | node lv nm d l r ihl ihr =>
    obtain ⟨l', a1, a2, a3⟩ := ihl
    obtain ⟨r', b1, b2, b3⟩ := ihr
    refine ⟨.node lv nm (f d lv nm l' r') l' r', by simp [Tree.map, a1, b1, bind, Except.bind, pure, Except.pure], by simp [Tree.shape, a2, b2], ?_⟩
    intro p
    cases p with
    | nil =>
      intro lv1 nm1 d1 l1 r1 lv2 nm2 d2 l2 r2 h h'
      simp [subAt] at h h'
      obtain ⟨rfl, rfl, rfl, rfl, rfl⟩ := h
      obtain ⟨rfl, rfl, rfl, rfl, rfl⟩ := h'
      rfl
    | cons x p => cases x <;> [exact a3 p; exact b3 p]

/-- **C33.** Mapping twice is mapping the composition. -/
theorem C33_map_map (f : D → R) (g : R → F) (t : Tree D) :
    (t.map (fun d _ _ _ _ => .ok (f d)) >>= fun t' => t'.map (fun d _ _ _ _ => .ok (g d))) = t.map (fun d _ _ _ _ => .ok (g (f d))) := by
  induction t with
  | nil => rfl
  | node lv nm d l r ihl ihr =>
    obtain ⟨l', a1, -⟩ := C33_map (fun d _ _ => f d) l
    obtain ⟨r', b1, -⟩ := C33_map (fun d _ _ => f d) r
    rw [a1] at ihl
    rw [b1] at ihr
    simp only [bind, Except.bind] at ihl ihr
    simp [Tree.map, a1, b1, bind, Except.bind, pure, Except.pure, ihl, ihr]

example : exT.foldLr (fun a d => a ++ [d]) [] = [10, 30, 20, 31, 40, 41, 11] := C33_fold_lr _ _ _
example : exT.foldUp (fun a d b => .ok (a.getD [] ++ d :: b.getD [])) = .ok (some [10, 30, 20, 31, 40, 41, 11]) := C33_fold_up exT
example : exT.foldLrMeta (fun a d lv nm => a ++ [(d, lv, nm)]) (some (.str "start")) [] =
    [(10, 1, some (.str "start")), (30, 3, none), (20, 2, none), (31, 3, some (.usize 3)), (40, 4, some (.usize 4)), (41, 4, none), (11, 1, none)] :=
  C33_fold_lr_meta _ _ _ _

/-! ### C34 -/

/-- A stack with two archives of equal level: 1 | 2 | 3 -/
def tieStack : AStack Nat Nat := (((AStack.new.push 1).archive none 1).1.push 2 |>.archive none 1).1.push 3
theorem tieStack_built : tieStack.Built (fun n => 1 ≤ n ∧ n < u32Max) :=
  .push _ (.archive _ _ (by decide) (.push _ (.archive _ _ (by decide) (.push _ .new))))

/-- **C34 violated.** Trees with equal levels: `good_levels` rejects a tree that `memo_from` builds (and by C21
every way of editing to this sequence), although it has the heap order that cursors need. -/
theorem C34_counterexample_rejects {M : Type} [RazMeta Nat M] :
    ∃ t : RazTree Nat M, t.Reachable .edit ∧ HeapOrdered t.tree ∧ t.tree.goodLevels = false := by
  have hr : ∀ t, memoFromTail tieStack = .ok t → t.Reachable (M := M) .edit := fun t h => .memoTail tieStack_built (.inr (.inl (by decide))) h
  exact ⟨_, hr _ rfl, C20_heap_ordered rfl (hr _ rfl), rfl⟩

/-- **C34 violated.** `good_levels` accepts a tree on which a cursor loses its place: walking down and up again
does not give back the tree. -/
theorem C34_counterexample_accepts [TreeUpdate Nat] : ∃ (t : Tree Nat) (ms : List Move) (c : Cursor Nat) (os : _), t.goodLevels = true ∧ ¬ HeapOrdered t ∧
    (Cursor.ofTree t).walk ms = .ok (c, os) ∧ ∃ t', c.whole = .ok t' ∧ t'.nodes.length < t.nodes.length := by
  refine ⟨.node 1 none 1 (.node 1 none 2 .nil (.node 0 none 3 .nil .nil)) .nil, [.down .left false, .down .right false], _, _, rfl, ?_, rfl,
    .node 1 none 2 .nil (.node 0 none 3 .nil .nil), rfl, by decide⟩
  intro h
  have := (h _ _ _ _ _ .refl).1 1 (by simp [Tree.levels])
  omega

/-- **C34, what holds.** On trees where no branch has the level of its parent, `good_levels` is exactly heap
order. (Full claim: for all trees that the library builds, and for all trees.) -/
theorem C34_good_levels_partial (t : Tree D)
    (hd : ∀ lv nm d l r, Tree.Sub (.node lv nm d l r) t → l.level? ≠ some lv ∧ r.level? ≠ some lv) :
    t.goodLevels = true ↔ HeapOrdered t := by
  have : t.goodLevels = true ↔ Canon t := by
    induction t with
    | nil => simp [Tree.goodLevels, Canon]
    | node lv nm d l r ihl ihr =>
      have h0 := hd _ _ _ _ _ .refl
      have hl := ihl (fun _ _ _ _ _ h => hd _ _ _ _ _ (.left h))
      have hr := ihr (fun _ _ _ _ _ h => hd _ _ _ _ _ (.right h))
      simp only [Tree.goodLevels, Canon, ← hl, ← hr, Bool.and_eq_true]
      have e1 : (match l.level? with
          | none => true
          | some x => !(decide (x > lv)) && l.goodLevels) = true ↔ (∀ x ∈ l.level?, x < lv) ∧ l.goodLevels = true := by
        cases h : l.level? with
        | none => cases l <;> simp [Tree.level?] at h; simp [Tree.goodLevels]
        | some x =>
          have := h0.1
          rw [h] at this
          simp at this ⊢
          intro _
          omega
      have e2 : (match r.level? with
          | none => true
          | some x => !(decide (x ≥ lv)) && r.goodLevels) = true ↔ (∀ x ∈ r.level?, x ≤ lv) ∧ r.goodLevels = true := by
        cases h : r.level? with
        | none => cases r <;> simp [Tree.level?] at h; simp [Tree.goodLevels]
        | some x =>
          have := h0.2
          rw [h] at this
          simp at this ⊢
          intro _
          omega
      refine Iff.trans (and_congr e1 e2) ?_
      tauto
  rw [this]
  exact ⟨Canon.heap, HeapOrdered.canon⟩

/-- The example of the documentation (src/level_tree.rs:211-214), with one more node. -/
example : (Tree.node 4 none () (.node 2 none () .nil .nil) (.node 1 none () .nil .nil)).goodLevels = true := by
  refine (C34_good_levels_partial _ ?_).2 (Canon.heap (by simp [Canon, Tree.level?]))
  intro lv nm d l r h
  cases h with
  | refl => simp [Tree.level?]
  | left h => cases h with
    | refl => simp [Tree.level?]
    | left h => nomatch h
    | right h => nomatch h
  | right h => cases h with
    | refl => simp [Tree.level?]
    | left h => nomatch h
    | right h => nomatch h

end Iodyn
