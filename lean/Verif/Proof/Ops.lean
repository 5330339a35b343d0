import Verif.Proof.Raz
import Verif.Spec.Api
/-
Cursor operations of the zipper (`push`, `pop`, `peek`, `archive`) and `focus`, on the item level.
-/
namespace Iodyn
variable {E M : Type}

section
variable [RazMeta E M]

theorem ZInv.empty : ZInv (RazTree.emptyRaz : Raz E M) :=
  ⟨⟨by simp [RazTree.emptyRaz, Cursor.new], rfl, by simp [RazTree.emptyRaz, Cursor.new, Tree.peek?]⟩,
   ⟨rfl, by simp [RazTree.emptyRaz, Cursor.new], by simp [RazTree.emptyRaz, Cursor.new, Tree.peek?]⟩,
   by simp [StackOK, RazTree.emptyRaz, AStack.new], by simp [StackOK, RazTree.emptyRaz, AStack.new]⟩

/-! ### push and archive -/

omit [RazMeta E M] in
theorem StackOK.push {s : AStack E Nat} (h : StackOK s) (e : E) : StackOK (s.push e) := h
omit [RazMeta E M] in
theorem side_push (s : AStack E Nat) (e : E) : (s.push e).side = .elem e :: s.side := by
  simp [AStack.side, AStack.push]

omit [RazMeta E M] in
theorem StackOK.archive {s : AStack E Nat} (h : StackOK s) {lev : Nat} (hlev : 1 ≤ lev) (nm) :
    StackOK (s.archive nm lev).1 := by
  unfold AStack.archive
  split
  · exact h
  · rename_i hc
    intro p hp
    simp [Stack.push] at hp
    rcases hp with rfl | hp
    · exact ⟨hlev, by simpa using hc⟩
    · exact h p hp

omit [RazMeta E M] in
/-- Archiving the stack appends a pending archive point exactly if the active vector is not empty. -/
theorem side_archive (s : AStack E Nat) (lev : Nat) (nm) (rest : List (Item E)) (hr : MarkHead rest) :
    (s.archive nm lev).1.side ++ rest = archiveSide lev nm (s.side ++ rest) := by
  obtain ⟨cur, arch⟩ := s
  unfold AStack.archive
  by_cases hc : cur = []
  · subst hc
    simp only [List.length_nil, if_true]
    rcases arch with _ | ⟨⟨a, b, c⟩, d⟩
    · rcases hr with rfl | ⟨a, b, c, rfl⟩ <;> rfl
    · rw [side_arch]; rfl
  · simp only [List.length_eq_zero_iff, hc, if_false]
    obtain ⟨e, r, he⟩ := side_head (s := ⟨cur, arch⟩) hc
    have : AStack.side (⟨[], Stack.push arch nm (lev, cur)⟩ : AStack E Nat) =
        .pend lev nm :: AStack.side ⟨cur, arch⟩ := by simp [Stack.push, side_arch]
    rw [this, he]
    rfl

theorem pushLeft_ok {z : Raz E M} (h : ZInv z) (e : E) :
    ZInv (z.pushLeft e).1 ∧ (z.pushLeft e).1.left = .elem e :: z.left ∧ (z.pushLeft e).1.right = z.right :=
  ⟨⟨h.lf, h.rf, h.ls.push e, h.rs⟩, by simp [Raz.left, Raz.pushLeft, side_push], rfl⟩
theorem pushRight_ok {z : Raz E M} (h : ZInv z) (e : E) :
    ZInv (z.pushRight e).1 ∧ (z.pushRight e).1.right = .elem e :: z.right ∧ (z.pushRight e).1.left = z.left :=
  ⟨⟨h.lf, h.rf, h.ls, h.rs.push e⟩, by simp [Raz.right, Raz.pushRight, side_push], rfl⟩

theorem archiveLeft_ok {z : Raz E M} (h : ZInv z) {lev : Nat} (hlev : 1 ≤ lev) (nm) :
    ZInv (z.archiveLeft lev nm) ∧ (z.archiveLeft lev nm).left = archiveSide lev nm z.left ∧
      (z.archiveLeft lev nm).right = z.right :=
  ⟨⟨h.lf, h.rf, h.ls.archive hlev nm, h.rs⟩, side_archive _ _ _ _ (leftSide_markHead _), rfl⟩
theorem archiveRight_ok {z : Raz E M} (h : ZInv z) {lev : Nat} (hlev : 1 ≤ lev) (nm) :
    ZInv (z.archiveRight lev nm) ∧ (z.archiveRight lev nm).right = archiveSide lev nm z.right ∧
      (z.archiveRight lev nm).left = z.left :=
  ⟨⟨h.lf, h.rf, h.ls, h.rs.archive hlev nm⟩, side_archive _ _ _ _ (rightSide_markHead _), rfl⟩

/-! ### pop and peek -/

omit [RazMeta E M] in
theorem isEmpty_iff (s : AStack E Nat) : s.isEmpty = true ↔ s = ⟨[], []⟩ := by
  obtain ⟨cur, arch⟩ := s
  simp [AStack.isEmpty, Stack.isEmpty]

omit [RazMeta E M] in
/-- Popping a non-empty stack. -/
theorem stackPop_ok {s : AStack E Nat} (h : StackOK s) (hne : s.isEmpty = false) (rest : List (Item E)) :
    ∃ s' e, s.pop = .ok (s', some e) ∧ StackOK s' ∧ popSide (s.side ++ rest) = (some e, s'.side ++ rest) ∧
      s.peek = .ok (some e) := by
  obtain ⟨cur, arch⟩ := s
  by_cases hc : cur = []
  · subst hc
    rcases arch with _ | ⟨⟨nm, lev, v⟩, d⟩
    · simp [AStack.isEmpty, Stack.isEmpty] at hne
    · have hv := h (nm, lev, v) (by simp)
      obtain ⟨w, x, rfl⟩ : ∃ w x, v = w ++ [x] := ⟨_, _, (List.dropLast_concat_getLast hv.2).symm⟩
      refine ⟨⟨w, d⟩, x, ?_, fun p hp => h p (by simp at hp ⊢; exact .inr hp), ?_, ?_⟩
      · simp [AStack.pop, AStack.isEmpty, Stack.isEmpty, AStack.retrieve, Stack.peek, Stack.pull, unwrap, bind,
          Except.bind, AStack.popCurrent, pure, Except.pure]
      · rw [side_arch, side_mk, side_mk w]; simp [popSide]
      · simp [AStack.peek, AStack.isEmpty, Stack.isEmpty, Stack.peek, unwrap, bind, Except.bind, pure, Except.pure]
  · obtain ⟨w, x, rfl⟩ : ∃ w x, cur = w ++ [x] := ⟨_, _, (List.dropLast_concat_getLast hc).symm⟩
    refine ⟨⟨w, arch⟩, x, ?_, h, ?_, ?_⟩
    · simp [AStack.pop, AStack.isEmpty, AStack.retrieve, bind, Except.bind, AStack.popCurrent, pure, Except.pure]
    · rw [side_mk, side_mk w]; simp [popSide]
    · simp [AStack.peek, AStack.isEmpty, unwrap, bind, Except.bind, pure, Except.pure]

omit [RazMeta E M] in
/-- Popping the vector that was just loaded from a leaf. -/
theorem leafPop_ok (v : List E) (rest : List (Item E)) (hr : MarkHead rest) (m : Item E) (hm : m.isMark = true) :
    ∃ s', (⟨v, []⟩ : AStack E Nat).pop = .ok (s', v.getLast?) ∧ StackOK s' ∧
      popSide (m :: v.reverse.map Item.elem ++ rest) = (v.getLast?, s'.side ++ rest) := by
  by_cases hv : v = []
  · subst hv
    refine ⟨⟨[], []⟩, rfl, by simp [StackOK], ?_⟩
    rcases hr with rfl | ⟨a, b, c, rfl⟩ <;> cases m <;> simp_all [popSide, Item.isMark]
  · obtain ⟨w, x, rfl⟩ : ∃ w x, v = w ++ [x] := ⟨_, _, (List.dropLast_concat_getLast hv).symm⟩
    refine ⟨⟨w, []⟩, ?_, by simp [StackOK], ?_⟩
    · simp [AStack.pop, AStack.isEmpty, AStack.retrieve, bind, Except.bind, AStack.popCurrent, pure, Except.pure]
    · cases m <;> simp_all [popSide, Item.isMark, side_mk w]

theorem popLeft_ok {z : Raz E M} (h : ZInv z) :
    ∃ z', z.popLeft = .ok (z', (popSide z.left).1) ∧ ZInv z' ∧ z'.left = (popSide z.left).2 ∧
      z'.right = z.right := by
  obtain ⟨lf, ls, rs, rf⟩ := z
  obtain ⟨hlf, hrf, hls, hrs⟩ := h
  simp only at hlf hrf hls hrs
  cases he : ls.isEmpty with
  | false =>
    obtain ⟨s', e, h1, h2, h3, -⟩ := stackPop_ok hls he (Cursor.leftSide lf.lForest)
    refine ⟨⟨lf, s', rs, rf⟩, ?_, ⟨hlf, hrf, h2, hrs⟩, ?_, rfl⟩
    · simp [Raz.popLeft, he, h1, Raz.left, h3, bind, Except.bind, pure, Except.pure]
    · simp [Raz.left, h3]
  | true =>
    have hs := (isEmpty_iff ls).1 he
    subst hs
    match hf : lf.lForest with
    | [] =>
      refine ⟨⟨lf, ⟨[], []⟩, rs, rf⟩, ?_, ⟨hlf, hrf, hls, hrs⟩, ?_, rfl⟩
      · simp [Raz.popLeft, he, hlf.up_nil hf, Raz.left, hf, popSide, bind, Except.bind, pure, Except.pure]
      · simp [Raz.left, hf, popSide]
    | (d, u) :: rest =>
      obtain ⟨c', a, b, t, u1, u2, u3, u4, ⟨u5, u6, u7⟩, u8⟩ := hlf.up_cons hf
      obtain ⟨c'', v, d1, d2, d3, d4, d5⟩ := downRightAll_ok u.l u6 { c' with tree := u.l, dirty := true } rfl
        (by simp only; rw [u2]; exact u8)
      obtain ⟨s', p1, p2, p3⟩ := leafPop_ok v (Cursor.leftSide c''.lForest) (leftSide_markHead _)
        (.mark u.level u.name) rfl
      have hleft : Raz.left (⟨lf, ⟨[], []⟩, rs, rf⟩ : Raz E M) =
          .mark u.level u.name :: v.reverse.map Item.elem ++ Cursor.leftSide c''.lForest := by
        simp only [List.cons_append, d5, u2]
        simp [Raz.left, hf]
      refine ⟨⟨c'', s', rs, rf⟩, ?_, ⟨⟨d3, by rw [d4]; exact u3, by simp [d2, Tree.peek?]⟩, hrf, p2, hrs⟩, ?_, rfl⟩
      · rw [hleft, p3]
        simp [Raz.popLeft, he, u1, Cursor.downLeftForce, u4, d1, Cursor.peek, d2, Tree.peek?, AStack.extend, p1, bind,
          Except.bind, pure, Except.pure]
      · rw [hleft, p3]; rfl

theorem popRight_ok {z : Raz E M} (h : ZInv z) :
    ∃ z', z.popRight = .ok (z', (popSide z.right).1) ∧ ZInv z' ∧ z'.right = (popSide z.right).2 ∧
      z'.left = z.left := by
  obtain ⟨lf, ls, rs, rf⟩ := z
  obtain ⟨hlf, hrf, hls, hrs⟩ := h
  simp only at hlf hrf hls hrs
  cases he : rs.isEmpty with
  | false =>
    obtain ⟨s', e, h1, h2, h3, -⟩ := stackPop_ok hrs he (Cursor.rightSide rf.rForest)
    refine ⟨⟨lf, ls, s', rf⟩, ?_, ⟨hlf, hrf, hls, h2⟩, ?_, rfl⟩
    · simp [Raz.popRight, he, h1, Raz.right, h3, bind, Except.bind, pure, Except.pure]
    · simp [Raz.right, h3]
  | true =>
    have hs := (isEmpty_iff rs).1 he
    subst hs
    match hf : rf.rForest with
    | [] =>
      refine ⟨⟨lf, ls, ⟨[], []⟩, rf⟩, ?_, ⟨hlf, hrf, hls, hrs⟩, ?_, rfl⟩
      · simp [Raz.popRight, he, hrf.up_nil hf, Raz.right, hf, popSide, bind, Except.bind, pure, Except.pure]
      · simp [Raz.right, hf, popSide]
    | (d, u) :: rest =>
      obtain ⟨c', a, b, t, u1, u2, u3, u4, ⟨u5, u6, u7⟩, u8⟩ := hrf.up_cons hf
      obtain ⟨c'', v, d1, d2, d3, d4, d5⟩ := downLeftAll_ok u.r u6 { c' with tree := u.r, dirty := true } rfl
        (by simp only; rw [u2]; exact u8)
      obtain ⟨s', p1, p2, p3⟩ := leafPop_ok v.reverse (Cursor.rightSide c''.rForest) (rightSide_markHead _)
        (.mark u.level u.name) rfl
      have hright : Raz.right (⟨lf, ls, ⟨[], []⟩, rf⟩ : Raz E M) =
          .mark u.level u.name :: v.reverse.reverse.map Item.elem ++ Cursor.rightSide c''.rForest := by
        simp only [List.cons_append, List.reverse_reverse, d5, u2]
        simp [Raz.right, hf]
      refine ⟨⟨lf, ls, s', c''⟩, ?_, ⟨hlf, ⟨by rw [d4]; exact u3, d3, by simp [d2, Tree.peek?]⟩, hls, p2⟩, ?_, rfl⟩
      · rw [hright, p3]
        simp [Raz.popRight, he, u1, Cursor.downRightForce, u4, d1, Cursor.peek, d2, Tree.peek?, AStack.extendRev, p1,
          bind, Except.bind, pure, Except.pure]
      · rw [hright, p3]; rfl

theorem peekLeft_ok {z : Raz E M} (h : ZInv z) : z.peekLeft = .ok (popSide z.left).1 := by
  obtain ⟨lf, ls, rs, rf⟩ := z
  obtain ⟨hlf, hrf, hls, hrs⟩ := h
  simp only at hlf hrf hls hrs
  cases he : ls.isEmpty with
  | false =>
    obtain ⟨s', e, h1, h2, h3, h4⟩ := stackPop_ok hls he (Cursor.leftSide lf.lForest)
    simp [Raz.peekLeft, he, h4, Raz.left, h3]
  | true =>
    have hs := (isEmpty_iff ls).1 he
    subst hs
    match hf : lf.lForest with
    | [] =>
      simp [Raz.peekLeft, he, hlf.up_nil hf, Raz.left, hf, popSide, bind, Except.bind, pure, Except.pure]
    | (d, u) :: rest =>
      obtain ⟨c', a, b, t, u1, u2, u3, u4, ⟨u5, u6, u7⟩, u8⟩ := hlf.up_cons hf
      have hd : c'.downLeft.1.tree = u.l ∧ c'.downLeft.1.lForest = rest := by
        simp [Cursor.downLeft, Cursor.downLeftForce, u4, u6.isSome, u2]
      obtain ⟨c'', v, d1, d2, d3, d4, d5⟩ := downRightAll_ok u.l u6 c'.downLeft.1 hd.1
        (by rw [hd.2]; exact u8)
      obtain ⟨s', p1, p2, p3⟩ := leafPop_ok v (Cursor.leftSide c''.lForest) (leftSide_markHead _)
        (.mark u.level u.name) rfl
      have hleft : Raz.left (⟨lf, ⟨[], []⟩, rs, rf⟩ : Raz E M) =
          .mark u.level u.name :: v.reverse.map Item.elem ++ Cursor.leftSide c''.lForest := by
        simp only [List.cons_append, d5, hd.2]
        simp [Raz.left, hf]
      rw [hleft, p3]
      simp [Raz.peekLeft, he, u1, d1, Cursor.peek, d2, Tree.peek?, bind, Except.bind, pure, Except.pure]

theorem peekRight_ok {z : Raz E M} (h : ZInv z) : z.peekRight = .ok (popSide z.right).1 := by
  obtain ⟨lf, ls, rs, rf⟩ := z
  obtain ⟨hlf, hrf, hls, hrs⟩ := h
  simp only at hlf hrf hls hrs
  cases he : rs.isEmpty with
  | false =>
    obtain ⟨s', e, h1, h2, h3, h4⟩ := stackPop_ok hrs he (Cursor.rightSide rf.rForest)
    simp [Raz.peekRight, he, h4, Raz.right, h3]
  | true =>
    have hs := (isEmpty_iff rs).1 he
    subst hs
    match hf : rf.rForest with
    | [] =>
      simp [Raz.peekRight, he, hrf.up_nil hf, Raz.right, hf, popSide, bind, Except.bind, pure, Except.pure]
    | (d, u) :: rest =>
      obtain ⟨c', a, b, t, u1, u2, u3, u4, ⟨u5, u6, u7⟩, u8⟩ := hrf.up_cons hf
      have hd : c'.downRight.1.tree = u.r ∧ c'.downRight.1.rForest = rest := by
        simp [Cursor.downRight, Cursor.downRightForce, u4, u6.isSome, u2]
      obtain ⟨c'', v, d1, d2, d3, d4, d5⟩ := downLeftAll_ok u.r u6 c'.downRight.1 hd.1
        (by rw [hd.2]; exact u8)
      obtain ⟨s', p1, p2, p3⟩ := leafPop_ok v.reverse (Cursor.rightSide c''.rForest) (rightSide_markHead _)
        (.mark u.level u.name) rfl
      have hright : Raz.right (⟨lf, ls, ⟨[], []⟩, rf⟩ : Raz E M) =
          .mark u.level u.name :: v.reverse.reverse.map Item.elem ++ Cursor.rightSide c''.rForest := by
        simp only [List.cons_append, List.reverse_reverse, d5, hd.2]
        simp [Raz.right, hf]
      rw [hright, p3]
      simp [Raz.peekRight, he, u1, d1, Cursor.peek, d2, Tree.peek?, bind, Except.bind, pure, Except.pure]

/-! ### focus -/

/-- Where the walk of `focus` can end: at a leaf, with nothing lost. -/
structure AtLeaf (c : Cursor (TreeData E M)) (v : List E) (items : List (Item E)) : Prop where
  t : c.tree = .node 0 none (.leaf v) .nil .nil
  l : FL c.lForest
  r : FR c.rForest
  i : (Cursor.leftSide c.lForest).reverse ++ v.map Item.elem ++ Cursor.rightSide c.rForest = items

theorem focusLoop_inv : ∀ (t : Tree (TreeData E M)), WF t → ∀ (n : Nat) (c : Cursor (TreeData E M))
    (i : RazMeta.Index E M) (c' : Cursor (TreeData E M)) (i' : RazMeta.Index E M), c.tree = t → FL c.lForest → FR c.rForest → t.size ≤ n →
    RazTree.focusLoop n c i = .ok (some (c', i')) →
    ∃ v, AtLeaf c' v (cItems c) := by
  intro t ht
  induction ht with
  | leaf v =>
    intro n c i c' i' hc hl hr hn hok
    have hp : c.peek = some (.leaf v) := by simp [Cursor.peek, hc, Tree.peek?]
    unfold RazTree.focusLoop at hok
    simp [hp, unwrap, bind, Except.bind] at hok
    obtain ⟨rfl, rfl⟩ := hok
    exact ⟨v, hc, hl, hr, by simp [cItems, hc]⟩
  | @branch lv nm l r h1 hl hr ihl ihr =>
    intro n c i c' i' hc hfl hfr hn hok
    obtain ⟨d, lf, t, rf⟩ := c
    simp only at hc hfl hfr; subst hc
    have hGL : FL ((d, ⟨lv, nm, TreeData.branch (metaOf lv nm l) (metaOf lv nm r), l, r⟩) :: lf) :=
      FL_cons.2 ⟨⟨⟨_, _, rfl⟩, hl, h1⟩, hfl⟩
    have hGR : FR ((d, ⟨lv, nm, TreeData.branch (metaOf lv nm l) (metaOf lv nm r), l, r⟩) :: rf) :=
      FR_cons.2 ⟨⟨⟨_, _, rfl⟩, hr, h1⟩, hfr⟩
    unfold RazTree.focusLoop at hok
    match n with
    | 0 => simp [Tree.size] at hn
    | n+1 =>
      simp only [Tree.size] at hn
      simp only [Cursor.peek, Tree.peek?, unwrap, bind, Except.bind] at hok
      match hnav : RazMeta.navigate (metaOf lv nm l) (metaOf lv nm r) i with
      | .error e => simp [hnav] at hok
      | .ok (.left j) =>
        simp [hnav, Cursor.downLeft, Cursor.downLeftForce, hl.isSome, assert] at hok
        obtain ⟨v, hv⟩ := ihl n _ j c' i' rfl hfl hGR (by omega) hok
        refine ⟨v, hv.t, hv.l, hv.r, hv.i.trans ?_⟩
        simp [cItems]
      | .ok (.right j) =>
        simp [hnav, Cursor.downRight, Cursor.downRightForce, hr.isSome, assert] at hok
        obtain ⟨v, hv⟩ := ihr n _ j c' i' rfl hGL hfr (by omega) hok
        refine ⟨v, hv.t, hv.l, hv.r, hv.i.trans ?_⟩
        simp [cItems]
      | .ok .here =>
        simp [hnav, Cursor.downLeft, Cursor.downLeftForce, hl.isSome, assert] at hok
        obtain ⟨c'', v, d1, d2, d3, d4, d5⟩ := downRightAll_ok l hl
          (⟨false, lf, l, (d, ⟨lv, nm, TreeData.branch (metaOf lv nm l) (metaOf lv nm r), l, r⟩) :: rf⟩ : Cursor (TreeData E M)) rfl hfl
        rw [d1] at hok
        have hp : c''.peek = some (.leaf v) := by simp [Cursor.peek, d2, Tree.peek?]
        unfold RazTree.focusLoop at hok
        simp [hp, unwrap, bind, Except.bind] at hok
        obtain ⟨rfl, rfl⟩ := hok
        refine ⟨v, d2, d3, by rw [d4]; exact hGR, ?_⟩
        have := congrArg List.reverse d5
        simp only [List.reverse_append, List.map_reverse, List.reverse_reverse] at this
        rw [this, d4]; simp [cItems]
      | .ok .nowhere => simp [hnav] at hok

omit [RazMeta E M] in
theorem extend_new (v : List E) : (AStack.new : AStack E Nat).extend v = ⟨v, []⟩ := rfl
omit [RazMeta E M] in
theorem extendRev_new (v : List E) : (AStack.new : AStack E Nat).extendRev v = ⟨v.reverse, []⟩ := rfl

/-- The zipper that `focus` builds at a leaf `v` split as `a ++ b`. -/
theorem AtLeaf.raz {c : Cursor (TreeData E M)} {v : List E} {items} (h : AtLeaf c v items) {a b : List E}
    (hab : a ++ b = v) :
    let z : Raz E M := ⟨c.split.1, AStack.new.extend a, AStack.new.extendRev b, c.split.2.2⟩
    ZInv z ∧ z.left.reverse ++ z.right = items ∧
      z.left = a.reverse.map Item.elem ++ Cursor.leftSide c.lForest ∧
      z.right = b.map Item.elem ++ Cursor.rightSide c.rForest := by
  have hL : Raz.left (⟨c.split.1, AStack.new.extend a, AStack.new.extendRev b, c.split.2.2⟩ : Raz E M) =
      a.reverse.map Item.elem ++ Cursor.leftSide c.lForest := by
    simp [Raz.left, AStack.side, extend_new, Cursor.split]
  have hR : Raz.right (⟨c.split.1, AStack.new.extend a, AStack.new.extendRev b, c.split.2.2⟩ : Raz E M) =
      b.map Item.elem ++ Cursor.rightSide c.rForest := by
    simp [Raz.right, AStack.side, extendRev_new, Cursor.split]
  refine ⟨⟨⟨h.l, rfl, ?_⟩, ⟨rfl, h.r, ?_⟩, by simp [StackOK, extend_new], by simp [StackOK, extendRev_new]⟩, ?_, hL, hR⟩
  · simp [Cursor.split, Cursor.leftTree, h.t, Tree.peek?]
  · simp [Cursor.split, Cursor.rightTree, h.t, Tree.peek?]
  · rw [hL, hR, ← h.i, ← hab]; simp

/-- A successful `focus` shows the same sequence. -/
theorem focus_ok [LawfulMeta E M] {t : RazTree E M} (ht : WFo t.tree) {i : RazMeta.Index E M} {z : Raz E M}
    (h : t.focus i = .ok (some z)) :
    ZInv z ∧ z.left.reverse ++ z.right = t.items ∧
      (t.tree = .nil ∨ ∃ (c : Cursor (TreeData E M)) (v a b : List E), AtLeaf c v t.items ∧ a ++ b = v ∧
      z.left = a.reverse.map Item.elem ++ Cursor.leftSide c.lForest ∧
      z.right = b.map Item.elem ++ Cursor.rightSide c.rForest) := by
  obtain ⟨info, tree⟩ := t
  simp only at ht
  rcases ht with rfl | ht
  · simp [RazTree.focus] at h
    subst h
    exact ⟨ZInv.empty, rfl, .inl rfl⟩
  · have : ∃ lv nm d l r, tree = .node lv nm d l r := by
      cases ht <;> exact ⟨_, _, _, _, _, rfl⟩
    obtain ⟨lv, nm, d, l, r, htree⟩ := this
    have hsz : tree.size = (Tree.node lv nm d l r).size := by rw [htree]
    simp only [RazTree.focus, htree] at h
    rw [← htree] at h
    match hf : RazTree.focusLoop tree.size (Cursor.ofTree tree) i with
    | .error e => simp [hf, bind, Except.bind] at h
    | .ok none => simp [hf, bind, Except.bind] at h
    | .ok (some (c, i')) =>
      obtain ⟨v, hv⟩ := focusLoop_inv tree ht tree.size (Cursor.ofTree tree) i c i' rfl (by simp [Cursor.ofTree])
        (by simp [Cursor.ofTree]) (Nat.le_refl _) hf
      have hci : cItems (Cursor.ofTree tree) = RazTree.items ⟨info, tree⟩ := by
        simp [cItems, Cursor.ofTree, RazTree.items]
      rw [hci] at hv
      have hs : c.split.2.1 = .node 0 none (.leaf v) .nil .nil := hv.t
      simp only [hf, bind, Except.bind] at h
      rw [hs] at h
      simp only at h
      match hsp : RazMeta.splitVec (M := M) v i' with
      | .error e => simp [hsp] at h
      | .ok (a, b) =>
        simp [hsp, pure, Except.pure] at h
        subst h
        have hab := LawfulMeta.split v i' a b hsp
        obtain ⟨r1, r2, r3, r4⟩ := hv.raz hab
        exact ⟨r1, r2, .inr ⟨c, v, a, b, hv, hab, r3, r4⟩⟩

/-- `focus_left` never panics and puts everything right of the cursor. -/
theorem focusLeft_ok {t : RazTree E M} (ht : WFo t.tree) :
    ∃ z, t.focusLeft = .ok z ∧ ZInv z ∧ z.left = [] ∧ z.right = t.items := by
  obtain ⟨info, tree⟩ := t
  simp only at ht
  rcases ht with rfl | ht
  · exact ⟨_, rfl, ZInv.empty, rfl, rfl⟩
  · have : ∃ lv nm d l r, tree = .node lv nm d l r := by
      cases ht <;> exact ⟨_, _, _, _, _, rfl⟩
    obtain ⟨lv, nm, d, l, r, htree⟩ := this
    obtain ⟨c, v, d1, d2, d3, d4, d5⟩ := downLeftAll_ok tree ht (Cursor.ofTree tree) rfl (by simp [Cursor.ofTree])
    have hv : AtLeaf c v tree.items := ⟨d2, by rw [d4]; simp [Cursor.ofTree], d3, by
      rw [d4]; simpa [Cursor.ofTree] using d5⟩
    obtain ⟨r1, r2, r3, r4⟩ := hv.raz (a := []) (b := v) rfl
    refine ⟨_, ?_, r1, ?_, ?_⟩
    · simp only [RazTree.focusLeft, htree]
      rw [← htree, d1]
      have hs : c.split.2.1 = .node 0 none (.leaf v) .nil .nil := hv.t
      simp only [hs]
      rfl
    · rw [r3, d4]; simp [Cursor.ofTree]
    · rw [r4]; simpa [Cursor.ofTree, RazTree.items] using d5

theorem lawful_unit : LawfulMeta E Unit where
  split v i a b h := by
    cases i <;> simp [RazMeta.splitVec, splitAt] at h
    · simp [h]
    · simp [h]
theorem splitAt_append {v : List E} {i : Nat} {a b : List E} (h : splitAt v i = .ok (a, b)) : a ++ b = v := by
  unfold splitAt at h
  split at h
  · simp at h; rw [← h.1, ← h.2]; simp
  · simp at h

instance : LawfulMeta E Unit := lawful_unit
instance : LawfulMeta E Count where
  split v i a b h := by
    simp only [RazMeta.splitVec] at h
    split at h <;> exact splitAt_append h
instance : LawfulMeta E Names where
  split v i a b h := by
    cases i <;> simp only [RazMeta.splitVec] at h
    · exact splitAt_append h
    · exact splitAt_append h
    · simp at h

end
end Iodyn
