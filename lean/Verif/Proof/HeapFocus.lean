import Verif.Proof.HeapOps
/-
`focus`, `focus_left`, `join` and `from_vec` over the store (src/raz.rs:121-141, 321-416). Walking down only reads.
-/
namespace Iodyn.Heap
variable [Spaces]

/-- A forest whose entries are still the whole trees. -/
def FullF {D X : Type} (e : Engine) (σ : Mem D X) : List (Bool × Tr) → List (Bool × TNode D) → Prop
  | hs, [] => hs = []
  | hs, (d, u) :: us => ∃ h hs', hs = (d, h) :: hs' ∧ RepT e σ (some h) u.toTree ∧ FullF e σ hs' us

/-- A cursor that only walked down: whole trees in both forests, all names `T`, and at most `m` nodes below. -/
structure Full {D X : Type} (e : Engine) (σ : Mem D X) (T : List Name) (m : Nat) (a : Cur) (b : Cursor D) : Prop where
  dirty : a.dirty = b.dirty
  l : FullF e σ a.lForest b.lForest
  t : RepT e σ a.tree b.tree
  r : FullF e σ a.rForest b.rForest
  names : cN e b = T
  size : b.tree.size ≤ m

section
variable {D X : Type} [TreeUpdate D] {e : Engine} {σ : Mem D X} {T : List Name}

theorem FullF.repL : ∀ {us : List (Bool × TNode D)} {hs : List (Bool × Tr)}, FullF e σ hs us → RepL e σ hs us
  | [], _, h => h
  | (d, u) :: us, _, ⟨h, hs', h1, h2, h3⟩ => by
    obtain ⟨k, hl, hr, g1, g2, g3, g4, g5⟩ := h2
    cases g1
    exact ⟨_, hs', h1, ⟨rfl, rfl, g2, u.data, hl, hr, g3, fun _ _ _ _ => rfl, g4⟩, h3.repL⟩

theorem FullF.repR : ∀ {us : List (Bool × TNode D)} {hs : List (Bool × Tr)}, FullF e σ hs us → RepR e σ hs us
  | [], _, h => h
  | (d, u) :: us, _, ⟨h, hs', h1, h2, h3⟩ => by
    obtain ⟨k, hl, hr, g1, g2, g3, g4, g5⟩ := h2
    cases g1
    exact ⟨_, hs', h1, ⟨rfl, rfl, g2, u.data, hl, hr, g3, fun _ _ _ _ => rfl, g5⟩, h3.repR⟩

omit [TreeUpdate D] in
theorem Full.right {d : Bool} {hlf hrf : List (Bool × Tr)} {lv : Nat} {n : Option Name} {k : Loc} {lf rf : List (Bool × TNode D)} {x : D}
    {l r : Tree D} {hr : Option Tr} {m : Nat} (h : Full e σ T m ⟨d, hlf, some ⟨lv, n, k⟩, hrf⟩ ⟨d, lf, .node lv n x l r, rf⟩)
    (hr' : RepT e σ hr r) :
    Full e σ T (m - 1) ⟨false, (d, ⟨lv, n, k⟩) :: hlf, hr, hrf⟩ ⟨false, (d, ⟨lv, n, x, l, r⟩) :: lf, r, rf⟩ := by
  refine ⟨rfl, ⟨_, _, rfl, h.t, h.l⟩, hr', h.r, ?_, ?_⟩
  · rw [← h.names]; simp [cN, lN, tN]
  · have := h.size; simp only [Tree.size] at this ⊢; omega

omit [TreeUpdate D] in
theorem Full.left {d : Bool} {hlf hrf : List (Bool × Tr)} {lv : Nat} {n : Option Name} {k : Loc} {lf rf : List (Bool × TNode D)} {x : D}
    {l r : Tree D} {hl : Option Tr} {m : Nat} (h : Full e σ T m ⟨d, hlf, some ⟨lv, n, k⟩, hrf⟩ ⟨d, lf, .node lv n x l r, rf⟩)
    (hl' : RepT e σ hl l) :
    Full e σ T (m - 1) ⟨false, hlf, hl, (d, ⟨lv, n, k⟩) :: hrf⟩ ⟨false, lf, l, (d, ⟨lv, n, x, l, r⟩) :: rf⟩ := by
  refine ⟨rfl, h.l, hl', ⟨_, _, rfl, h.t, h.r⟩, ?_, ?_⟩
  · rw [← h.names]; simp [cN, rN, tN]
  · have := h.size; simp only [Tree.size] at this ⊢; omega

omit [TreeUpdate D] in
theorem Full.le {a : Cur} {b : Cursor D} {m m' : Nat} (h : Full e σ T m a b) (hm : m ≤ m') : Full e σ T m' a b :=
  ⟨h.dirty, h.l, h.t, h.r, h.names, Nat.le_trans h.size hm⟩

omit [TreeUpdate D] in
theorem Full.ofTree {h : Tr} {t : Tree D} (hr : RepT e σ (some h) t) : Full e σ (tN e t) t.size (Cur.ofTree h) (Cursor.ofTree t) :=
  ⟨rfl, rfl, hr, rfl, by simp [cN, Cursor.ofTree, lN, rN], Nat.le_refl _⟩

omit [TreeUpdate D] in
theorem Full.rightAll {a : Cur} {b : Cursor D} {m : Nat} (h : Full e σ T m a b) :
    Sim a.downRightAll σ (.ok b.downRightAll) (fun b a σ' => Full e σ T m a b ∧ σ' = σ) :=
  (downRightAll_sim (Q := Full e σ T m) (fun _ _ q => ⟨q.t, q.dirty⟩)
    (fun _ _ _ _ _ _ _ _ _ _ _ _ _ q _ _ _ h2 => (q.right h2).le (by omega)) rfl h).run

omit [TreeUpdate D] in
theorem Full.leftAll {a : Cur} {b : Cursor D} {m : Nat} (h : Full e σ T m a b) :
    Sim a.downLeftAll σ (.ok b.downLeftAll) (fun b a σ' => Full e σ T m a b ∧ σ' = σ) :=
  (downLeftAll_sim (Q := Full e σ T m) (fun _ _ q => ⟨q.t, q.dirty⟩)
    (fun _ _ _ _ _ _ _ _ _ _ _ _ _ q _ _ h1 _ => (q.left h1).le (by omega)) rfl h).run

omit [TreeUpdate D] in
theorem Full.downLeft {a : Cur} {b : Cursor D} {m : Nat} (h : Full e σ T m a b) :
    ∃ a', (∀ f, a.downLeftForce .no f σ = .ok ((a', b.downLeft.2), σ)) ∧ (b.downLeft.2 = true → Full e σ T (m - 1) a' b.downLeft.1) := by
  obtain ⟨d, lf, t, rf⟩ := b
  obtain ⟨hd, hlf, ht, hrf⟩ := a
  have hdd := h.dirty
  simp only at hdd; subst hdd
  unfold Cursor.downLeft Cursor.downLeftForce
  cases t with
  | nil => exact ⟨_, fun f => downLeft_none .no h.t f, by simp⟩
  | node lv n x l r =>
    have hT := h.t
    obtain ⟨k, hl, hr, h1, h2, h3, h4, h5⟩ := hT
    simp only at h1; subst h1
    have hn := h4.isNone
    cases hs : l.isSome with
    | false =>
      rw [hs] at hn
      have hn' : hl.isNone = true := hn
      refine ⟨⟨hd, hlf, some ⟨lv, n, k⟩, hrf⟩, fun f => ?_, ?_⟩
      · exact (downLeft_run .no rfl h3 f).trans (by simp [hn', hs])
      · simp [hs]
    | true =>
      rw [hs] at hn
      have hn' : hl.isNone = false := hn
      refine ⟨⟨false, hlf, hl, (hd, ⟨lv, n, k⟩) :: hrf⟩, fun f => ?_, ?_⟩
      · exact (downLeft_run .no rfl h3 f).trans (by simp [hn', hs])
      · simp only [reduceCtorEq, hs, Bool.true_eq_false, false_and, if_false, forall_const]
        exact h.left h4

omit [TreeUpdate D] in
theorem Full.downRight {a : Cur} {b : Cursor D} {m : Nat} (h : Full e σ T m a b) :
    ∃ a', (∀ f, a.downRightForce .no f σ = .ok ((a', b.downRight.2), σ)) ∧ (b.downRight.2 = true → Full e σ T (m - 1) a' b.downRight.1) := by
  obtain ⟨d, lf, t, rf⟩ := b
  obtain ⟨hd, hlf, ht, hrf⟩ := a
  have hdd := h.dirty
  simp only at hdd; subst hdd
  unfold Cursor.downRight Cursor.downRightForce
  cases t with
  | nil => exact ⟨_, fun f => downRight_none .no h.t f, by simp⟩
  | node lv n x l r =>
    have hT := h.t
    obtain ⟨k, hl, hr, h1, h2, h3, h4, h5⟩ := hT
    simp only at h1; subst h1
    have hn := h5.isNone
    cases hs : r.isSome with
    | false =>
      rw [hs] at hn
      have hn' : hr.isNone = true := hn
      refine ⟨⟨hd, hlf, some ⟨lv, n, k⟩, hrf⟩, fun f => ?_, ?_⟩
      · exact (downRight_run .no rfl h3 f).trans (by simp [hn', hs])
      · simp [hs]
    | true =>
      rw [hs] at hn
      have hn' : hr.isNone = false := hn
      refine ⟨⟨false, (hd, ⟨lv, n, k⟩) :: hlf, hr, hrf⟩, fun f => ?_, ?_⟩
      · exact (downRight_run .no rfl h3 f).trans (by simp [hn', hs])
      · simp only [reduceCtorEq, hs, Bool.true_eq_false, false_and, if_false, forall_const]
        exact h.right h5

/-- `split` of a cursor that only walked down. -/
theorem Full.split {a : Cur} {b : Cursor D} {m : Nat} (h : Full e σ T m a b) :
    ∃ hl hr, (∀ f, a.split f σ = .ok ((hl, a.tree, hr), σ)) ∧ RepC e σ hl b.split.1 ∧ RepC e σ hr b.split.2.2 ∧
      Sub (cN e b.split.1 ++ cN e b.split.2.2) T := by
  obtain ⟨tl, h1, h2⟩ := leftTree_run h.t
  obtain ⟨tr, h3, h4⟩ := rightTree_run h.t
  refine ⟨_, _, fun f => (run_ok (h1 f)).trans (run_ok (h3 f)), ?_, ?_, ?_⟩
  · exact ⟨rfl, h.l.repL, h2, rfl, .inl rfl⟩
  · exact ⟨rfl, rfl, h4, h.r.repR, .inl rfl⟩
  · intro x
    rw [← h.names]
    obtain ⟨bd, blf, bt, brf⟩ := b
    unfold Cursor.split Cursor.leftTree Cursor.rightTree
    cases bt <;> simp only [cN, lN, rN, tN, List.count_append, List.count_nil] <;> omega

end

section
variable {E M : Type} [RazMeta E M] {e : Engine}

theorem focusLoop_sim {σ : RMem E M} {T : List Name} : ∀ (n : Nat) {a : Cur} {b : Cursor (TreeData E M)} {i : RazMeta.Index E M},
    Full e σ T n a b → SimL (fun N => HTree.focusLoopN N a i) σ (RazTree.focusLoop n b i) (fun y x σ' =>
      ((y = none ∧ x = none) ∨ ∃ c hc j, y = some (c, j) ∧ x = some (hc, j) ∧ Full e σ T n hc c) ∧ σ' = σ) := by
  intro n
  induction n with
  | zero =>
    intro a b i h
    have hnil : b.tree = .nil := by
      have := h.size
      cases hb : b.tree with
      | nil => rfl
      | node => rw [hb] at this; simp [Tree.size] at this
    refine SimL.shift (SimL.step' (curPeek_run h.t) ?_)
    have e1 : RazTree.focusLoop 0 b i = .error .unwrapNone := by
      unfold RazTree.focusLoop Cursor.peek; rw [hnil]; rfl
    rw [e1, hnil]
    exact ⟨0, fun N f _ _ => rfl⟩
  | succ n ih =>
    intro a b i h
    refine SimL.shift (SimL.step' (curPeek_run h.t) ?_)
    unfold RazTree.focusLoop
    refine SimL.liftBind' ?_
    intro d hd
    cases d with
    | dummy => exact SimL.const (Sim.pure ⟨.inr ⟨_, _, _, rfl, rfl, h⟩, rfl⟩)
    | leaf v => exact SimL.const (Sim.pure ⟨.inr ⟨_, _, _, rfl, rfl, h⟩, rfl⟩)
    | branch l r =>
      refine SimL.liftBind' ?_
      intro nav _
      have lift : ∀ (y : Option (Cursor (TreeData E M) × RazMeta.Index E M)) (x : Option (Cur × RazMeta.Index E M)) (σ' : RMem E M),
          (((y = none ∧ x = none) ∨ ∃ c hc j, y = some (c, j) ∧ x = some (hc, j) ∧ Full e σ T n hc c) ∧ σ' = σ) →
          (((y = none ∧ x = none) ∨ ∃ c hc j, y = some (c, j) ∧ x = some (hc, j) ∧ Full e σ T (n+1) hc c) ∧ σ' = σ) := by
        rintro y x σ' ⟨h1 | ⟨c, hc, j, h1, h2, h3⟩, h4⟩
        · exact ⟨.inl h1, h4⟩
        · exact ⟨.inr ⟨c, hc, j, h1, h2, h3.le (by omega)⟩, h4⟩
      cases nav with
      | nowhere => exact SimL.const (Sim.pure ⟨.inl ⟨rfl, rfl⟩, rfl⟩)
      | left j =>
        obtain ⟨a', h1, h2⟩ := h.downLeft
        refine SimL.step' h1 ?_
        refine SimL.liftBind' ?_
        intro _ hok
        have hok' : b.downLeft.2 = true := by
          revert hok; cases b.downLeft.2 <;> simp [Iodyn.assert]
        exact (ih (h2 hok')).mono (fun y x σ' _ hh => lift y x σ' hh)
      | right j =>
        obtain ⟨a', h1, h2⟩ := h.downRight
        refine SimL.step' h1 ?_
        refine SimL.liftBind' ?_
        intro _ hok
        have hok' : b.downRight.2 = true := by
          revert hok; cases b.downRight.2 <;> simp [Iodyn.assert]
        exact (ih (h2 hok')).mono (fun y x σ' _ hh => lift y x σ' hh)
      | here =>
        obtain ⟨a', h1, h2⟩ := h.downLeft
        refine SimL.step' h1 ?_
        refine SimL.liftBind' ?_
        intro _ hok
        have hok' : b.downLeft.2 = true := by
          revert hok; cases b.downLeft.2 <;> simp [Iodyn.assert]
        refine SimL.bind' (x := .ok b.downLeft.1.downRightAll) (kx := fun c => RazTree.focusLoop n c RazMeta.last) (h2 hok').rightAll ?_
        rintro c hc σ' - ⟨h3, rfl⟩
        exact (ih h3).mono (fun y x σ' _ hh => lift y x σ' hh)

omit [RazMeta E M] in
theorem RepA.new {D : Type} {σ : Mem D (Nat × List E)} : RepA e σ ASt.new (AStack.new : AStack E Nat) := ⟨rfl, rfl⟩

theorem RepZ.empty {σ : RMem E M} : RepZ e σ HTree.emptyRaz (RazTree.emptyRaz : Raz E M) :=
  ⟨RepC.new, RepA.new, RepA.new, RepC.new, rfl, rfl⟩

theorem focusLeft_sim {σ : RMem E M} {ht : HTree M} {t : RazTree E M} (h : RepRT e σ ht t) :
    Sim (ht.focusLeft (E := E)) σ t.focusLeft (fun b a σ' => RepZ e σ a b ∧ Sub (zN e b) (tN e t.tree) ∧ σ' = σ) := by
  obtain ⟨info, tree⟩ := t
  obtain ⟨hinfo, htree⟩ := ht
  have hT := h.tree
  simp only at hT
  unfold HTree.focusLeft RazTree.focusLeft
  cases tree with
  | nil =>
    cases hT
    exact Sim.pure ⟨RepZ.empty, fun x => by cases e <;> simp [zN, RazTree.emptyRaz, cN, Cursor.new, lN, rN, tN, aN, AStack.new, sN, pN], rfl⟩
  | node lv n d l r =>
    have hT0 := hT
    obtain ⟨k, hl, hr, h1, -⟩ := hT
    subst h1
    simp only
    refine (Full.ofTree hT0).leftAll.bindOk ?_
    rintro hc σ' ⟨hF, rfl⟩
    obtain ⟨hl', hr', s1, s2, s3, s4⟩ := hF.split
    refine Sim.step s1 ?_
    have hcT := hF.t
    simp only
    generalize (Cursor.ofTree (Tree.node lv n d l r)).downLeftAll = b at *
    obtain ⟨bd, blf, bt, brf⟩ := b
    simp only [Cursor.split] at hcT s2 s3 s4 ⊢
    cases bt with
    | nil => rw [show hc.tree = none from hcT]; exact Sim.error
    | node lv' n' d' l' r' =>
      obtain ⟨k', hl2, hr2, g1, g2, g3, g4, g5⟩ := hcT
      rw [g1]
      refine Sim.step (peek_run (h := ⟨lv', n', k'⟩) g3) ?_
      cases d' with
      | dummy => exact Sim.error
      | branch => exact Sim.error
      | leaf v =>
        refine Sim.pure ⟨⟨s2, RepA.new, RepA.new.extendRev v, s3, rfl, rfl⟩, fun x => ?_, rfl⟩
        have := s4 x
        simp only [zN, List.count_append, aN, AStack.new, AStack.extendRev, sN, pN, List.count_nil] at this ⊢
        omega

theorem focus_sim {σ : RMem E M} {ht : HTree M} {t : RazTree E M} (h : RepRT e σ ht t) (i : RazMeta.Index E M) :
    Sim (ht.focus i) σ (t.focus i) (fun b a σ' => ((b = none ∧ a = none) ∨ ∃ z hz, b = some z ∧ a = some hz ∧
      RepZ e σ hz z ∧ Sub (zN e z) (tN e t.tree)) ∧ σ' = σ) := by
  obtain ⟨info, tree⟩ := t
  obtain ⟨hinfo, htree⟩ := ht
  have hT := h.tree
  simp only at hT
  unfold HTree.focus RazTree.focus
  cases tree with
  | nil =>
    cases hT
    refine Sim.pure ⟨.inr ⟨_, _, rfl, rfl, RepZ.empty, fun x => ?_⟩, rfl⟩
    cases e <;> simp [zN, RazTree.emptyRaz, cN, Cursor.new, lN, rN, tN, aN, AStack.new, sN, pN]
  | node lv n d l r =>
    have hT0 := hT
    obtain ⟨k, hl, hr, h1, -⟩ := hT
    subst h1
    simp only
    refine (focusLoop_sim _ (Full.ofTree hT0)).run.bind ?_
    rintro y x σ' - ⟨hcase, rfl⟩
    rcases hcase with ⟨rfl, rfl⟩ | ⟨b, hc, j, rfl, rfl, hF⟩
    · exact Sim.pure ⟨.inl ⟨rfl, rfl⟩, rfl⟩
    · simp only
      obtain ⟨hl', hr', s1, s2, s3, s4⟩ := hF.split
      refine Sim.step s1 ?_
      have hcT := hF.t
      obtain ⟨bd, blf, bt, brf⟩ := b
      simp only [Cursor.split] at hcT s2 s3 s4 ⊢
      cases bt with
      | nil => rw [show hc.tree = none from hcT]; exact Sim.error
      | node lv' n' d' l' r' =>
        obtain ⟨k', hl2, hr2, g1, g2, g3, g4, g5⟩ := hcT
        rw [g1]
        refine Sim.step (peek_run (h := ⟨lv', n', k'⟩) g3) ?_
        cases d' with
        | dummy => exact Sim.error
        | branch => exact Sim.error
        | leaf v =>
          refine Sim.liftBind ?_
          rintro ⟨va, vb⟩ -
          refine Sim.pure ⟨.inr ⟨_, _, rfl, rfl, ⟨s2, RepA.new.extend va, RepA.new.extendRev vb, s3, rfl, rfl⟩, fun x => ?_⟩, rfl⟩
          have := s4 x
          simp only [zN, List.count_append, aN, AStack.new, AStack.extend, AStack.extendRev, sN, pN, List.count_nil] at this ⊢
          omega

theorem fromVec_sim {σ : RMem E M} (v : List E) :
    Sim (HTree.fromVec (M := M) e v) σ (RazTree.fromVec v) (fun b a σ' => ((b = none ∧ a = none) ∨ ∃ t ht, b = some t ∧ a = some ht ∧
      RepRT e σ' ht t ∧ tN e t.tree = []) ∧ Keeps [] σ σ') := by
  unfold HTree.fromVec RazTree.fromVec
  cases v with
  | nil => exact Sim.pure ⟨.inl ⟨rfl, rfl⟩, Keeps.refl _ _⟩
  | cons x v =>
    simp only [List.isEmpty_cons, Bool.false_eq_true, if_false, reduceCtorEq]
    obtain ⟨h, σ1, hrun, hT, hk⟩ := leaf_run (e := e) (M := M) (x :: v) σ
    refine Sim.step hrun ?_
    refine (mkTree_sim hT).bind ?_
    rintro b a σ' - ⟨h1, h2, rfl⟩
    exact Sim.pure ⟨.inr ⟨_, _, rfl, rfl, h1, by rw [h2, tN_leaf]⟩, hk⟩

theorem join_tree_sim {σ : RMem E M} {ht1 ht2 : HTree M} {t1 t2 : RazTree E M} (h1 : RepRT e σ ht1 t1) (h2 : RepRT e σ ht2 t2)
    (level : Nat) (name : Option Name) (hd : Dis (tN e t1.tree ++ tN e t2.tree) (nm e name)) :
    Sim (ht1.join (E := E) e level name ht2) σ (t1.join level name t2) (fun b a σ' => ((b = none ∧ a = none) ∨
      ∃ t ht, b = some t ∧ a = some ht ∧ RepRT e σ' ht t ∧ tN e t.tree = tN e t1.tree ++ (nm e name ++ tN e t2.tree)) ∧
      Keeps (nm e name) σ σ') := by
  obtain ⟨i1, tr1⟩ := t1
  obtain ⟨i2, tr2⟩ := t2
  obtain ⟨hi1, htr1⟩ := ht1
  obtain ⟨hi2, htr2⟩ := ht2
  have hT1 := h1.tree
  have hT2 := h2.tree
  simp only at hT1 hT2 hd
  have d1 : Dis (tN e tr1) (nm e name) := hd.mono (List.subset_append_left _ _) (List.Subset.refl _)
  have d2 : Dis (tN e tr2) (nm e name) := hd.mono (List.subset_append_right _ _) (List.Subset.refl _)
  unfold HTree.join RazTree.join
  cases tr1 with
  | nil => cases hT1; exact Sim.pure ⟨.inl ⟨rfl, rfl⟩, Keeps.refl _ _⟩
  | node lv1 n1 x1 l1 r1 =>
    cases tr2 with
    | nil =>
      cases hT2
      obtain ⟨k1, hl1, hr1, rfl, g1⟩ := hT1
      exact Sim.pure ⟨.inl ⟨rfl, rfl⟩, Keeps.refl _ _⟩
    | node lv2 n2 x2 l2 r2 =>
      have hT1' := hT1
      have hT2' := hT2
      obtain ⟨k1, hl1, hr1, rfl, g1, g2, g3, g4⟩ := hT1
      obtain ⟨k2, hl2, hr2, rfl, f1, f2, f3, f4⟩ := hT2
      simp only
      refine Sim.bind (R := fun b a σ' => RepT e σ' (some a) b ∧ tN e b = tN e (Tree.node lv1 n1 x1 l1 r1) ++ (nm e name ++ tN e (Tree.node lv2 n2 x2 l2 r2)) ∧
        Keeps (nm e name) σ σ') ?_ ?_
      · unfold bin Iodyn.bin
        refine Sim.step (peek_run (h := ⟨lv1, n1, k1⟩) g2) ?_
        refine Sim.step (peek_run (h := ⟨lv2, n2, k2⟩) f2) ?_
        refine Sim.liftBind ?_
        intro td _
        obtain ⟨k, σ', hrun, p1, p2, p3⟩ := newTree_run (X := Nat × List E) e level name td (some ⟨lv1, n1, k1⟩) (some ⟨lv2, n2, k2⟩) σ
        refine ⟨_, σ', ⟨0, fun f _ => hrun f⟩, ?_, rfl, p3⟩
        exact ⟨k, _, _, rfl, p1, p2, hT1'.keep p3 d1, hT2'.keep p3 d2⟩
      · rintro b a σ' - ⟨q1, q2, q3⟩
        refine (mkTree_sim q1).bind ?_
        rintro b2 a2 σ2 - ⟨r1, r2, rfl⟩
        exact Sim.pure ⟨.inr ⟨_, _, rfl, rfl, r1, by rw [r2, q2]⟩, q3⟩

end
end Iodyn.Heap
