import Verif.Proof.HeapStack
/-
The sequence operations of the store model simulate those of the functional model.
-/
namespace Iodyn.Heap
variable [Spaces] {E M : Type}

theorem dis_count {a b : List Name} (h : ∀ x, a.count x + b.count x ≤ 1) : Dis a b := by
  intro x ha hb
  have h1 := List.count_pos_iff.2 ha
  have h2 := List.count_pos_iff.2 hb
  have := h x
  omega

theorem nodup_count {a : List Name} (h : a.Nodup) (x : Name) : a.count x ≤ 1 := List.nodup_iff_count_le_one.1 h x

theorem count_nodup {a : List Name} (h : ∀ x, a.count x ≤ 1) : a.Nodup := List.nodup_iff_count_le_one.2 h

instance instLawfulUpdateTreeData [RazMeta E M] : LawfulUpdate (TreeData E M) where
  same := by
    intro l d lv n r d' h l2 lv2 n2 r2
    show TreeData.rebuild _ _ _ _ _ = TreeData.rebuild _ _ _ _ _
    have h : TreeData.rebuild l d lv n r = .ok d' := h
    cases d with
    | leaf v => cases h; rfl
    | dummy =>
      simp only [TreeData.rebuild, bind, Except.bind] at h
      split at h
      · cases h
      · split at h
        · cases h
        · cases h; rfl
    | branch a b =>
      simp only [TreeData.rebuild, bind, Except.bind] at h
      split at h
      · cases h
      · split at h
        · cases h
        · cases h; rfl

/-- Shorthand for the store of a sequence. -/
abbrev RMem (E M : Type) := Mem (TreeData E M) (Nat × List E)

section
variable [RazMeta E M] {e : Engine}

theorem cN_ofTree {D : Type} (e : Engine) (t : Tree D) : cN e (Cursor.ofTree t) = tN e t := by
  simp [cN, Cursor.ofTree, lN, rN]

theorem eN_countl {D : Type} (e : Engine) (us : List (Bool × TNode D)) (x : Name) : (eN e us).count x ≤ (lN e us).count x := by
  induction us with
  | nil => simp [eN]
  | cons p us ih =>
    obtain ⟨d, u⟩ := p
    simp only [eN, lN, List.flatMap_cons, List.count_append] at ih ⊢; omega

theorem eN_countr {D : Type} (e : Engine) (us : List (Bool × TNode D)) (x : Name) : (eN e us).count x ≤ (rN e us).count x := by
  induction us with
  | nil => simp [eN]
  | cons p us ih =>
    obtain ⟨d, u⟩ := p
    simp only [eN, rN, List.flatMap_cons, List.count_append] at ih ⊢; omega

theorem eN_subset {D : Type} (e : Engine) (c : Cursor D) : eN e c.lForest ++ eN e c.rForest ⊆ cN e c := by
  refine Sub.subset (fun x => ?_)
  have h1 := eN_countl e c.lForest x
  have h2 := eN_countr e c.rForest x
  simp only [cN, List.count_append]; omega

theorem eN_lr {D : Type} (e : Engine) (c : Cursor D) : eN e c.lForest ++ eN e c.rForest ⊆ lN e c.lForest ++ rN e c.rForest :=
  List.append_subset.2 ⟨List.subset_append_of_subset_left _ (eN_l e _), List.subset_append_of_subset_right _ (eN_r e _)⟩

theorem jN_count {D : Type} (e : Engine) (lc : Cursor D) (n : Option Name) (rc : Cursor D) (x : Name) :
    (jN e lc n rc).count x ≤ (cN e lc).count x + ((nm e n).count x + (cN e rc).count x) := by
  have h1 := eN_countl e lc.lForest x
  have h2 := eN_countr e lc.rForest x
  have h3 := eN_countl e rc.lForest x
  have h4 := eN_countr e rc.rForest x
  simp only [jN, cN, List.count_append]; omega

omit [RazMeta E M] in
theorem tN_leaf (e : Engine) (v : List E) : tN e (Iodyn.leaf v none : Tree (TreeData E M)) = [] := by
  cases e <;> simp [Iodyn.leaf, tN, nm]

omit [RazMeta E M] in
theorem leaf_run (v : List E) (σ : RMem E M) : ∃ h σ', (∀ f, newTree e 0 none (.leaf v) none none f σ = .ok (h, σ')) ∧
    RepT e σ' (some h) (Iodyn.leaf v none : Tree (TreeData E M)) ∧ Keeps [] σ σ' := by
  obtain ⟨k, σ', hrun, g1, g2, g3⟩ := newTree_run (X := Nat × List E) e 0 none (.leaf v : TreeData E M) none none σ
  refine ⟨_, σ', hrun, ⟨k, none, none, rfl, g1, g2, rfl, rfl⟩, ?_⟩
  cases e <;> exact g3

theorem joinLeftLoop_sim : ∀ (w : Nat) {s : AStack E Nat} {σ : RMem E M} {hs : ASt E} {hc : Cur} {c : Cursor (TreeData E M)}
    {lLev : Option Nat} {lNm : Option Name}, s.weight = w → RepA e σ hs s → RepC e σ hc c →
    (cN e c ++ (nm e lNm ++ aN e s)).Nodup →
    SimL (fun n => HRaz.joinLeftLoopN e n hs hc lLev lNm (HRaz.treeName hs)) σ
      (Raz.joinLeftLoop s c lLev lNm (Raz.treeName s))
      (fun b a σ' => RepC e σ' a b ∧ Sub (cN e b) (cN e c ++ (nm e lNm ++ pN e s.archived)) ∧
        Keeps (cN e c ++ (nm e lNm ++ pN e s.archived)) σ σ') := by
  intro w
  induction w using Nat.strongRecOn with
  | _ w ih =>
  intro s σ hs hc c lLev lNm hw hA hC hn
  obtain ⟨hs', hrun, hA'⟩ := nextArchive_run hA
  have hcnt := aN_nextArchive e s
  rw [hA.treeName]
  unfold Raz.joinLeftLoop
  split
  · rename_i s' hna
    rw [hna] at hrun
    refine SimL.shift (SimL.step' hrun ?_)
    refine SimL.const (Sim.pure ⟨hC, ?_, Keeps.refl _ _⟩)
    intro x; simp only [List.count_append]; omega
  · rename_i s' lVec nextLev hna
    have hlt := AStack.nextArchive_weight hna
    rw [hna] at hrun hA' hcnt
    simp only at hA' hcnt hrun
    refine SimL.shift (SimL.step' hrun ?_)
    simp only
    obtain ⟨h, σ1, hrun1, hT, hk1⟩ := leaf_run (e := e) (M := M) lVec σ
    refine SimL.step' hrun1 ?_
    refine SimL.liftBind' ?_
    intro lev _
    have hC1 := hC.keep hk1 (by simp [Dis])
    have hA1 := hA'.keep hk1 (by simp [Dis])
    have hcn := nodup_count hn
    simp only [aN, List.count_append] at hcn
    refine SimL.bind' (join_sim (RepC.ofTree hT) hC1 ?_) ?_
    · rw [cN_ofTree, tN_leaf]
      refine count_nodup (fun x => ?_)
      have := hcn x
      simp only [List.nil_append, List.count_append]; omega
    · rintro b a σ2 - ⟨k1, k2, k3, -⟩
      rw [cN_ofTree, tN_leaf, List.nil_append] at k2
      have hjk : jN e (Cursor.ofTree (Iodyn.leaf lVec none : Tree (TreeData E M))) lNm c ⊆ cN e c ++ (nm e lNm ++ pN e s.archived) := by
        refine Sub.subset (fun x => ?_)
        have := jN_count e (Cursor.ofTree (Iodyn.leaf lVec none : Tree (TreeData E M))) lNm c x
        rw [cN_ofTree, tN_leaf] at this
        simp only [List.count_append, List.count_nil] at this ⊢
        omega
      have hA2 : RepA e σ2 hs' s' := hA1.keep k3 (Dis.mono (dis_count (b := cN e c ++ (nm e lNm ++ pN e s.archived)) (fun x => by
        have := hcn x
        have := hcnt x
        simp only [List.count_append]; omega)) (List.Subset.refl _) hjk)
      refine (ih s'.weight (by omega) rfl hA2 k1 (lLev := nextLev) (lNm := Raz.treeName s) ?_).mono ?_
      · refine count_nodup (fun x => ?_)
        have := hcn x
        have := hcnt x
        rw [k2]
        simp only [aN, List.count_append]; omega
      · rintro b' a' σ3 - ⟨q1, q2, q3⟩
        have hsub : Sub (cN e b ++ (nm e (Raz.treeName s) ++ pN e s'.archived)) (cN e c ++ (nm e lNm ++ pN e s.archived)) := by
          intro x
          have := hcnt x
          rw [k2]
          simp only [List.count_append]; omega
        exact ⟨q1, q2.trans hsub, (hk1.mono (by simp)).trans ((k3.mono hjk).trans (q3.mono hsub.subset))⟩

theorem joinRightLoop_sim : ∀ (w : Nat) {s : AStack E Nat} {σ : RMem E M} {hs : ASt E} {hc : Cur} {c : Cursor (TreeData E M)}
    {lLev : Option Nat} {lNm : Option Name}, s.weight = w → RepA e σ hs s → RepC e σ hc c →
    (cN e c ++ (nm e lNm ++ aN e s)).Nodup →
    SimL (fun n => HRaz.joinRightLoopN e n hs hc lLev lNm (HRaz.treeName hs)) σ
      (Raz.joinRightLoop s c lLev lNm (Raz.treeName s))
      (fun b a σ' => RepC e σ' a b ∧ Sub (cN e b) (cN e c ++ (nm e lNm ++ pN e s.archived)) ∧
        Keeps (cN e c ++ (nm e lNm ++ pN e s.archived)) σ σ') := by
  intro w
  induction w using Nat.strongRecOn with
  | _ w ih =>
  intro s σ hs hc c lLev lNm hw hA hC hn
  obtain ⟨hs', hrun, hA'⟩ := nextArchive_run hA
  have hcnt := aN_nextArchive e s
  rw [hA.treeName]
  unfold Raz.joinRightLoop
  split
  · rename_i s' hna
    rw [hna] at hrun
    refine SimL.shift (SimL.step' hrun ?_)
    refine SimL.const (Sim.pure ⟨hC, ?_, Keeps.refl _ _⟩)
    intro x; simp only [List.count_append]; omega
  · rename_i s' lVec nextLev hna
    have hlt := AStack.nextArchive_weight hna
    rw [hna] at hrun hA' hcnt
    simp only at hA' hcnt hrun
    refine SimL.shift (SimL.step' hrun ?_)
    simp only
    obtain ⟨h, σ1, hrun1, hT, hk1⟩ := leaf_run (e := e) (M := M) lVec.reverse σ
    refine SimL.step' hrun1 ?_
    refine SimL.liftBind' ?_
    intro lev _
    have hC1 := hC.keep hk1 (by simp [Dis])
    have hA1 := hA'.keep hk1 (by simp [Dis])
    have hcn := nodup_count hn
    simp only [aN, List.count_append] at hcn
    refine SimL.bind' (join_sim hC1 (RepC.ofTree hT) ?_) ?_
    · rw [cN_ofTree, tN_leaf]
      refine count_nodup (fun x => ?_)
      have := hcn x
      simp only [List.append_nil, List.count_append]; omega
    · rintro b a σ2 - ⟨k1, k2, k3, -⟩
      rw [cN_ofTree, tN_leaf, List.append_nil] at k2
      have hjk : jN e c lNm (Cursor.ofTree (Iodyn.leaf lVec.reverse none : Tree (TreeData E M))) ⊆ cN e c ++ (nm e lNm ++ pN e s.archived) := by
        refine Sub.subset (fun x => ?_)
        have := jN_count e c lNm (Cursor.ofTree (Iodyn.leaf lVec.reverse none : Tree (TreeData E M))) x
        rw [cN_ofTree, tN_leaf] at this
        simp only [List.count_append, List.count_nil] at this ⊢
        omega
      have hA2 : RepA e σ2 hs' s' := hA1.keep k3 (Dis.mono (dis_count (b := cN e c ++ (nm e lNm ++ pN e s.archived)) (fun x => by
        have := hcn x
        have := hcnt x
        simp only [List.count_append]; omega)) (List.Subset.refl _) hjk)
      refine (ih s'.weight (by omega) rfl hA2 k1 (lLev := nextLev) (lNm := Raz.treeName s) ?_).mono ?_
      · refine count_nodup (fun x => ?_)
        have := hcn x
        have := hcnt x
        rw [k2]
        simp only [aN, List.count_append]; omega
      · rintro b' a' σ3 - ⟨q1, q2, q3⟩
        have hsub : Sub (cN e b ++ (nm e (Raz.treeName s) ++ pN e s'.archived)) (cN e c ++ (nm e lNm ++ pN e s.archived)) := by
          intro x
          have := hcnt x
          rw [k2]
          simp only [List.count_append]; omega
        exact ⟨q1, q2.trans hsub, (hk1.mono (by simp)).trans ((k3.mono hjk).trans (q3.mono hsub.subset))⟩

/-! ### `unfocus` -/

/-- The state after step 1. -/
structure RepCt (e : Engine) (σ : RMem E M) (hc : HRaz.Center E) (c : Raz.Center E) : Prop where
  ls : RepA e σ hc.lStack c.lStack
  rs : RepA e σ hc.rStack c.rStack
  rest : hc.lLev = c.lLev ∧ hc.rLev = c.rLev ∧ hc.lNm = c.lNm ∧ hc.rNm = c.rNm ∧ hc.vec = c.vec

/-- Names of the state after step 1. -/
def ctN (e : Engine) (c : Raz.Center E) : List Name :=
  (nm e c.lNm ++ aN e c.lStack) ++ (nm e c.rNm ++ aN e c.rStack)

omit [RazMeta E M] in
theorem openSide_run {σ : RMem E M} {hs : ASt E} {s : AStack E Nat} (h : RepA e σ hs s) :
    ∃ hs', (∀ f, HRaz.openSide (M := M) hs f σ = .ok ((hs', (Raz.openSide s).2), σ)) ∧ RepA e σ hs' (Raz.openSide s).1 := by
  obtain ⟨hs', hrun, hA'⟩ := nextArchive_run h
  refine ⟨hs', fun f => (run_ok (hrun f)).trans ?_, ?_⟩
  · unfold Raz.openSide
    rcases hna : s.nextArchive with ⟨s', _ | ⟨v, lev⟩⟩ <;> rfl
  · unfold Raz.openSide
    rcases hna : s.nextArchive with ⟨s', _ | ⟨v, lev⟩⟩ <;> (rw [hna] at hA'; exact hA')

omit [RazMeta E M] in
theorem openSide_fst (s : AStack E Nat) : (Raz.openSide s).1 = s.nextArchive.1 := by
  unfold Raz.openSide
  rcases s.nextArchive with ⟨s', _ | ⟨v, lev⟩⟩ <;> rfl

omit [RazMeta E M] in
theorem center_sim {σ : RMem E M} {hl hr : ASt E} {ls rs : AStack E Nat} (h1 : RepA e σ hl ls) (h2 : RepA e σ hr rs) :
    Sim (HRaz.center (M := M) hl hr) σ (Raz.center ls rs) (fun b a σ' => RepCt e σ a b ∧ σ' = σ ∧
      Sub (ctN e b) (aN e ls ++ aN e rs)) := by
  obtain ⟨hl', hrun1, hA1⟩ := openSide_run h1
  obtain ⟨hr', hrun2, hA2⟩ := openSide_run h2
  have c1 := aN_nextArchive e ls
  have c2 := aN_nextArchive e rs
  rw [← openSide_fst] at c1 c2
  unfold HRaz.center Raz.center
  rw [h1.treeName, h2.treeName]
  refine Sim.step hrun1 (Sim.step hrun2 ?_)
  rcases ho1 : Raz.openSide ls with ⟨ls', lLev, lVec⟩
  rcases ho2 : Raz.openSide rs with ⟨rs', rLev, rVec⟩
  rw [ho1] at hA1 c1
  rw [ho2] at hA2 c2
  simp only at hA1 hA2 c1 c2 ⊢
  have hsub : ∀ v, Sub (ctN e ⟨ls', rs', lLev, rLev, Raz.treeName ls, Raz.treeName rs, v⟩) (aN e ls ++ aN e rs) := by
    intro v x
    have := c1 x
    have := c2 x
    simp only [ctN, aN, List.count_append]; omega
  rcases lVec with _ | lv <;> rcases rVec with _ | rv
  · simp only
    rw [hA1.isEmpty, hA2.isEmpty]
    split
    · obtain ⟨hl'', hrun3, hA3⟩ := nextArchive_run hA1
      have c3 := aN_nextArchive e ls'
      refine Sim.step hrun3 ?_
      rcases hna : ls'.nextArchive with ⟨ls'', _ | ⟨v, lev⟩⟩
      · exact Sim.error
      · rw [hna] at hA3 c3
        refine Sim.pure ⟨⟨hA3, hA2, rfl, rfl, ?_, rfl, rfl⟩, rfl, ?_⟩
        · exact hA1.treeName
        · intro x
          have := c1 x
          have := c2 x
          have := c3 x
          simp only [ctN, aN, List.count_append] at *; omega
    · split
      · obtain ⟨hl'', hrun3, hA3⟩ := nextArchive_run hA2
        have c3 := aN_nextArchive e rs'
        refine Sim.step hrun3 ?_
        rcases hna : rs'.nextArchive with ⟨ls'', _ | ⟨v, lev⟩⟩
        · exact Sim.error
        · rw [hna] at hA3 c3
          refine Sim.pure ⟨⟨hA1, hA3, rfl, rfl, rfl, ?_, rfl⟩, rfl, ?_⟩
          · exact hA2.treeName
          · intro x
            have := c1 x
            have := c2 x
            have := c3 x
            simp only [ctN, aN, List.count_append] at *; omega
      · exact Sim.pure ⟨⟨hA1, hA2, rfl, rfl, rfl, rfl, rfl⟩, rfl, hsub _⟩
  · exact Sim.pure ⟨⟨hA1, hA2, rfl, rfl, rfl, rfl, rfl⟩, rfl, hsub _⟩
  · exact Sim.pure ⟨⟨hA1, hA2, rfl, rfl, rfl, rfl, rfl⟩, rfl, hsub _⟩
  · exact Sim.pure ⟨⟨hA1, hA2, rfl, rfl, rfl, rfl, rfl⟩, rfl, hsub _⟩

theorem leftTree_run {D X : Type} {σ : Mem D X} {hc : Cur} {c : Cursor D} (h : RepT e σ hc.tree c.tree) :
    ∃ o, (∀ f, hc.leftTree f σ = .ok (o, σ)) ∧ RepT e σ o c.leftTree := by
  unfold Cur.leftTree Cursor.leftTree
  cases ht : c.tree with
  | nil => rw [ht] at h; rw [h]; exact ⟨none, fun f => rfl, rfl⟩
  | node lv n d l r =>
    rw [ht] at h
    obtain ⟨k, hl, hr, h1, h2, h3, h4, h5⟩ := h
    rw [h1]
    exact ⟨hl, lTree_run (h := ⟨lv, n, k⟩) h3, h4⟩

theorem rightTree_run {D X : Type} {σ : Mem D X} {hc : Cur} {c : Cursor D} (h : RepT e σ hc.tree c.tree) :
    ∃ o, (∀ f, hc.rightTree f σ = .ok (o, σ)) ∧ RepT e σ o c.rightTree := by
  unfold Cur.rightTree Cursor.rightTree
  cases ht : c.tree with
  | nil => rw [ht] at h; rw [h]; exact ⟨none, fun f => rfl, rfl⟩
  | node lv n d l r =>
    rw [ht] at h
    obtain ⟨k, hl, hr, h1, h2, h3, h4, h5⟩ := h
    rw [h1]
    exact ⟨hr, rTree_run (h := ⟨lv, n, k⟩) h3, h5⟩

theorem tN_leftTree {D : Type} (e : Engine) (c : Cursor D) : Sub (tN e c.leftTree) (tN e c.tree) := by
  intro x
  unfold Cursor.leftTree
  cases c.tree <;> simp [tN, List.count_append]

theorem tN_rightTree {D : Type} (e : Engine) (c : Cursor D) : Sub (tN e c.rightTree) (tN e c.tree) := by
  intro x
  unfold Cursor.rightTree
  cases c.tree <;> simp [tN, List.count_append]
  omega

omit [RazMeta E M] in
theorem unwrapTree_sim {σ : RMem E M} {o : Option Tr} {t : Tree (TreeData E M)} (h : RepT e σ o t) :
    Sim (liftP (unwrap o) : HR E M Tr) σ (Raz.unwrapTree t) (fun b a σ' => b = t ∧ RepT e σ (some a) b ∧ σ' = σ) := by
  cases t with
  | nil => cases h; exact Sim.error
  | node lv n d l r =>
    have h' := h
    obtain ⟨k, hl, hr, rfl, -⟩ := h
    exact ⟨_, σ, ⟨0, fun _ _ => rfl⟩, rfl, h', rfl⟩

/-- The result of step 2. -/
structure CTPost (e : Engine) (T : List Name) (σ' : RMem E M) (a : Tr × Cur × Cur)
    (b : Tree (TreeData E M) × Cursor (TreeData E M) × Cursor (TreeData E M)) : Prop where
  t : RepT e σ' (some a.1) b.1
  lf : RepC e σ' a.2.1 b.2.1
  rf : RepC e σ' a.2.2 b.2.2
  le : b.2.1.rForest = []
  re : b.2.2.lForest = []
  n1 : Sub (cN e b.2.1 ++ cN e b.2.2) T
  n2 : Sub (lN e b.2.1.lForest ++ (tN e b.1 ++ rN e b.2.2.rForest)) T

theorem centerTree_sim {σ : RMem E M} {hc : HRaz.Center E} {c : Raz.Center E} {hlf hrf : Cur} {lf rf : Cursor (TreeData E M)}
    (hc' : RepCt e σ hc c) (hl : RepC e σ hlf lf) (hr : RepC e σ hrf rf) (hle : lf.rForest = []) (hre : rf.lForest = [])
    (hn : (cN e lf ++ (ctN e c ++ cN e rf)).Nodup) :
    Sim (HRaz.centerTree e hc hlf hrf) σ (Raz.centerTree c lf rf) (fun b a σ' =>
      ((b = none ∧ a = none) ∨ ∃ b' a', b = some b' ∧ a = some a' ∧ CTPost e (cN e lf ++ (ctN e c ++ cN e rf)) σ' a' b') ∧
      Keeps (cN e lf ++ (ctN e c ++ cN e rf)) σ σ' ∧
      (c.vec ≠ none → Keeps (ctN e c) σ σ' ∧ ∀ b', b = some b' → b'.2 = (lf, rf) ∧ Sub (tN e b'.1) (ctN e c)) ∧
      (c.vec = none → Keeps ((eN e lf.lForest ++ eN e lf.rForest) ++ (eN e rf.lForest ++ eN e rf.rForest)) σ σ')) := by
  have hcn := nodup_count hn
  simp only [ctN, aN, List.count_append] at hcn
  unfold HRaz.centerTree Raz.centerTree
  rw [hc'.rest.2.2.2.2]
  cases hv : c.vec with
  | some v =>
    simp only
    obtain ⟨ht, σ1, hrun, hT, hk1⟩ := leaf_run (e := e) (M := M) v σ
    refine Sim.step hrun ?_
    rw [hc'.rest.1, hc'.rest.2.2.1, hc'.rest.2.1, hc'.rest.2.2.2.1]
    have hls := hc'.ls.keep hk1 (by simp [Dis])
    have hrs := hc'.rs.keep hk1 (by simp [Dis])
    have e0 : cN e (Cursor.ofTree (Iodyn.leaf v none : Tree (TreeData E M))) = [] := by rw [cN_ofTree, tN_leaf]
    refine ((joinLeftLoop_sim c.lStack.weight rfl hls (RepC.ofTree hT) (lLev := c.lLev) (lNm := c.lNm) ?_).run).bind ?_
    · refine count_nodup (fun x => ?_)
      have := hcn x
      rw [e0]
      simp only [aN, List.count_append, List.count_nil]; omega
    · rintro c1 h1 σ2 - ⟨k1, k2, k3⟩
      rw [e0, List.nil_append] at k2 k3
      have hrs := hrs.keep k3 (dis_count (fun x => by
        have := hcn x
        simp only [List.count_append]; omega))
      refine ((joinRightLoop_sim c.rStack.weight rfl hrs k1 (lLev := c.rLev) (lNm := c.rNm) ?_).run).bind ?_
      · refine count_nodup (fun x => ?_)
        have := hcn x
        have := k2 x
        simp only [aN, List.count_append] at *; omega
      · rintro c2 h2 σ3 - ⟨q1, q2, q3⟩
        rw [q1.height]
        have hsub : Sub (cN e c2) ((nm e c.lNm ++ pN e c.lStack.archived) ++ (nm e c.rNm ++ pN e c.rStack.archived)) := by
          intro x
          have := k2 x
          have := q2 x
          simp only [List.count_append] at *; omega
        refine (upAll_sim c2.height q1 (count_nodup (fun x => by
          have := hcn x
          have := hsub x
          simp only [List.count_append] at *; omega))).bind ?_
        rintro c3 h3 σ4 - ⟨r1, r2, r3⟩
        refine (unwrapTree_sim r1.t).bind ?_
        rintro t ht σ' - ⟨rfl, hT, rfl⟩
        have hkk : Keeps ((nm e c.lNm ++ pN e c.lStack.archived) ++ (nm e c.rNm ++ pN e c.rStack.archived)) σ σ' := by
          refine (hk1.mono (by simp)).trans ((k3.mono ?_).trans ((q3.mono ?_).trans (r3.mono ?_)))
          · exact List.subset_append_left _ _
          · refine Sub.subset (fun x => ?_)
            have := k2 x
            simp only [List.count_append] at *; omega
          · exact List.Subset.trans (eN_subset e c2) hsub.subset
        have dl : Dis (cN e lf) ((nm e c.lNm ++ pN e c.lStack.archived) ++ (nm e c.rNm ++ pN e c.rStack.archived)) :=
          dis_count (fun x => by
            have := hcn x
            simp only [List.count_append] at *; omega)
        have dr : Dis (cN e rf) ((nm e c.lNm ++ pN e c.lStack.archived) ++ (nm e c.rNm ++ pN e c.rStack.archived)) :=
          dis_count (fun x => by
            have := hcn x
            simp only [List.count_append] at *; omega)
        have ht3 : ∀ x, (tN e c3.tree).count x ≤ (cN e c2).count x := by
          intro x; rw [← r2.eq]; simp only [cN, List.count_append]; omega
        refine Sim.pure ⟨.inr ⟨_, _, rfl, rfl, ⟨hT, hl.keep hkk dl, hr.keep hkk dr, hle, hre, ?_, ?_⟩⟩, hkk.mono ?_, fun _ => ⟨hkk.mono ?_, ?_⟩, fun h => nomatch h⟩
        · intro x; simp only [List.count_append]; omega
        · intro x
          have := hsub x
          have := ht3 x
          show (lN e lf.lForest ++ (tN e c3.tree ++ rN e rf.rForest)).count x ≤ _
          simp only [ctN, aN, cN, List.count_append] at *; omega
        · refine Sub.subset (fun x => ?_)
          simp only [ctN, aN, List.count_append]; omega
        · refine Sub.subset (fun x => ?_)
          simp only [ctN, aN, List.count_append]; omega
        · rintro b' h
          cases h
          refine ⟨rfl, fun x => ?_⟩
          have := hsub x
          have := ht3 x
          simp only [ctN, aN, List.count_append] at *; omega
  | none =>
    simp only
    have sl : ∀ c : Cursor (TreeData E M), eN e c.lForest ++ eN e c.rForest ⊆ cN e c := eN_subset e
    refine (up_sim hl (count_nodup (fun x => by have := hcn x; omega))).bind ?_
    rintro ⟨lf1, res⟩ ⟨hlf1, res'⟩ σ1 - ⟨k1, rfl, k2, k3, -⟩
    simp only at k1 k2 ⊢
    have hr1 := hr.keep k3 (Dis.mono (dis_count (b := cN e lf) (fun x => by have := hcn x; omega)) (List.Subset.refl _) (sl _))
    have kk : Keeps (cN e lf ++ (ctN e c ++ cN e rf)) σ σ1 :=
      k3.mono (List.Subset.trans (sl _) (List.subset_append_left _ _))
    have ff : Keeps ((eN e lf.lForest ++ eN e lf.rForest) ++ (eN e rf.lForest ++ eN e rf.rForest)) σ σ1 :=
      k3.mono (List.subset_append_left _ _)
    split
    · refine (up_sim hr1 (count_nodup (fun x => by have := hcn x; omega))).bind ?_
      rintro ⟨rf1, res⟩ ⟨hrf1, res'⟩ σ2 - ⟨q1, rfl, q2, q3, -⟩
      simp only at q1 q2 ⊢
      have hl2 := k1.keep q3 (Dis.mono (dis_count (b := cN e rf) (fun x => by have := hcn x; rw [k2.eq]; omega)) (List.Subset.refl _) (sl _))
      have kk2 : Keeps (cN e lf ++ (ctN e c ++ cN e rf)) σ σ2 :=
        kk.trans (q3.mono (List.Subset.trans (sl _) (by intro x; simp only [List.mem_append]; tauto)))
      have ff2 : Keeps ((eN e lf.lForest ++ eN e lf.rForest) ++ (eN e rf.lForest ++ eN e rf.rForest)) σ σ2 :=
        ff.trans (q3.mono (List.subset_append_right _ _))
      split
      · exact Sim.pure ⟨.inl ⟨rfl, rfl⟩, kk2, fun h => absurd rfl h, fun _ => ff2⟩
      · obtain ⟨o, ho, hT⟩ := rightTree_run q1.t
        refine Sim.step ho ((unwrapTree_sim hT).bind ?_)
        rintro t ht σ' - ⟨rfl, hT', rfl⟩
        refine Sim.pure ⟨.inr ⟨_, _, rfl, rfl, ⟨hT', hl2, q1, k2.re hle, q2.le hre, ?_, ?_⟩⟩, kk2, fun h => absurd rfl h, fun _ => ff2⟩
        · intro x
          show (cN e lf1 ++ cN e rf1).count x ≤ _
          rw [k2.eq, q2.eq]; simp only [List.count_append]; omega
        · intro x
          have h1 := tN_rightTree e rf1 x
          have h2 : (cN e lf1).count x = (cN e lf).count x := by rw [k2.eq]
          have h3 : (cN e rf1).count x = (cN e rf).count x := by rw [q2.eq]
          show (lN e lf1.lForest ++ (tN e rf1.rightTree ++ rN e rf1.rForest)).count x ≤ _
          simp only [cN, List.count_append] at *; omega
    · obtain ⟨o, ho, hT⟩ := leftTree_run k1.t
      refine Sim.step ho ((unwrapTree_sim hT).bind ?_)
      rintro t ht σ' - ⟨rfl, hT', rfl⟩
      refine Sim.pure ⟨.inr ⟨_, _, rfl, rfl, ⟨hT', k1, hr1, k2.re hle, hre, ?_, ?_⟩⟩, kk, fun h => absurd rfl h, fun _ => ff⟩
      · intro x
        show (cN e lf1 ++ cN e rf).count x ≤ _
        rw [k2.eq]; simp only [List.count_append]; omega
      · intro x
        have h1 := tN_leftTree e lf1 x
        have h2 : (cN e lf1).count x = (cN e lf).count x := by rw [k2.eq]
        show (lN e lf1.lForest ++ (tN e lf1.leftTree ++ rN e rf.rForest)).count x ≤ _
        simp only [cN, List.count_append] at *; omega

theorem up_shape_left {D : Type} [TreeUpdate D] {c c' : Cursor D} {res : UpResult} (h : c.up = .ok (c', res)) (hr : c.rForest = [])
    (hres : res ≠ .fail) : ∃ d u us data T, c.lForest = (d, u) :: us ∧ c'.lForest = us ∧ c'.rForest = [] ∧
      c'.tree = .node u.level u.name data u.l T := by
  obtain ⟨d, lf, T, rf⟩ := c
  simp only at hr; subst hr
  rcases lf with _ | ⟨⟨d1, u⟩, us⟩
  · simp [Cursor.up, Cursor.upDir] at h; exact absurd h.2.symm hres
  · unfold Cursor.up at h
    simp only [Cursor.upDir] at h
    cases d with
    | true =>
      simp only [if_true, bind, Except.bind] at h
      split at h
      · cases h
      · cases h; exact ⟨d1, u, us, _, _, rfl, rfl, rfl, rfl⟩
    | false =>
      simp only [Bool.false_eq_true, if_false] at h
      cases h; exact ⟨d1, u, us, _, _, rfl, rfl, rfl, rfl⟩

theorem up_shape_right {D : Type} [TreeUpdate D] {c c' : Cursor D} {res : UpResult} (h : c.up = .ok (c', res)) (hr : c.lForest = [])
    (hres : res ≠ .fail) : ∃ d u us data T, c.rForest = (d, u) :: us ∧ c'.rForest = us ∧ c'.lForest = [] ∧
      c'.tree = .node u.level u.name data T u.r := by
  obtain ⟨d, lf, T, rf⟩ := c
  simp only at hr; subst hr
  rcases rf with _ | ⟨⟨d1, u⟩, us⟩
  · simp [Cursor.up, Cursor.upDir] at h; exact absurd h.2.symm hres
  · unfold Cursor.up at h
    simp only [Cursor.upDir] at h
    cases d with
    | true =>
      simp only [if_true, bind, Except.bind] at h
      split at h
      · cases h
      · cases h; exact ⟨d1, u, us, _, _, rfl, rfl, rfl, rfl⟩
    | false =>
      simp only [Bool.false_eq_true, if_false] at h
      cases h; exact ⟨d1, u, us, _, _, rfl, rfl, rfl, rfl⟩

/-- Going to a branch with `Force::Discard`. -/
theorem discardLeft_run {D X : Type} [TreeUpdate D] {σ : Mem D X} {hc : Cur} {c : Cursor D} {lv : Nat} {n : Option Name} {x : D}
    {l r : Tree D} (h : RepC e σ hc c) (ht : c.tree = .node lv n x l r) : ∃ hc', (∀ f, hc.downLeftForce .discard f σ = .ok ((hc', true), σ)) ∧
      RepC e σ hc' { c with tree := l, dirty := true } ∧ c.downLeftForce .discard = ({ c with tree := l, dirty := true }, true) := by
  have hT := h.t
  rw [ht] at hT
  obtain ⟨k, hl, hr, h1, h2, h3, h4, h5⟩ := hT
  refine ⟨{ hc with tree := hl, dirty := true }, fun f => ?_, ⟨rfl, h.l, h4, h.r, .inl rfl⟩, ?_⟩
  · rw [downLeft_run .discard h1 h3 f]; simp
  · unfold Cursor.downLeftForce; rw [ht]; simp

theorem discardRight_run {D X : Type} [TreeUpdate D] {σ : Mem D X} {hc : Cur} {c : Cursor D} {lv : Nat} {n : Option Name} {x : D}
    {l r : Tree D} (h : RepC e σ hc c) (ht : c.tree = .node lv n x l r) : ∃ hc', (∀ f, hc.downRightForce .discard f σ = .ok ((hc', true), σ)) ∧
      RepC e σ hc' { c with tree := r, dirty := true } ∧ c.downRightForce .discard = ({ c with tree := r, dirty := true }, true) := by
  have hT := h.t
  rw [ht] at hT
  obtain ⟨k, hl, hr, h1, h2, h3, h4, h5⟩ := hT
  refine ⟨{ hc with tree := hr, dirty := true }, fun f => ?_, ⟨rfl, h.l, h5, h.r, .inl rfl⟩, ?_⟩
  · rw [downRight_run .discard h1 h3 f]; simp
  · unfold Cursor.downRightForce; rw [ht]; simp

theorem joinLeftForest_sim {σ : RMem E M} {hlf hjc : Cur} {lf jc : Cursor (TreeData E M)} (hl : RepC e σ hlf lf)
    (hj : RepC e σ hjc jc) (hle : lf.rForest = []) (hn1 : (cN e lf).Nodup) (hn2 : (lN e lf.lForest ++ cN e jc).Nodup) :
    Sim (HRaz.joinLeftForest e hlf hjc) σ (Raz.joinLeftForest lf jc) (fun b a σ' => RepC e σ' a b ∧
      Sub (cN e b) (lN e lf.lForest ++ cN e jc) ∧ Keeps (eN e lf.lForest ++ (eN e jc.lForest ++ eN e jc.rForest)) σ σ') := by
  have hcn := nodup_count hn2
  simp only [List.count_append] at hcn
  unfold HRaz.joinLeftForest Raz.joinLeftForest
  refine (up_sim hl hn1).bind ?_
  rintro ⟨lf1, res⟩ ⟨hlf1, res'⟩ σ1 hup ⟨k1, rfl, k2, k3, -⟩
  simp only at k1 k2 ⊢
  rw [hle] at k3
  replace k3 : Keeps (eN e lf.lForest) σ σ1 := by simpa [eN] using k3
  have hj1 := hj.keep k3 (dis_count (fun x => by have := hcn x; have := eN_countl e lf.lForest x; omega))
  split
  · rename_i hres
    obtain ⟨d, u, us, data, T, s1, s2, s3, s4⟩ := up_shape_left hup hle hres
    obtain ⟨hlf2, hrun, hC, hfun⟩ := discardLeft_run k1 s4
    have e1 : hlf1.peekLevel = lf1.peekLevel := k1.t.level
    have e2 : hlf1.peekName = lf1.peekName := k1.t.name
    rw [e1, e2]
    refine Sim.liftBind ?_
    intro lev _
    refine Sim.step hrun ?_
    rw [hfun]
    have e3 : lf1.peekName = u.name := by simp [Cursor.peekName, s4, Tree.name?]
    have e4 : cN e { lf1 with tree := u.l, dirty := true } ++ (nm e u.name ++ cN e jc) = lN e lf.lForest ++ cN e jc := by
      simp [cN, s1, s2, s3, lN, rN]
    rw [e3]
    refine (join_sim hC hj1 (e4 ▸ hn2)).mono ?_
    rintro b a σ2 - ⟨q1, q2, q3, -⟩
    refine ⟨q1, by rw [q2, e4]; exact Sub.refl _, (k3.mono (List.subset_append_left _ _)).trans (q3.mono ?_)⟩
    intro x
    simp only [jN, s1, s2, s3, eN, List.flatMap_cons, List.flatMap_nil, List.mem_append, List.not_mem_nil]
    tauto
  · exact Sim.pure ⟨hj1, fun x => by simp only [List.count_append]; omega, k3.mono (List.subset_append_left _ _)⟩

theorem joinRightForest_sim {σ : RMem E M} {hrf hjc : Cur} {rf jc : Cursor (TreeData E M)} (hl : RepC e σ hrf rf)
    (hj : RepC e σ hjc jc) (hle : rf.lForest = []) (hn1 : (cN e rf).Nodup) (hn2 : (cN e jc ++ rN e rf.rForest).Nodup) :
    Sim (HRaz.joinRightForest e hjc hrf) σ (Raz.joinRightForest jc rf) (fun b a σ' => RepC e σ' a b ∧
      Sub (cN e b) (cN e jc ++ rN e rf.rForest) ∧ Keeps ((eN e jc.lForest ++ eN e jc.rForest) ++ eN e rf.rForest) σ σ') := by
  have hcn := nodup_count hn2
  simp only [List.count_append] at hcn
  unfold HRaz.joinRightForest Raz.joinRightForest
  refine (up_sim hl hn1).bind ?_
  rintro ⟨rf1, res⟩ ⟨hrf1, res'⟩ σ1 hup ⟨k1, rfl, k2, k3, -⟩
  simp only at k1 k2 ⊢
  rw [hle] at k3
  replace k3 : Keeps (eN e rf.rForest) σ σ1 := by simpa [eN] using k3
  have hj1 := hj.keep k3 (dis_count (fun x => by have := hcn x; have := eN_countr e rf.rForest x; omega))
  split
  · rename_i hres
    obtain ⟨d, u, us, data, T, s1, s2, s3, s4⟩ := up_shape_right hup hle hres
    obtain ⟨hrf2, hrun, hC, hfun⟩ := discardRight_run k1 s4
    have e1 : hrf1.peekLevel = rf1.peekLevel := k1.t.level
    have e2 : hrf1.peekName = rf1.peekName := k1.t.name
    rw [e1, e2]
    refine Sim.liftBind ?_
    intro lev _
    refine Sim.step hrun ?_
    rw [hfun]
    have e3 : rf1.peekName = u.name := by simp [Cursor.peekName, s4, Tree.name?]
    have e4 : cN e jc ++ (nm e u.name ++ cN e { rf1 with tree := u.r, dirty := true }) = cN e jc ++ rN e rf.rForest := by
      simp [cN, s1, s2, s3, lN, rN]
    rw [e3]
    refine (join_sim hj1 hC (e4 ▸ hn2)).mono ?_
    rintro b a σ2 - ⟨q1, q2, q3, -⟩
    refine ⟨q1, by rw [q2, e4]; exact Sub.refl _, (k3.mono (List.subset_append_right _ _)).trans (q3.mono ?_)⟩
    intro x
    simp only [jN, s1, s2, s3, eN, List.flatMap_cons, List.flatMap_nil, List.mem_append, List.not_mem_nil]
    tauto
  · exact Sim.pure ⟨hj1, fun x => by simp only [List.count_append]; omega, k3.mono (List.subset_append_right _ _)⟩

/-! ### The whole sequence -/

/-- The handle `ht` stands for the tree `t`. -/
structure RepRT (e : Engine) (σ : RMem E M) (ht : HTree M) (t : RazTree E M) : Prop where
  info : ht.info = t.info
  tree : RepT e σ ht.tree t.tree

/-- The handle `hz` stands for the cursor `z`. -/
structure RepZ (e : Engine) (σ : RMem E M) (hz : HRaz E) (z : Raz E M) : Prop where
  lf : RepC e σ hz.lForest z.lForest
  ls : RepA e σ hz.lStack z.lStack
  rs : RepA e σ hz.rStack z.rStack
  rf : RepC e σ hz.rForest z.rForest
  le : z.lForest.rForest = []
  re : z.rForest.lForest = []

/-- Names of a cursor. -/
def zN (e : Engine) (z : Raz E M) : List Name :=
  cN e z.lForest ++ ((aN e z.lStack ++ aN e z.rStack) ++ cN e z.rForest)

theorem mkTree_sim {σ : RMem E M} {o : Option Tr} {t : Tree (TreeData E M)} (h : RepT e σ o t) :
    Sim (mkTree o) σ (mkRazTree t) (fun b a σ' => RepRT e σ a b ∧ b.tree = t ∧ σ' = σ) := by
  unfold mkTree mkRazTree
  refine Sim.bind (R := fun b a σ' => a = b ∧ σ' = σ) ?_ ?_
  · cases t with
    | nil => cases h; exact Sim.pure ⟨rfl, rfl⟩
    | node lv n d l r =>
      obtain ⟨k, hl, hr, rfl, h1, h2, h3, h4⟩ := h
      refine Sim.step (peek_run (h := ⟨lv, n, k⟩) h2) ?_
      cases d with
      | dummy => exact Sim.error
      | leaf v => exact Sim.pure ⟨rfl, rfl⟩
      | branch a b => exact Sim.pure ⟨rfl, rfl⟩
  · rintro b a σ' - ⟨rfl, rfl⟩
    exact Sim.pure ⟨⟨rfl, h⟩, rfl, rfl⟩

omit [Spaces] in
theorem centerTree_some {c : Raz.Center E} {lf rf : Cursor (TreeData E M)} (h : c.vec ≠ none) : Raz.centerTree c lf rf ≠ .ok none := by
  intro hh
  unfold Raz.centerTree at hh
  split at hh
  · simp only [bind, Except.bind, pure, Except.pure] at hh
    repeat' split at hh
    all_goals cases hh
  · next hv => exact h hv

/-- Names written by `unfocus` when the center is not empty: those of the stacks and of the entries of the forests, at the start and after
each half of step 3. -/
def uN (e : Engine) (c : Raz.Center E) (z : Raz E M) (jc jc2 : Cursor (TreeData E M)) : List Name :=
  ctN e c ++ ((eN e z.lForest.lForest ++ (eN e jc.lForest ++ eN e jc.rForest)) ++
    (((eN e jc.lForest ++ eN e jc.rForest) ++ eN e z.rForest.rForest) ++ (eN e jc2.lForest ++ eN e jc2.rForest)))

/-- The steps of `unfocus` when the center is not empty. -/
def USteps (e : Engine) (z : Raz E M) (σ σ' : RMem E M) : Prop :=
  ∀ c, Raz.center z.lStack z.rStack = .ok c → c.vec ≠ none → ∃ t jc jc2, Raz.centerTree c z.lForest z.rForest = .ok (some (t, z.lForest, z.rForest)) ∧
    Sub (tN e t) (ctN e c) ∧ Sub (ctN e c) (aN e z.lStack ++ aN e z.rStack) ∧ Raz.joinLeftForest z.lForest (Cursor.ofTree t) = .ok jc ∧ Raz.joinRightForest jc z.rForest = .ok jc2 ∧
    Keeps (uN e c z jc jc2) σ σ'

/-- Names written by `unfocus` when the center is empty. -/
def u0N (e : Engine) (z : Raz E M) (lf rf jc jc2 : Cursor (TreeData E M)) : List Name :=
  ((eN e z.lForest.lForest ++ eN e z.lForest.rForest) ++ (eN e z.rForest.lForest ++ eN e z.rForest.rForest)) ++
    ((eN e lf.lForest ++ (eN e jc.lForest ++ eN e jc.rForest)) ++
    (((eN e jc.lForest ++ eN e jc.rForest) ++ eN e rf.rForest) ++ (eN e jc2.lForest ++ eN e jc2.rForest)))

/-- The steps of `unfocus` when the center is empty. -/
def USteps0 (e : Engine) (z : Raz E M) (σ σ' : RMem E M) : Prop :=
  ∀ c, Raz.center z.lStack z.rStack = .ok c → c.vec = none → ∀ t lf rf, Raz.centerTree c z.lForest z.rForest = .ok (some (t, lf, rf)) →
    ∃ jc jc2, Raz.joinLeftForest lf (Cursor.ofTree t) = .ok jc ∧ Raz.joinRightForest jc rf = .ok jc2 ∧ Keeps (u0N e z lf rf jc jc2) σ σ'

theorem unfocus_steps {σ : RMem E M} {hz : HRaz E} {z : Raz E M} (h : RepZ e σ hz z) (hn : (zN e z).Nodup) :
    Sim (hz.unfocus e) σ z.unfocus (fun b a σ' => RepRT e σ' a b ∧ Sub (tN e b.tree) (zN e z) ∧ Keeps (zN e z) σ σ' ∧
      USteps e z σ σ' ∧ USteps0 e z σ σ') := by
  have hcn := nodup_count hn
  simp only [zN, List.count_append] at hcn
  unfold HRaz.unfocus Raz.unfocus
  refine (center_sim h.ls h.rs).bind ?_
  rintro c hc σ' hcen ⟨k1, rfl, k2⟩
  have hsub : Sub (cN e z.lForest ++ (ctN e c ++ cN e z.rForest)) (zN e z) := by
    intro x
    have := k2 x
    simp only [zN, List.count_append] at *; omega
  refine (centerTree_sim k1 h.lf h.rf h.le h.re (hsub.nodup hn)).bind ?_
  rintro b a σ1 hct ⟨hcase, hk, hfine, hfine0⟩
  rcases hcase with ⟨rfl, rfl⟩ | ⟨⟨t, lf, rf⟩, ⟨ht, hlf, hrf⟩, rfl, rfl, post⟩
  · refine ⟨_, σ1, ⟨0, fun _ _ => rfl⟩, ⟨rfl, rfl⟩, fun x => by simp [tN], hk.mono hsub.subset, ?_, ?_⟩
    · intro c' hc' hv
      rw [hcen] at hc'
      cases hc'
      exact absurd hct (centerTree_some hv)
    · intro c' hc' hv t lf rf hct'
      rw [hcen] at hc'
      cases hc'
      rw [hct] at hct'
      cases hct'
  · obtain ⟨p1, p2, p3, p4, p5, p6, p7⟩ := post
    simp only at p1 p2 p3 p4 p5 p6 p7 ⊢
    have hT : ∀ x, (cN e z.lForest ++ (ctN e c ++ cN e z.rForest)).count x ≤ 1 := nodup_count (hsub.nodup hn)
    have m1 : ∀ x, (cN e lf).count x + (cN e rf).count x ≤ 1 := fun x => by
      have := p6 x; have := hT x; simp only [List.count_append] at *; omega
    have m2 : ∀ x, (lN e lf.lForest).count x + ((tN e t).count x + (rN e rf.rForest).count x) ≤ 1 := fun x => by
      have := p7 x; have := hT x; simp only [List.count_append] at *; omega
    have n1 : Sub (lN e lf.lForest ++ tN e t) (lN e lf.lForest ++ (tN e t ++ rN e rf.rForest)) := fun x => by
      simp only [List.count_append]; omega
    unfold Raz.joinForests
    refine (joinLeftForest_sim p2 (RepC.ofTree p1) p4 (count_nodup (fun x => by have := m1 x; omega))
      (count_nodup (fun x => by have := m2 x; rw [cN_ofTree]; simp only [List.count_append]; omega))).bind ?_
    rintro jc hjc σ2 hjl ⟨q1, q2, q3⟩
    rw [cN_ofTree] at q2
    have hr1 := p3.keep q3 (dis_count (fun x => by
      have := m1 x
      have := eN_countl e lf.lForest x
      simp only [Cursor.ofTree, eN, List.flatMap_nil, List.count_nil, cN, List.count_append] at *
      omega))
    have hsub3 : ∀ x, (cN e jc).count x ≤ (lN e lf.lForest).count x + (tN e t).count x := fun x => by
      have := q2 x; simpa only [List.count_append] using this
    refine (joinRightForest_sim hr1 q1 p5 (count_nodup (fun x => by have := m1 x; omega))
      (count_nodup (fun x => by have := m2 x; have := hsub3 x; simp only [List.count_append]; omega))).bind ?_
    rintro jc2 hjc2 σ3 hjr ⟨r1, r2, r3⟩
    have hsub4 : ∀ x, (cN e jc2).count x ≤ (lN e lf.lForest).count x + (tN e t).count x + (rN e rf.rForest).count x := fun x => by
      have := hsub3 x; have := r2 x; simp only [List.count_append] at this; omega
    rw [r1.height]
    refine (upAll_sim _ r1 (count_nodup (fun x => by have := m2 x; have := hsub4 x; omega))).bind ?_
    rintro jc3 hjc3 σ4 - ⟨u1, u2, u3⟩
    refine (mkTree_sim u1.t).mono ?_
    rintro b a σ5 - ⟨v1, v2, rfl⟩
    have hfin : Sub (cN e jc2) (zN e z) := fun x => by
      have := hsub4 x; have := p7 x; have := hsub x; simp only [List.count_append] at *; omega
    refine ⟨v1, ?_, (hk.mono hsub.subset).trans ((q3.mono ?_).trans ((r3.mono ?_).trans (u3.mono ?_))), ?_, ?_⟩
    · refine Sub.trans (fun x => ?_) hfin
      rw [v2, ← u2.eq]; simp only [cN, List.count_append]; omega
    · refine Sub.subset (fun x => ?_)
      have := p7 x; have := hsub x; have := eN_countl e lf.lForest x
      simp only [Cursor.ofTree, eN, List.flatMap_nil, List.count_nil, List.count_append] at *; omega
    · refine Sub.subset (fun x => ?_)
      have := hsub3 x; have := p7 x; have := hsub x
      have := eN_countl e jc.lForest x; have := eN_countr e jc.rForest x; have := eN_countr e rf.rForest x
      simp only [cN, List.count_append] at *; omega
    · exact List.Subset.trans (eN_subset e jc2) hfin.subset
    · intro c' hc' hv
      rw [hcen] at hc'
      cases hc'
      obtain ⟨w1, w2⟩ := hfine hv
      obtain ⟨w3, w4⟩ := w2 _ rfl
      simp only [Prod.mk.injEq] at w3
      obtain ⟨rfl, rfl⟩ := w3
      refine ⟨t, jc, jc2, hct, w4, k2, hjl, hjr, (w1.mono ?_).trans ((q3.mono ?_).trans ((r3.mono ?_).trans (u3.mono ?_)))⟩ <;>
      · intro x hx
        simp only [uN, Cursor.ofTree, eN, List.flatMap_nil, List.mem_append, List.not_mem_nil] at hx ⊢
        tauto
    · intro c' hc' hv t' lf' rf' hct'
      rw [hcen] at hc'
      cases hc'
      rw [hct] at hct'
      cases hct'
      refine ⟨jc, jc2, hjl, hjr, ((hfine0 hv).mono ?_).trans ((q3.mono ?_).trans ((r3.mono ?_).trans (u3.mono ?_)))⟩ <;>
      · intro x hx
        simp only [u0N, Cursor.ofTree, eN, List.flatMap_nil, List.mem_append, List.not_mem_nil] at hx ⊢
        tauto

theorem unfocus_sim {σ : RMem E M} {hz : HRaz E} {z : Raz E M} (h : RepZ e σ hz z) (hn : (zN e z).Nodup) :
    Sim (hz.unfocus e) σ z.unfocus (fun b a σ' => RepRT e σ' a b ∧ Sub (tN e b.tree) (zN e z) ∧ Keeps (zN e z) σ σ') :=
  (unfocus_steps h hn).mono (fun _ _ _ _ h => ⟨h.1, h.2.1, h.2.2.1⟩)

end
end Iodyn.Heap
