import Verif.Proof.HeapRaz
/-
The operations of a cursor (src/raz.rs:559-640) and of a tree (src/raz.rs:113-141, 321-416), over the store.
-/
namespace Iodyn.Heap
section
variable [Spaces] {E M : Type} [RazMeta E M] {e : Engine}

omit [RazMeta E M] in
/-- A computation whose functional counterpart is a plain value. -/
theorem Sim.bindOk {D X A B B' C : Type} {m : H D X A} {k : A → H D X C} {σ : Mem D X} {b : B} {R : B → A → Mem D X → Prop}
    {x : P B'} {S : B' → C → Mem D X → Prop} (h : Sim m σ (.ok b) R) (hk : ∀ a σ', R b a σ' → Sim (k a) σ' x S) :
    Sim (m >>= k) σ x S :=
  Sim.bind (x := .ok b) (kx := fun _ => x) h (fun b' a σ' hb hr => by cases hb; exact hk a σ' hr)

theorem RepZ.keep {σ σ' : RMem E M} {N : List Name} {hz : HRaz E} {z : Raz E M} (h : RepZ e σ hz z) (hk : Keeps N σ σ')
    (hd : Dis (zN e z) N) : RepZ e σ' hz z := by
  have h1 : ∀ l : List Name, l ⊆ zN e z → Dis l N := fun l hl => hd.mono hl (List.Subset.refl _)
  refine ⟨h.lf.keep hk (h1 _ ?_), h.ls.keep hk (h1 _ ?_), h.rs.keep hk (h1 _ ?_), h.rf.keep hk (h1 _ ?_), h.le, h.re⟩ <;>
    (intro x; simp only [zN, aN, List.mem_append]; tauto)

omit [RazMeta E M] in
theorem RepRT.keep {σ σ' : RMem E M} {N : List Name} {ht : HTree M} {t : RazTree E M} (h : RepRT e σ ht t) (hk : Keeps N σ σ')
    (hd : Dis (tN e t.tree) N) : RepRT e σ' ht t := ⟨h.info, h.tree.keep hk hd⟩

theorem curPeek_run {D X : Type} {σ : Mem D X} {hc : Cur} {t : Tree D} (h : RepT e σ hc.tree t) (f : Nat) :
    hc.peek f σ = .ok (t.peek?, σ) := peekOp_run h f

/-! ### Reading -/

theorem downLeft_read {D X : Type} [TreeUpdate D] {σ : Mem D X} {hc : Cur} {c : Cursor D} (h : RepT e σ hc.tree c.tree)
    (hd : hc.dirty = c.dirty) : ∃ hc', (∀ f, hc.downLeftForce .no f σ = .ok ((hc', c.downLeft.2), σ)) ∧
      RepT e σ hc'.tree c.downLeft.1.tree ∧ hc'.dirty = c.downLeft.1.dirty := by
  unfold Cursor.downLeft Cursor.downLeftForce
  cases ht : c.tree with
  | nil =>
    rw [ht] at h
    exact ⟨hc, fun f => downLeft_none .no h f, by rw [ht]; exact h, hd⟩
  | node lv n x l r =>
    have h0 := h
    rw [ht] at h
    obtain ⟨k, hl, hr, h1, h2, h3, h4, h5⟩ := h
    have hn := h4.isNone
    cases hs : l.isSome with
    | false =>
      rw [hs] at hn
      have hn' : hl.isNone = true := hn
      refine ⟨hc, fun f => ?_, ?_, ?_⟩
      · rw [downLeft_run .no h1 h3 f]; simp [hn', hs]
      · simp [hs]; exact h0
      · simp [hs]; exact hd
    | true =>
      rw [hs] at hn
      have hn' : hl.isNone = false := hn
      refine ⟨{ hc with dirty := false, tree := hl, rForest := (hc.dirty, ⟨lv, n, k⟩) :: hc.rForest }, fun f => ?_, ?_, ?_⟩
      · rw [downLeft_run .no h1 h3 f]; simp [hn', hs]
      · simp [hs]; exact h4
      · simp [hs]

theorem downRight_read {D X : Type} [TreeUpdate D] {σ : Mem D X} {hc : Cur} {c : Cursor D} (h : RepT e σ hc.tree c.tree)
    (hd : hc.dirty = c.dirty) : ∃ hc', (∀ f, hc.downRightForce .no f σ = .ok ((hc', c.downRight.2), σ)) ∧
      RepT e σ hc'.tree c.downRight.1.tree ∧ hc'.dirty = c.downRight.1.dirty := by
  unfold Cursor.downRight Cursor.downRightForce
  cases ht : c.tree with
  | nil =>
    rw [ht] at h
    exact ⟨hc, fun f => downRight_none .no h f, by rw [ht]; exact h, hd⟩
  | node lv n x l r =>
    have h0 := h
    rw [ht] at h
    obtain ⟨k, hl, hr, h1, h2, h3, h4, h5⟩ := h
    have hn := h5.isNone
    cases hs : r.isSome with
    | false =>
      rw [hs] at hn
      have hn' : hr.isNone = true := hn
      refine ⟨hc, fun f => ?_, ?_, ?_⟩
      · rw [downRight_run .no h1 h3 f]; simp [hn', hs]
      · simp [hs]; exact h0
      · simp [hs]; exact hd
    | true =>
      rw [hs] at hn
      have hn' : hr.isNone = false := hn
      refine ⟨{ hc with dirty := false, tree := hr, lForest := (hc.dirty, ⟨lv, n, k⟩) :: hc.lForest }, fun f => ?_, ?_, ?_⟩
      · rw [downRight_run .no h1 h3 f]; simp [hn', hs]
      · simp [hs]; exact h5
      · simp [hs]

theorem peekLeft_sim {σ : RMem E M} {hz : HRaz E} {z : Raz E M} (h : RepZ e σ hz z) (hn : (zN e z).Nodup) :
    Sim (hz.peekLeft e) σ z.peekLeft (fun b a σ' => a = b ∧ RepZ e σ' hz z ∧ Keeps (zN e z) σ σ') := by
  have hcn := nodup_count hn
  simp only [zN, List.count_append] at hcn
  unfold HRaz.peekLeft Raz.peekLeft
  rw [h.ls.isEmpty]
  split
  · refine (up_sim h.lf (count_nodup (fun x => by have := hcn x; omega))).bind ?_
    rintro ⟨pf, res⟩ ⟨hpf, res'⟩ σ1 hup ⟨k1, rfl, k2, k3, k4⟩
    simp only at k1 k2 ⊢
    replace k3 := k3.mono (eN_lr e z.lForest)
    have hN : lN e z.lForest.lForest ++ rN e z.lForest.rForest ⊆ zN e z := by
      intro x; simp only [zN, cN, List.mem_append]; tauto
    have hd : ∀ l : List Name, (∀ x, l.count x + (cN e z.lForest).count x ≤ 1) → Dis l (lN e z.lForest.lForest ++ rN e z.lForest.rForest) := by
      intro l hl
      refine dis_count (fun x => ?_)
      have := hl x
      simp only [cN, List.count_append] at *; omega
    have hZ : RepZ e σ1 hz z := by
      refine ⟨k4, h.ls.keep k3 (hd _ fun x => ?_), h.rs.keep k3 (hd _ fun x => ?_), h.rf.keep k3 (hd _ fun x => ?_), h.le, h.re⟩ <;>
      · have := hcn x; simp only [aN, List.count_append] at *; omega
    split
    · exact Sim.pure ⟨rfl, hZ, k3.mono hN⟩
    · obtain ⟨hp1, r1, r2, r3⟩ := downLeft_read k1.t k1.dirty
      refine Sim.step r1 ?_
      refine (downRightAll_read r2 r3).bindOk ?_
      rintro hp2 σ2 ⟨s1, rfl⟩
      refine Sim.step (curPeek_run s1) ?_
      unfold Cursor.peek
      generalize Tree.peek? _ = o
      rcases o with _ | _ | _ | data
      · exact Sim.error
      · exact Sim.error
      · exact Sim.error
      · exact Sim.pure ⟨rfl, hZ, k3.mono hN⟩
  · exact (peek_sim h.ls).mono (by rintro b a σ' - ⟨rfl, rfl⟩; exact ⟨rfl, h, Keeps.refl _ _⟩)

theorem peekRight_sim {σ : RMem E M} {hz : HRaz E} {z : Raz E M} (h : RepZ e σ hz z) (hn : (zN e z).Nodup) :
    Sim (hz.peekRight e) σ z.peekRight (fun b a σ' => a = b ∧ RepZ e σ' hz z ∧ Keeps (zN e z) σ σ') := by
  have hcn := nodup_count hn
  simp only [zN, List.count_append] at hcn
  unfold HRaz.peekRight Raz.peekRight
  rw [h.rs.isEmpty]
  split
  · refine (up_sim h.rf (count_nodup (fun x => by have := hcn x; omega))).bind ?_
    rintro ⟨pf, res⟩ ⟨hpf, res'⟩ σ1 hup ⟨k1, rfl, k2, k3, k4⟩
    simp only at k1 k2 ⊢
    replace k3 := k3.mono (eN_lr e z.rForest)
    have hN : lN e z.rForest.lForest ++ rN e z.rForest.rForest ⊆ zN e z := by
      intro x; simp only [zN, cN, List.mem_append]; tauto
    have hd : ∀ l : List Name, (∀ x, l.count x + (cN e z.rForest).count x ≤ 1) → Dis l (lN e z.rForest.lForest ++ rN e z.rForest.rForest) := by
      intro l hl
      refine dis_count (fun x => ?_)
      have := hl x
      simp only [cN, List.count_append] at *; omega
    have hZ : RepZ e σ1 hz z := by
      refine ⟨h.lf.keep k3 (hd _ fun x => ?_), h.ls.keep k3 (hd _ fun x => ?_), h.rs.keep k3 (hd _ fun x => ?_), k4, h.le, h.re⟩ <;>
      · have := hcn x; simp only [aN, List.count_append] at *; omega
    split
    · exact Sim.pure ⟨rfl, hZ, k3.mono hN⟩
    · obtain ⟨hp1, r1, r2, r3⟩ := downRight_read k1.t k1.dirty
      refine Sim.step r1 ?_
      refine (downLeftAll_read r2 r3).bindOk ?_
      rintro hp2 σ2 ⟨s1, rfl⟩
      refine Sim.step (curPeek_run s1) ?_
      unfold Cursor.peek
      generalize Tree.peek? _ = o
      rcases o with _ | _ | _ | data
      · exact Sim.error
      · exact Sim.error
      · exact Sim.error
      · exact Sim.pure ⟨rfl, hZ, k3.mono hN⟩
  · exact (peek_sim h.rs).mono (by rintro b a σ' - ⟨rfl, rfl⟩; exact ⟨rfl, h, Keeps.refl _ _⟩)

/-! ### Popping -/

omit [RazMeta E M] in
theorem RepA.extend {D : Type} {σ : Mem D (Nat × List E)} {hs : ASt E} {s : AStack E Nat} (h : RepA e σ hs s) (v : List E) :
    RepA e σ (hs.extend v) (s.extend v) := ⟨by simp [ASt.extend, AStack.extend, h.cur], h.arch⟩

omit [RazMeta E M] in
theorem RepA.extendRev {D : Type} {σ : Mem D (Nat × List E)} {hs : ASt E} {s : AStack E Nat} (h : RepA e σ hs s) (v : List E) :
    RepA e σ (hs.extendRev v) (s.extendRev v) := ⟨by simp [ASt.extendRev, AStack.extendRev, h.cur], h.arch⟩

omit [RazMeta E M] in
theorem RepA.push {D : Type} {σ : Mem D (Nat × List E)} {hs : ASt E} {s : AStack E Nat} (h : RepA e σ hs s) (x : E) :
    RepA e σ (hs.push x) (s.push x) := ⟨by simp [ASt.push, AStack.push, h.cur], h.arch⟩

/-- `pop_left` writes at most the entries of its forest. -/
theorem popLeft_fine {σ : RMem E M} {hz : HRaz E} {z : Raz E M} (h : RepZ e σ hz z) (hn : (zN e z).Nodup) :
    Sim (hz.popLeft e) σ z.popLeft (fun b a σ' => RepZ e σ' a.1 b.1 ∧ a.2 = b.2 ∧ Sub (zN e b.1) (zN e z) ∧ Keeps (eN e z.lForest.lForest ++ eN e z.lForest.rForest) σ σ') := by
  have hcn := nodup_count hn
  simp only [zN, List.count_append] at hcn
  unfold HRaz.popLeft Raz.popLeft
  rw [h.ls.isEmpty]
  split
  · refine (up_sim h.lf (count_nodup (fun x => by have := hcn x; omega))).bind ?_
    rintro ⟨lf, res⟩ ⟨hlf, res'⟩ σ1 hup ⟨k1, rfl, k2, k3, -⟩
    simp only at k1 k2 ⊢
    have k0 := k3
    replace k3 := k3.mono (eN_lr e z.lForest)
    have hd : ∀ l : List Name, (∀ x, l.count x + (cN e z.lForest).count x ≤ 1) → Dis l (lN e z.lForest.lForest ++ rN e z.lForest.rForest) := by
      intro l hl
      refine dis_count (fun x => ?_)
      have := hl x
      simp only [cN, List.count_append] at *; omega
    have hls : RepA e σ1 hz.lStack z.lStack := h.ls.keep k3 (hd _ fun x => by
      have := hcn x; simp only [aN, List.count_append] at *; omega)
    have hrs : RepA e σ1 hz.rStack z.rStack := h.rs.keep k3 (hd _ fun x => by
      have := hcn x; simp only [aN, List.count_append] at *; omega)
    have hrf : RepC e σ1 hz.rForest z.rForest := h.rf.keep k3 (hd _ fun x => by have := hcn x; omega)
    have le1 : lf.rForest = [] := k2.re h.le
    split
    · exact Sim.pure ⟨⟨k1, hls, hrs, hrf, le1, h.re⟩, rfl, by unfold zN; simp only; rw [k2.eq]; exact Sub.refl _, k0⟩
    · rename_i hres
      obtain ⟨d, u, us, data, T, s1, s2, s3, s4⟩ := up_shape_left hup h.le hres
      obtain ⟨hlf2, hrun, hC, hfun⟩ := discardLeft_run k1 s4
      refine Sim.step hrun ?_
      rw [hfun]
      refine (downRightAll_one hC s3).bindOk ?_
      rintro hlf3 σ2 ⟨p1, p2, p3, rfl⟩
      refine Sim.step (curPeek_run p1.t) ?_
      have hsub : ∀ x, (cN e ({ lf with tree := u.l, dirty := true } : Cursor (TreeData E M))).count x ≤ (cN e z.lForest).count x := fun x => by
        rw [← k2.eq]; simp only [cN, s2, s3, s4, tN, rN, List.count_append]; omega
      rw [← p3] at hsub
      simp only [Cursor.peek] at hsub p1 p2 ⊢
      generalize Tree.peek? _ = o
      rcases o with _ | _ | _ | data'
      · exact Sim.error
      · exact Sim.error
      · exact Sim.error
      · refine (pop_sim (hls.extend data')).bind ?_
        rintro ⟨s, o⟩ ⟨hs, o'⟩ σ3 hpop ⟨q1, q2, rfl⟩
        simp only at q1 q2; subst q2
        refine Sim.pure ⟨⟨p1, q1, hrs, hrf, p2, h.re⟩, rfl, fun x => ?_, k0⟩
        have := hsub x
        have := aN_pop (e := e) hpop x
        have e1 : aN e (z.lStack.extend data') = aN e z.lStack := rfl
        rw [e1] at this
        simp only [zN, List.count_append]; omega
  · refine (pop_sim h.ls).bind ?_
    rintro ⟨s, o⟩ ⟨hs, o'⟩ σ3 hpop ⟨q1, q2, rfl⟩
    simp only at q1 q2; subst q2
    refine Sim.pure ⟨⟨h.lf, q1, h.rs, h.rf, h.le, h.re⟩, rfl, fun x => ?_, Keeps.refl _ _⟩
    have := aN_pop (e := e) hpop x
    simp only [zN, List.count_append]; omega

theorem popLeft_sim {σ : RMem E M} {hz : HRaz E} {z : Raz E M} (h : RepZ e σ hz z) (hn : (zN e z).Nodup) :
    Sim (hz.popLeft e) σ z.popLeft (fun b a σ' => RepZ e σ' a.1 b.1 ∧ a.2 = b.2 ∧ Sub (zN e b.1) (zN e z) ∧ Keeps (zN e z) σ σ') :=
  (popLeft_fine h hn).mono (fun _ _ _ _ ⟨h1, h2, h3, h4⟩ => ⟨h1, h2, h3, h4.mono (List.Subset.trans (eN_subset e _) (by
    intro x; simp only [zN, List.mem_append]; tauto))⟩)

/-- `pop_right` writes at most the entries of its forest. -/
theorem popRight_fine {σ : RMem E M} {hz : HRaz E} {z : Raz E M} (h : RepZ e σ hz z) (hn : (zN e z).Nodup) :
    Sim (hz.popRight e) σ z.popRight (fun b a σ' => RepZ e σ' a.1 b.1 ∧ a.2 = b.2 ∧ Sub (zN e b.1) (zN e z) ∧ Keeps (eN e z.rForest.lForest ++ eN e z.rForest.rForest) σ σ') := by
  have hcn := nodup_count hn
  simp only [zN, List.count_append] at hcn
  unfold HRaz.popRight Raz.popRight
  rw [h.rs.isEmpty]
  split
  · refine (up_sim h.rf (count_nodup (fun x => by have := hcn x; omega))).bind ?_
    rintro ⟨lf, res⟩ ⟨hlf, res'⟩ σ1 hup ⟨k1, rfl, k2, k3, -⟩
    simp only at k1 k2 ⊢
    have k0 := k3
    replace k3 := k3.mono (eN_lr e z.rForest)
    have hd : ∀ l : List Name, (∀ x, l.count x + (cN e z.rForest).count x ≤ 1) → Dis l (lN e z.rForest.lForest ++ rN e z.rForest.rForest) := by
      intro l hl
      refine dis_count (fun x => ?_)
      have := hl x
      simp only [cN, List.count_append] at *; omega
    have hls : RepA e σ1 hz.lStack z.lStack := h.ls.keep k3 (hd _ fun x => by
      have := hcn x; simp only [aN, List.count_append] at *; omega)
    have hrs : RepA e σ1 hz.rStack z.rStack := h.rs.keep k3 (hd _ fun x => by
      have := hcn x; simp only [aN, List.count_append] at *; omega)
    have hlf0 : RepC e σ1 hz.lForest z.lForest := h.lf.keep k3 (hd _ fun x => by have := hcn x; omega)
    have le1 : lf.lForest = [] := k2.le h.re
    split
    · exact Sim.pure ⟨⟨hlf0, hls, hrs, k1, h.le, le1⟩, rfl, by unfold zN; simp only; rw [k2.eq]; exact Sub.refl _, k0⟩
    · rename_i hres
      obtain ⟨d, u, us, data, T, s1, s2, s3, s4⟩ := up_shape_right hup h.re hres
      obtain ⟨hlf2, hrun, hC, hfun⟩ := discardRight_run k1 s4
      refine Sim.step hrun ?_
      rw [hfun]
      refine (downLeftAll_one hC s3).bindOk ?_
      rintro hlf3 σ2 ⟨p1, p2, p3, rfl⟩
      refine Sim.step (curPeek_run p1.t) ?_
      have hsub : ∀ x, (cN e ({ lf with tree := u.r, dirty := true } : Cursor (TreeData E M))).count x ≤ (cN e z.rForest).count x := fun x => by
        rw [← k2.eq]; simp only [cN, s2, s3, s4, tN, lN, List.count_append]; omega
      rw [← p3] at hsub
      simp only [Cursor.peek] at hsub p1 p2 ⊢
      generalize Tree.peek? _ = o
      rcases o with _ | _ | _ | data'
      · exact Sim.error
      · exact Sim.error
      · exact Sim.error
      · refine (pop_sim (hrs.extendRev data')).bind ?_
        rintro ⟨s, o⟩ ⟨hs, o'⟩ σ3 hpop ⟨q1, q2, rfl⟩
        simp only at q1 q2; subst q2
        refine Sim.pure ⟨⟨hlf0, hls, q1, p1, h.le, p2⟩, rfl, fun x => ?_, k0⟩
        have := hsub x
        have := aN_pop (e := e) hpop x
        have e1 : aN e (z.rStack.extendRev data') = aN e z.rStack := rfl
        rw [e1] at this
        simp only [zN, List.count_append]; omega
  · refine (pop_sim h.rs).bind ?_
    rintro ⟨s, o⟩ ⟨hs, o'⟩ σ3 hpop ⟨q1, q2, rfl⟩
    simp only at q1 q2; subst q2
    refine Sim.pure ⟨⟨h.lf, h.ls, q1, h.rf, h.le, h.re⟩, rfl, fun x => ?_, Keeps.refl _ _⟩
    have := aN_pop (e := e) hpop x
    simp only [zN, List.count_append]; omega

theorem popRight_sim {σ : RMem E M} {hz : HRaz E} {z : Raz E M} (h : RepZ e σ hz z) (hn : (zN e z).Nodup) :
    Sim (hz.popRight e) σ z.popRight (fun b a σ' => RepZ e σ' a.1 b.1 ∧ a.2 = b.2 ∧ Sub (zN e b.1) (zN e z) ∧ Keeps (zN e z) σ σ') :=
  (popRight_fine h hn).mono (fun _ _ _ _ ⟨h1, h2, h3, h4⟩ => ⟨h1, h2, h3, h4.mono (List.Subset.trans (eN_subset e _) (by
    intro x; simp only [zN, List.mem_append]; tauto))⟩)

/-! ### Pushing and archiving -/

omit [RazMeta E M] in
theorem aN_push (s : AStack E Nat) (x : E) : aN e (s.push x) = aN e s := rfl

theorem pushLeft_rep {σ : RMem E M} {hz : HRaz E} {z : Raz E M} (h : RepZ e σ hz z) (x : E) :
    RepZ e σ (hz.pushLeft x).1 (z.pushLeft x).1 ∧ (hz.pushLeft x).2 = (z.pushLeft x).2 ∧ zN e (z.pushLeft x).1 = zN e z := by
  refine ⟨⟨h.lf, h.ls.push x, h.rs, h.rf, h.le, h.re⟩, ?_, rfl⟩
  simp [HRaz.pushLeft, Raz.pushLeft, AStack.activeLen, (h.ls.push x).cur]

theorem pushRight_rep {σ : RMem E M} {hz : HRaz E} {z : Raz E M} (h : RepZ e σ hz z) (x : E) :
    RepZ e σ (hz.pushRight x).1 (z.pushRight x).1 ∧ (hz.pushRight x).2 = (z.pushRight x).2 ∧ zN e (z.pushRight x).1 = zN e z := by
  refine ⟨⟨h.lf, h.ls, h.rs.push x, h.rf, h.le, h.re⟩, ?_, rfl⟩
  simp [HRaz.pushRight, Raz.pushRight, AStack.activeLen, (h.rs.push x).cur]

/-- The names an archive operation brings in. -/
def archN (e : Engine) (n : Option Name) : List Name := nm e n ++ nm e (tnm n)

theorem archiveLeft_run {σ : RMem E M} {hz : HRaz E} {z : Raz E M} (h : RepZ e σ hz z) (level : Nat) (n : Option Name)
    (hn : (zN e z ++ archN e n).Nodup) : ∃ hz' σ', (∀ f, hz.archiveLeft (M := M) e level n f σ = .ok (hz', σ')) ∧
      RepZ e σ' hz' (z.archiveLeft level n) ∧ Sub (zN e (z.archiveLeft level n)) (zN e z ++ archN e n) ∧ Keeps (archN e n) σ σ' := by
  have hcn := nodup_count hn
  simp only [zN, aN, archN, List.count_append] at hcn
  obtain ⟨hs, σ', h1, h2, h3⟩ := archive_run h.ls n level (dis_count (fun x => by have := hcn x; omega))
  refine ⟨{ hz with lStack := hs }, σ', fun f => run_ok (h1 f), ?_, fun x => ?_, h3.mono (List.subset_append_left _ _)⟩
  · refine ⟨h.lf.keep h3 ?_, h2, h.rs.keep h3 ?_, h.rf.keep h3 ?_, h.le, h.re⟩ <;>
      exact dis_count (fun x => by have := hcn x; omega)
  · have := aN_archive e z.lStack n level x
    simp only [zN, archN, Raz.archiveLeft, List.count_append] at *; omega

theorem archiveRight_run {σ : RMem E M} {hz : HRaz E} {z : Raz E M} (h : RepZ e σ hz z) (level : Nat) (n : Option Name)
    (hn : (zN e z ++ archN e n).Nodup) : ∃ hz' σ', (∀ f, hz.archiveRight (M := M) e level n f σ = .ok (hz', σ')) ∧
      RepZ e σ' hz' (z.archiveRight level n) ∧ Sub (zN e (z.archiveRight level n)) (zN e z ++ archN e n) ∧ Keeps (archN e n) σ σ' := by
  have hcn := nodup_count hn
  simp only [zN, aN, archN, List.count_append] at hcn
  obtain ⟨hs, σ', h1, h2, h3⟩ := archive_run h.rs n level (dis_count (fun x => by have := hcn x; omega))
  refine ⟨{ hz with rStack := hs }, σ', fun f => run_ok (h1 f), ?_, fun x => ?_, h3.mono (List.subset_append_left _ _)⟩
  · refine ⟨h.lf.keep h3 ?_, h.ls.keep h3 ?_, h2, h.rf.keep h3 ?_, h.le, h.re⟩ <;>
      exact dis_count (fun x => by have := hcn x; omega)
  · have := aN_archive e z.rStack n level x
    simp only [zN, archN, Raz.archiveRight, List.count_append] at *; omega

end
end Iodyn.Heap
