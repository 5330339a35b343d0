import Verif.Proof.HeapLocal
/-
`unfocus` when nothing is next to the cursor: it also writes the right spine of the next tree.
-/
namespace Iodyn.Heap
variable {E M : Type} [RazMeta E M]

/-- As `joinLeftForest_good`, for a tree that stays below all entries of the left forest. -/
theorem joinLeftForest_low {e : Engine} {S : List Name} {lf jc : Cursor (TreeData E M)} {t : Tree (TreeData E M)} (hc : LC lf.lForest)
    (hr : lf.rForest = []) (hl : ∀ p ∈ lf.lForest, nm e p.2.name ⊆ S) (ht : SpR e S t) (hlow : ∀ p ∈ lf.lForest, ∀ x ∈ t.level?, x ≤ p.2.level)
    (h : Raz.joinLeftForest lf (Cursor.ofTree t) = .ok jc) :
    GoodR e S jc ∧ (jc.dirty = true ∨ (jc.lForest = [] ∧ jc.rForest = [])) := by
  unfold Raz.joinLeftForest at h
  obtain ⟨⟨lf', res⟩, h1, h⟩ := bind_ok.1 h
  simp only at h
  split at h
  · rename_i hne
    obtain ⟨d, u, us, data, T, s1, s2, s3, s4⟩ := up_shape_left h1 hr hne
    obtain ⟨lev, hlev, h⟩ := bind_ok.1 h
    have hlev : lev = u.level := by
      simp [Cursor.peekLevel, s4, Tree.level?, unwrap] at hlev; exact hlev.symm
    subst hlev
    have hnm : lf'.peekName = u.name := by simp [Cursor.peekName, s4, Tree.name?]
    rw [hnm] at h
    have hdl : (lf'.downLeftForce .discard).1 = { lf' with tree := u.l, dirty := true } := by
      simp [Cursor.downLeftForce, s4]
    rw [hdl] at h
    rw [s1] at hc hl hlow
    have hcu := hc.c (d, u) (by simp)
    unfold Cursor.join at h
    obtain ⟨l1, a1, h⟩ := bind_ok.1 h
    obtain ⟨r1, b1, h⟩ := bind_ok.1 h
    obtain ⟨l2, a2, h⟩ := bind_ok.1 h
    obtain ⟨l3, a3, h⟩ := bind_ok.1 h
    obtain ⟨r2, b2, h⟩ := bind_ok.1 h
    obtain ⟨r3, b3, h⟩ := bind_ok.1 h
    obtain ⟨y, -, hfin⟩ := bind_ok.1 h
    simp only [pure, Except.pure, Except.ok.injEq] at hfin
    have e1 := upUntil_stop (by simp [s3]) a1
    subst e1
    have e2 := upUntil_stop (by
      simp only [Cursor.stopLeft, Cursor.upLeftLevel, s2]
      cases us with
      | nil => rfl
      | cons q us => simpa using (List.pairwise_cons.1 hc.s).1 q (by simp)) a2
    subst e2
    have e3 := descendRight_stay (fun x hx => hcu.1 x hx) a3
    subst e3
    have f1 := upUntil_stop (by rfl) b1
    subst f1
    have f2 := upUntil_stop (by rfl) b2
    subst f2
    have f3 := descendLeft_stay (fun x hx => hlow (d, u) (by simp) x hx) b3
    subst f3
    subst hfin
    refine ⟨⟨?_, by simp [Cursor.ofTree], hl (d, u) (by simp), ht⟩, .inl rfl⟩
    intro p hp
    simp only [s2] at hp
    exact hl p (List.mem_cons_of_mem _ hp)
  · simp [pure, Except.pure] at h
    subst h
    exact ⟨⟨by simp [Cursor.ofTree], by simp [Cursor.ofTree], ht⟩, .inr ⟨rfl, rfl⟩⟩

variable [Spaces]

/-- The list has the right spine of the tree that `unfocus` takes as its center when nothing is next to the cursor. -/
def NextR (e : Engine) (S : List Name) (z : Raz E M) : Prop :=
  match z.lForest.lForest, z.rForest.rForest with
  | p :: _, _ => SpR e S p.2.l
  | [], p :: _ => SpR e S p.2.r
  | [], [] => True

theorem unfocus_cross {e : Engine} {σ : RMem E M} {hz : HRaz E} {z : Raz E M} {S : List Name} (h : RepZ e σ hz z) (hn : (zN e z).Nodup) (hi : ZInv z)
    (hc : ZC z) (hs1 : z.lStack.isEmpty = true) (hs2 : z.rStack.isEmpty = true) (hS : fN e z ⊆ S) (hN : NextR e S z) :
    Sim (hz.unfocus e) σ z.unfocus (fun b a σ' => RepRT e σ' a b ∧ Sub (tN e b.tree) (zN e z) ∧ (b.tree ≠ .nil → Keeps S σ σ')) := by
  refine (unfocus_steps h hn).mono ?_
  rintro b a σ' hb ⟨h1, h2, -, -, h4⟩
  refine ⟨h1, h2, fun hne => ?_⟩
  unfold Raz.unfocus at hb
  obtain ⟨c, hcen, hb⟩ := bind_ok.1 hb
  have hv : c.vec = none := by
    rw [(isEmpty_iff _).1 hs1, (isEmpty_iff _).1 hs2] at hcen
    cases hcen; rfl
  obtain ⟨o, hct, hb⟩ := bind_ok.1 hb
  rcases o with _ | ⟨t, lf, rf⟩
  · cases hb; exact absurd rfl hne
  · have ent : ∀ (us : List (Bool × TNode (TreeData E M))), eN e us ⊆ fN e z → ∀ p ∈ us, nm e p.2.name ⊆ S := by
      intro us hu p hp x hx
      exact hS (hu (List.mem_flatMap.2 ⟨p, hp, hx⟩))
    have f1 : eN e z.lForest.lForest ⊆ fN e z := by intro x; simp only [fN, List.mem_append]; tauto
    have f2 : eN e z.rForest.rForest ⊆ fN e z := by intro x; simp only [fN, List.mem_append]; tauto
    obtain ⟨jc, jc2, k4, k5, k6⟩ := h4 c hcen hv t lf rf hct
    have fin : ∀ (g1 : GoodR e S jc) (g3 : eN e jc2.lForest ++ eN e jc2.rForest ⊆ S) (p1 : eN e lf.lForest ⊆ fN e z)
        (p2 : eN e rf.rForest ⊆ fN e z), Keeps S σ σ' := by
      intro g1 g3 p1 p2
      have g4 := g1.eN
      refine k6.mono ?_
      unfold u0N
      rw [h.le, h.re]
      have e0 : eN e ([] : List (Bool × TNode (TreeData E M))) = [] := rfl
      rw [e0, List.append_nil, List.nil_append]
      exact List.append_subset.2 ⟨List.append_subset.2 ⟨List.Subset.trans f1 hS, List.Subset.trans f2 hS⟩,
        List.append_subset.2 ⟨List.append_subset.2 ⟨List.Subset.trans p1 hS, g4⟩,
        List.append_subset.2 ⟨List.append_subset.2 ⟨g4, List.Subset.trans p2 hS⟩, g3⟩⟩⟩
    unfold Raz.centerTree at hct
    rw [hv] at hct
    simp only at hct
    cases hlf : z.lForest.lForest with
    | nil =>
      rw [hi.lf.up_nil hlf] at hct
      simp only [bind, Except.bind, if_true] at hct
      cases hrf : z.rForest.rForest with
      | nil =>
        rw [hi.rf.up_nil hrf] at hct
        simp [pure, Except.pure] at hct
      | cons p us =>
        obtain ⟨d, u⟩ := p
        obtain ⟨rf', a, b, T, u1, u2, u3, u4, -, -⟩ := hi.rf.up_cons hrf
        rw [u1] at hct
        obtain ⟨t', a4, hfin⟩ := bind_ok.1 hct
        cases hfin
        have ht : t = u.r := by
          unfold Raz.unwrapTree at a4
          split at a4 <;> simp at a4
          rw [← a4]
          simp [Cursor.rightTree, u4]
        subst ht
        simp only [NextR, hlf, hrf] at hN
        have hrc : RC rf'.rForest := by
          rw [u2]
          have := hc.r
          rw [hrf] at this
          exact ⟨fun p hp => this.c p (List.mem_cons_of_mem _ hp), (List.pairwise_cons.1 this.s).2⟩
        have f3 : eN e rf'.rForest ⊆ fN e z := by
          rw [u2]
          refine List.Subset.trans ?_ f2
          rw [hrf]
          intro x hx; simp only [eN, List.flatMap_cons, List.mem_append]; exact .inr hx
        have f4 : eN e z.lForest.lForest ⊆ fN e z := f1
        obtain ⟨g1, g2⟩ := joinLeftForest_low (S := S) hc.l h.le (ent _ f1) hN (by rw [hlf]; simp) k4
        exact fin g1 (joinRightForest_good hrc u3 (ent _ f3) g1 g2 k5) f4 f3
    | cons p us =>
      obtain ⟨d, u⟩ := p
      obtain ⟨lf', a, b, T, u1, u2, u3, u4, -, -⟩ := hi.lf.up_cons hlf
      rw [u1] at hct
      replace hct : (Raz.unwrapTree lf'.leftTree >>= fun t => pure (some (t, lf', z.rForest))) = (Except.ok (some (t, lf, rf)) : P _) := hct
      obtain ⟨t', a4, hfin⟩ := bind_ok.1 hct
      cases hfin
      have ht : t = u.l := by
        unfold Raz.unwrapTree at a4
        split at a4 <;> simp at a4
        rw [← a4]
        simp [Cursor.leftTree, u4]
      subst ht
      simp only [NextR, hlf] at hN
      have hl0 := hc.l
      rw [hlf] at hl0
      have hlc : LC lf.lForest := by
        rw [u2]
        exact ⟨fun p hp => hl0.c p (List.mem_cons_of_mem _ hp), (List.pairwise_cons.1 hl0.s).2⟩
      have f3 : eN e lf.lForest ⊆ fN e z := by
        rw [u2]
        refine List.Subset.trans ?_ f1
        rw [hlf]
        intro x hx; simp only [eN, List.flatMap_cons, List.mem_append]; exact .inr hx
      have hlow : ∀ p ∈ lf.lForest, ∀ x ∈ u.l.level?, x ≤ p.2.level := by
        rw [u2]
        intro p hp x hx
        have q1 := (hl0.c (d, u) (by simp)).1 x hx
        have q2 := (List.pairwise_cons.1 hl0.s).1 p hp
        simp only at q1 q2
        omega
      obtain ⟨g1, g2⟩ := joinLeftForest_low (S := S) hlc u3 (ent _ f3) hN hlow k4
      exact fin g1 (joinRightForest_good hc.r h.re (ent _ f2) g1 g2 k5) f3 f2

end Iodyn.Heap
