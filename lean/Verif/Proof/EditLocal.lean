import Verif.Proof.EditPath
/-
Local edits: with values and over the store.
-/
namespace Iodyn
open Heap
variable {E M : Type}

theorem leftSide_near {l : List (Bool × TNode (TreeData E M))} : ¬ Near (Cursor.leftSide l) := by
  rintro ⟨i, r, h, hi⟩
  cases l with
  | nil => simp [Cursor.leftSide] at h
  | cons p l =>
    simp only [Cursor.leftSide, List.flatMap_cons, List.cons_append, List.cons.injEq] at h
    exact hi _ _ h.1.symm

theorem rightSide_near {l : List (Bool × TNode (TreeData E M))} : ¬ Near (Cursor.rightSide l) := by
  rintro ⟨i, r, h, hi⟩
  cases l with
  | nil => simp [Cursor.rightSide] at h
  | cons p l =>
    simp only [Cursor.rightSide, List.flatMap_cons, List.cons_append, List.cons.injEq] at h
    exact hi _ _ h.1.symm

theorem side_empty {s : AStack E Nat} (h : s.isEmpty = true) : s.side = [] := by
  obtain ⟨cur, arch⟩ := s
  simp only [AStack.isEmpty, Stack.isEmpty, Bool.and_eq_true, List.isEmpty_iff] at h
  obtain ⟨h1, h2⟩ := h
  cases arch with
  | nil => cases cur with
    | nil => rfl
    | cons => simp at h1 h2
  | cons => simp at h1 h2

theorem Near.left {z : Raz E M} (h : Near z.left) : z.lStack.isEmpty = false := by
  cases he : z.lStack.isEmpty with
  | false => rfl
  | true => rw [Raz.left, side_empty he] at h; exact absurd h leftSide_near

theorem Near.right {z : Raz E M} (h : Near z.right) : z.rStack.isEmpty = false := by
  cases he : z.rStack.isEmpty with
  | false => rfl
  | true => rw [Raz.right, side_empty he] at h; exact absurd h rightSide_near

/-- The number of named archive points of a stack. -/
def stackPoints (s : AStack E Nat) : Nat := (pN .dcg s.archived).length

theorem pop_points {s s' : AStack E Nat} {o} (h : s.pop = .ok (s', o)) : stackPoints s' ≤ stackPoints s := by
  obtain ⟨cur, arch⟩ := s
  unfold AStack.pop at h
  split at h
  · cases h; exact Nat.le_refl _
  · unfold AStack.retrieve at h
    split at h
    · rcases arch with _ | ⟨⟨n, m, v⟩, t⟩
      · cases h
      · simp only [Stack.peek, Stack.pull, unwrap, bind, Except.bind, pure, Except.pure, AStack.popCurrent] at h
        cases h
        simp only [stackPoints, pN, List.length_append]
        omega
    · simp only [bind, Except.bind, pure, Except.pure, AStack.popCurrent] at h
      cases h; exact Nat.le_refl _

theorem archive_points (s : AStack E Nat) (n : Option Name) (m : Nat) :
    stackPoints (s.archive n m).1 ≤ (if n.isSome then 1 else 0) + stackPoints s := by
  unfold AStack.archive
  split
  · simp
  · simp only [stackPoints, Stack.push, pN, nm, tnm, List.length_append]
    cases n <;> simp

variable [RazMeta E M]

/-- What holds for the cursor during local edits. -/
structure LInvs (z0 z : Raz E M) (N : List Name) (k : Nat) : Prop where
  inv : ZInv z
  canon : ZC z
  lf : z.lForest = z0.lForest
  rf : z.rForest = z0.rForest
  names : Sub (aN .dcg z.lStack ++ aN .dcg z.rStack) N
  points : stackPoints z.lStack + stackPoints z.rStack ≤ k

theorem LInvs.lop {z0 z z' : Raz E M} {N : List Name} {k : Nat} (h : LInvs z0 z N k) {op : LOp E} (hs : op.Stays z) (ho : z.lop op = .ok z') :
    LInvs z0 z' (N ++ LOp.cells [op]) (k + LOp.points [op]) := by
  have hn := h.names
  have hp := h.points
  cases op with
  | pushL x =>
    cases ho
    exact ⟨(pushLeft_ok h.inv x).1, ⟨h.canon.l, h.canon.r⟩, h.lf, h.rf, by
      rw [show LOp.cells [_] = [] from rfl, List.append_nil]; exact hn, by rw [show LOp.points [_] = 0 from rfl]; exact hp⟩
  | pushR x =>
    cases ho
    exact ⟨(pushRight_ok h.inv x).1, ⟨h.canon.l, h.canon.r⟩, h.lf, h.rf, by
      rw [show LOp.cells [_] = [] from rfl, List.append_nil]; exact hn, by rw [show LOp.points [_] = 0 from rfl]; exact hp⟩
  | archL lev n =>
    cases ho
    refine ⟨(archiveLeft_ok h.inv hs n).1, ⟨h.canon.l, h.canon.r⟩, h.lf, h.rf, fun x => ?_, ?_⟩
    · have h1 := hn x
      have h2 := aN_archive .dcg z.lStack n lev x
      simp only [Raz.archiveLeft, LOp.cells, LOp.name?, List.count_append, nm, tnm, List.append_nil] at h1 h2 ⊢
      omega
    · have h1 := archive_points z.lStack n lev
      cases n <;> simp only [Raz.archiveLeft, LOp.points, LOp.name?, Option.isSome_none, Option.isSome_some, if_true, Bool.false_eq_true, if_false] at h1 ⊢ <;> omega
  | archR lev n =>
    cases ho
    refine ⟨(archiveRight_ok h.inv hs n).1, ⟨h.canon.l, h.canon.r⟩, h.lf, h.rf, fun x => ?_, ?_⟩
    · have h1 := hn x
      have h2 := aN_archive .dcg z.rStack n lev x
      simp only [Raz.archiveRight, LOp.cells, LOp.name?, List.count_append, nm, tnm, List.append_nil] at h1 h2 ⊢
      omega
    · have h1 := archive_points z.rStack n lev
      cases n <;> simp only [Raz.archiveRight, LOp.points, LOp.name?, Option.isSome_none, Option.isSome_some, if_true, Bool.false_eq_true, if_false] at h1 ⊢ <;> omega
  | popL =>
    have he := Near.left hs
    obtain ⟨⟨z1, o⟩, h1, ho⟩ := bind_ok.1 ho
    cases ho
    simp only [Raz.popLeft, he, Bool.false_eq_true, if_false] at h1
    obtain ⟨⟨s, o'⟩, h2, h1⟩ := bind_ok.1 h1
    cases h1
    obtain ⟨s', x, g1, g2, -⟩ := stackPop_ok h.inv.ls he []
    rw [h2] at g1
    cases g1
    refine ⟨⟨h.inv.lf, h.inv.rf, g2, h.inv.rs⟩, ⟨h.canon.l, h.canon.r⟩, h.lf, h.rf, fun x => ?_, ?_⟩
    · have h3 := hn x
      have h4 := aN_pop (e := .dcg) h2 x
      simp only [List.count_append] at h3 ⊢
      omega
    · have := pop_points h2
      simp only
      omega
  | popR =>
    have he := Near.right hs
    obtain ⟨⟨z1, o⟩, h1, ho⟩ := bind_ok.1 ho
    cases ho
    simp only [Raz.popRight, he, Bool.false_eq_true, if_false] at h1
    obtain ⟨⟨s, o'⟩, h2, h1⟩ := bind_ok.1 h1
    cases h1
    obtain ⟨s', x, g1, g2, -⟩ := stackPop_ok h.inv.rs he []
    rw [h2] at g1
    cases g1
    refine ⟨⟨h.inv.lf, h.inv.rf, h.inv.ls, g2⟩, ⟨h.canon.l, h.canon.r⟩, h.lf, h.rf, fun x => ?_, ?_⟩
    · have h3 := hn x
      have h4 := aN_pop (e := .dcg) h2 x
      simp only [List.count_append] at h3 ⊢
      omega
    · have := pop_points h2
      simp only
      omega

omit [RazMeta E M] in
theorem cells_cons (op : LOp E) (l : List (LOp E)) : LOp.cells (op :: l) = LOp.cells [op] ++ LOp.cells l := by simp [LOp.cells]
omit [RazMeta E M] in
theorem points_cons (op : LOp E) (l : List (LOp E)) : LOp.points (op :: l) = LOp.points [op] + LOp.points l := by simp [LOp.points]

/-- Local edits over the store. -/
theorem lops_sim : ∀ (l : List (LOp E)) {z0 z : Raz E M} {N : List Name} {k : Nat} {σ : RMem E M} {hz : HRaz E}, LInvs z0 z N k → z.Local l →
    RepZ .dcg σ hz z → (cN .dcg z0.lForest ++ cN .dcg z0.rForest ++ (N ++ LOp.cells l)).Nodup →
    Sim (hz.lops .dcg l) σ (z.lops l) (fun z' hz' σ' => RepZ .dcg σ' hz' z' ∧ LInvs z0 z' (N ++ LOp.cells l) (k + LOp.points l) ∧
      (z'.lStack.isEmpty = false ∨ z'.rStack.isEmpty = false) ∧ Keeps (LOp.cells l) σ σ') := by
  intro l
  induction l with
  | nil =>
    intro z0 z N k σ hz h hl hr hn
    refine Sim.pure ⟨hr, by simpa [LOp.cells, LOp.points] using h, ?_, Keeps.refl _ _⟩
    exact hl.imp Near.left Near.right
  | cons op l ih =>
    intro z0 z N k σ hz h hl hr hn
    obtain ⟨hs, hl⟩ := hl
    have hzn : ∀ x, (zN .dcg z).count x + (LOp.cells (op :: l)).count x ≤ 1 := fun x => by
      have := nodup_count hn x
      have := h.names x
      simp only [zN, h.lf, h.rf, List.count_append] at *
      omega
    have step : Sim (hz.lop .dcg op) σ (z.lop op) (fun z' hz' σ' => RepZ .dcg σ' hz' z' ∧ Keeps (LOp.cells [op]) σ σ') := by
      cases op with
      | pushL x => exact Sim.pure ⟨(pushLeft_rep hr x).1, Keeps.refl _ _⟩
      | pushR x => exact Sim.pure ⟨(pushRight_rep hr x).1, Keeps.refl _ _⟩
      | archL lev n =>
        obtain ⟨hz', σ', g1, g2, -, g3⟩ := archiveLeft_run hr lev n (count_nodup fun x => by
          have := hzn x
          simp only [LOp.cells, LOp.name?, archN, nm, tnm, List.count_append] at this ⊢; omega)
        refine ⟨hz', σ', ⟨0, fun f _ => g1 f⟩, g2, g3.mono ?_⟩
        simp [LOp.cells, LOp.name?, archN, nm, tnm]
      | archR lev n =>
        obtain ⟨hz', σ', g1, g2, -, g3⟩ := archiveRight_run hr lev n (count_nodup fun x => by
          have := hzn x
          simp only [LOp.cells, LOp.name?, archN, nm, tnm, List.count_append] at this ⊢; omega)
        refine ⟨hz', σ', ⟨0, fun f _ => g1 f⟩, g2, g3.mono ?_⟩
        simp [LOp.cells, LOp.name?, archN, nm, tnm]
      | popL =>
        have he := Near.left hs
        simp only [HRaz.lop, Raz.lop, HRaz.popLeft, Raz.popLeft, hr.ls.isEmpty, he, Bool.false_eq_true, if_false]
        refine Sim.bind (R := fun b a σ' => RepZ .dcg σ' a.1 b.1 ∧ σ' = σ) ?_ ?_
        · refine (pop_sim hr.ls).bind ?_
          rintro ⟨s, o⟩ ⟨hs, o'⟩ σ3 hpop ⟨q1, q2, rfl⟩
          exact Sim.pure ⟨⟨hr.lf, q1, hr.rs, hr.rf, hr.le, hr.re⟩, rfl⟩
        · rintro ⟨b, _⟩ ⟨a, _⟩ σ' - ⟨h1, rfl⟩
          exact Sim.pure ⟨h1, Keeps.refl _ _⟩
      | popR =>
        have he := Near.right hs
        simp only [HRaz.lop, Raz.lop, HRaz.popRight, Raz.popRight, hr.rs.isEmpty, he, Bool.false_eq_true, if_false]
        refine Sim.bind (R := fun b a σ' => RepZ .dcg σ' a.1 b.1 ∧ σ' = σ) ?_ ?_
        · refine (pop_sim hr.rs).bind ?_
          rintro ⟨s, o⟩ ⟨hs, o'⟩ σ3 hpop ⟨q1, q2, rfl⟩
          exact Sim.pure ⟨⟨hr.lf, hr.ls, q1, hr.rf, hr.le, hr.re⟩, rfl⟩
        · rintro ⟨b, _⟩ ⟨a, _⟩ σ' - ⟨h1, rfl⟩
          exact Sim.pure ⟨h1, Keeps.refl _ _⟩
    refine step.bind ?_
    rintro z1 hz1 σ1 ho ⟨k1, k2⟩
    have h1 := h.lop hs ho
    refine (ih h1 (hl z1 ho) k1 (by rw [cells_cons] at hn; simpa using hn)).mono ?_
    rintro z2 hz2 σ2 - ⟨g1, g2, g3, g4⟩
    refine ⟨g1, ?_, g3, ?_⟩
    · rw [cells_cons, points_cons, ← List.append_assoc, ← Nat.add_assoc]; exact g2
    · rw [cells_cons]
      exact (k2.mono (List.subset_append_left _ _)).trans (g4.mono (List.subset_append_right _ _))

end Iodyn
