import Verif.Proof.EditAddr
import Verif.Proof.EditStep
import Verif.Proof.HeapCross
import Verif.Spec.EditAny
/-
Any edits: with values and over the store.
-/
namespace Iodyn
open Heap
variable {E M : Type}

theorem stack_hand {s : AStack E Nat} (h : s.isEmpty = false) (r : List (Item E)) : atHand (s.side ++ r) = true ∧ atMark (s.side ++ r) = false := by
  obtain ⟨cur, arch⟩ := s
  cases hc : cur.reverse with
  | cons a b => simp [AStack.side, hc, atHand, atMark]
  | nil =>
    cases arch with
    | nil => simp at hc; subst hc; simp [AStack.isEmpty, Stack.isEmpty] at h
    | cons p a => obtain ⟨n, m, v⟩ := p; simp [AStack.side, hc, atHand, atMark]

theorem left_hand (l : List (Bool × TNode (TreeData E M))) : atHand (Cursor.leftSide l) = false := by
  cases l <;> simp [Cursor.leftSide, atHand]
theorem right_hand (l : List (Bool × TNode (TreeData E M))) : atHand (Cursor.rightSide l) = false := by
  cases l <;> simp [Cursor.rightSide, atHand]

theorem hand_left (z : Raz E M) : atHand z.left = !z.lStack.isEmpty := by
  cases he : z.lStack.isEmpty with
  | false => exact (stack_hand he _).1
  | true => rw [Raz.left, side_empty he]; exact left_hand _
theorem hand_right (z : Raz E M) : atHand z.right = !z.rStack.isEmpty := by
  cases he : z.rStack.isEmpty with
  | false => exact (stack_hand he _).1
  | true => rw [Raz.right, side_empty he]; exact right_hand _

theorem popSide_sub {l : List (Item E)} {i : Item E} (h : i ∈ (popSide l).2) : i ∈ l := by
  unfold popSide at h
  split at h <;> simp at h ⊢ <;> tauto

variable [RazMeta E M]

/-- The nearest entry on a side, if the cursor is at an archive point of the tree there. -/
theorem popLeft_shape {z z' : Raz E M} {o : Option E} (hi : ZInv z) (h : z.popLeft = .ok (z', o)) :
    z'.rForest = z.rForest ∧ z'.rStack = z.rStack ∧ Sub (aN .dcg z'.lStack) (aN .dcg z.lStack) ∧ stackPoints z'.lStack ≤ stackPoints z.lStack ∧
      ((z'.lForest.lForest = z.lForest.lForest) ∨
        (atMark z.left = true ∧ ∃ d u us, z.lForest.lForest = (d, u) :: us ∧ z'.lForest.lForest = (Cursor.downRightAll ⟨true, us, u.l, []⟩).lForest)) := by
  unfold Raz.popLeft at h
  split at h
  · rename_i he
    cases hlf : z.lForest.lForest with
    | nil =>
      rw [hi.lf.up_nil hlf] at h
      cases h
      exact ⟨rfl, rfl, Sub.refl _, Nat.le_refl _, .inl hlf⟩
    | cons p us =>
      obtain ⟨d, u⟩ := p
      obtain ⟨lf', a, b, T, u1, u2, u3, u4, -, -⟩ := hi.lf.up_cons hlf
      rw [u1] at h
      simp only [bind, Except.bind, reduceCtorEq, if_false] at h
      have hd : (lf'.downLeftForce .discard).1 = ⟨true, us, u.l, []⟩ := by
        obtain ⟨d', l', t', r'⟩ := lf'
        simp only at u2 u3 u4
        subst u2 u3 u4
        simp [Cursor.downLeftForce]
      rw [hd] at h
      split at h
      · split at h
        · cases h
        · rename_i v heq
          obtain ⟨v1, v2⟩ := v
          cases h
          have h5 := aN_pop (e := .dcg) heq
          have h6 := pop_points heq
          refine ⟨rfl, rfl, ?_, ?_, .inr ⟨?_, d, u, us, rfl, rfl⟩⟩
          · exact h5
          · exact h6
          · rw [Raz.left, side_empty he, hlf]; rfl
      · cases h
  · obtain ⟨⟨s, x⟩, h2, h⟩ := bind_ok.1 h
    cases h
    exact ⟨rfl, rfl, aN_pop (e := .dcg) h2, pop_points h2, .inl rfl⟩

theorem popRight_shape {z z' : Raz E M} {o : Option E} (hi : ZInv z) (h : z.popRight = .ok (z', o)) :
    z'.lForest = z.lForest ∧ z'.lStack = z.lStack ∧ Sub (aN .dcg z'.rStack) (aN .dcg z.rStack) ∧ stackPoints z'.rStack ≤ stackPoints z.rStack ∧
      ((z'.rForest.rForest = z.rForest.rForest) ∨
        (atMark z.right = true ∧ ∃ d u us, z.rForest.rForest = (d, u) :: us ∧ z'.rForest.rForest = (Cursor.downLeftAll ⟨true, [], u.r, us⟩).rForest)) := by
  unfold Raz.popRight at h
  split at h
  · rename_i he
    cases hlf : z.rForest.rForest with
    | nil =>
      rw [hi.rf.up_nil hlf] at h
      cases h
      exact ⟨rfl, rfl, Sub.refl _, Nat.le_refl _, .inl hlf⟩
    | cons p us =>
      obtain ⟨d, u⟩ := p
      obtain ⟨lf', a, b, T, u1, u2, u3, u4, -, -⟩ := hi.rf.up_cons hlf
      rw [u1] at h
      simp only [bind, Except.bind, reduceCtorEq, if_false] at h
      have hd : (lf'.downRightForce .discard).1 = ⟨true, [], u.r, us⟩ := by
        obtain ⟨d', l', t', r'⟩ := lf'
        simp only at u2 u3 u4
        subst u2 u3 u4
        simp [Cursor.downRightForce]
      rw [hd] at h
      split at h
      · split at h
        · cases h
        · rename_i v heq
          obtain ⟨v1, v2⟩ := v
          cases h
          have h5 := aN_pop (e := .dcg) heq
          have h6 := pop_points heq
          refine ⟨rfl, rfl, ?_, ?_, .inr ⟨?_, d, u, us, rfl, rfl⟩⟩
          · exact h5
          · exact h6
          · rw [Raz.right, side_empty he, hlf]; rfl
      · cases h
  · obtain ⟨⟨s, x⟩, h2, h⟩ := bind_ok.1 h
    cases h
    exact ⟨rfl, rfl, aN_pop (e := .dcg) h2, pop_points h2, .inl rfl⟩

/-- What holds for the cursor during edits of the tree `t`; `A` are the addresses of the nodes that may have been written. -/
structure GInvs (t : RazTree E M) (z : Raz E M) (A : List (List Bool)) (N : List Name) (k : Nat) : Prop where
  inv : ZInv z
  canon : ZC z
  closed : Closed A
  left : LeftAt t.tree A z.lForest.lForest
  right : RightAt t.tree A z.rForest.rForest
  marks : ∀ lv n, .mark lv n ∈ Cursor.leftSide z.lForest.lForest ++ Cursor.rightSide z.rForest.rForest → .mark lv n ∈ t.items
  all : Sub (zN .dcg z) (tN .dcg t.tree ++ N)
  names : Sub (aN .dcg z.lStack ++ aN .dcg z.rStack) N
  points : stackPoints z.lStack + stackPoints z.rStack ≤ k

omit [RazMeta E M] in
theorem left_branch {t : Tree (TreeData E M)} {a : List Bool} {lv : Nat} {n : Option Name} {d : TreeData E M} {l r : Tree (TreeData E M)}
    (h : below t a = .node lv n d l r) : below t (a ++ [false]) = l ∧ (l ≠ .nil → l.depth + 1 ≤ t.depth) := by
  refine ⟨by rw [below_append, h]; simp [below], fun hl => ?_⟩
  have := below_depth (t := t) (a := a) (by rw [h]; simp)
  rw [h, depth_node (.inl hl)] at this
  omega

omit [RazMeta E M] in
theorem right_branch {t : Tree (TreeData E M)} {a : List Bool} {lv : Nat} {n : Option Name} {d : TreeData E M} {l r : Tree (TreeData E M)}
    (h : below t a = .node lv n d l r) : below t (a ++ [true]) = r ∧ (r ≠ .nil → r.depth + 1 ≤ t.depth) := by
  refine ⟨by rw [below_append, h]; simp [below], fun hl => ?_⟩
  have := below_depth (t := t) (a := a) (by rw [h]; simp)
  rw [h, depth_node (.inr hl)] at this
  omega

theorem GInvs.lne {t : RazTree E M} {z : Raz E M} {A N k} (h : GInvs t z A N k) : ∀ p ∈ z.lForest.lForest, p.2.l ≠ .nil := by
  intro p hp e
  have := (h.inv.lf.l p hp).2.1
  rw [e] at this
  cases this
theorem GInvs.rne {t : RazTree E M} {z : Raz E M} {A N k} (h : GInvs t z A N k) : ∀ p ∈ z.rForest.rForest, p.2.r ≠ .nil := by
  intro p hp e
  have := (h.inv.rf.r p hp).2.1
  rw [e] at this
  cases this

theorem GInvs.lop {t : RazTree E M} {z z' : Raz E M} {A : List (List Bool)} {N : List Name} {k : Nat} (h : GInvs t z A N k) {op : LOp E} (hs : op.Lifts)
    (ho : z.lop op = .ok z') (hall : Sub (zN .dcg z') (zN .dcg z ++ LOp.cells [op])) : ∃ A', A ⊆ A' ∧ A'.length ≤ A.length + op.crosses z * t.tree.depth ∧
      GInvs t z' A' (N ++ LOp.cells [op]) (k + LOp.points [op]) := by
  have hn := h.names
  have hp := h.points
  have all : Sub (zN .dcg z') (tN .dcg t.tree ++ (N ++ LOp.cells [op])) := fun x => by
    have := hall x
    have := h.all x
    simp only [List.count_append] at *
    omega
  cases op with
  | pushL x =>
    cases ho
    exact ⟨A, List.Subset.refl _, by omega, (pushLeft_ok h.inv x).1, ⟨h.canon.l, h.canon.r⟩, h.closed, h.left, h.right, h.marks, all, by
      rw [show LOp.cells [_] = [] from rfl, List.append_nil]; exact hn, by rw [show LOp.points [_] = 0 from rfl]; exact hp⟩
  | pushR x =>
    cases ho
    exact ⟨A, List.Subset.refl _, by omega, (pushRight_ok h.inv x).1, ⟨h.canon.l, h.canon.r⟩, h.closed, h.left, h.right, h.marks, all, by
      rw [show LOp.cells [_] = [] from rfl, List.append_nil]; exact hn, by rw [show LOp.points [_] = 0 from rfl]; exact hp⟩
  | archL lev n =>
    cases ho
    refine ⟨A, List.Subset.refl _, by omega, (archiveLeft_ok h.inv hs n).1, ⟨h.canon.l, h.canon.r⟩, h.closed, h.left, h.right, h.marks, all, fun x => ?_, ?_⟩
    · have h1 := hn x
      have h2 := aN_archive .dcg z.lStack n lev x
      simp only [Raz.archiveLeft, LOp.cells, LOp.name?, List.count_append, nm, tnm, List.append_nil] at h1 h2 ⊢
      omega
    · have h1 := archive_points z.lStack n lev
      cases n <;> simp only [Raz.archiveLeft, LOp.points, LOp.name?, Option.isSome_none, Option.isSome_some, if_true, Bool.false_eq_true, if_false] at h1 ⊢ <;> omega
  | archR lev n =>
    cases ho
    refine ⟨A, List.Subset.refl _, by omega, (archiveRight_ok h.inv hs n).1, ⟨h.canon.l, h.canon.r⟩, h.closed, h.left, h.right, h.marks, all, fun x => ?_, ?_⟩
    · have h1 := hn x
      have h2 := aN_archive .dcg z.rStack n lev x
      simp only [Raz.archiveRight, LOp.cells, LOp.name?, List.count_append, nm, tnm, List.append_nil] at h1 h2 ⊢
      omega
    · have h1 := archive_points z.rStack n lev
      cases n <;> simp only [Raz.archiveRight, LOp.points, LOp.name?, Option.isSome_none, Option.isSome_some, if_true, Bool.false_eq_true, if_false] at h1 ⊢ <;> omega
  | popL =>
    obtain ⟨⟨z1, o⟩, h1, ho⟩ := bind_ok.1 ho
    cases ho
    obtain ⟨z2, g1, g2, g3, g4⟩ := popLeft_ok h.inv
    rw [h1] at g1
    cases g1
    obtain ⟨s1, s2, s3, s4, s5⟩ := popLeft_shape h.inv h1
    have names : Sub (aN .dcg z'.lStack ++ aN .dcg z'.rStack) (N ++ LOp.cells [LOp.popL (E := E)]) := fun x => by
      have h3 := hn x
      have h4 := s3 x
      rw [s2]
      simp only [List.count_append] at h3 ⊢
      omega
    have points : stackPoints z'.lStack + stackPoints z'.rStack ≤ k + LOp.points [LOp.popL (E := E)] := by rw [s2]; omega
    have marks : ∀ lv n, .mark lv n ∈ Cursor.leftSide z'.lForest.lForest ++ Cursor.rightSide z'.rForest.rForest → .mark lv n ∈ t.items := by
      intro lv n hm
      rcases s5 with s5 | ⟨hm', -⟩
      · rw [s5, s1] at hm; exact h.marks lv n hm
      · rw [s1] at hm
        rcases List.mem_append.1 hm with hm | hm
        · have he : z.lStack.isEmpty = true := by
            by_contra hc
            have := (stack_hand (by simpa using hc) (Cursor.leftSide z.lForest.lForest)).2
            rw [Raz.left, this] at hm'
            cases hm'
          have : .mark lv n ∈ z'.left := List.mem_append_right _ hm
          rw [g3] at this
          have := popSide_sub this
          rw [Raz.left, side_empty he] at this
          exact h.marks lv n (List.mem_append_left _ this)
        · exact h.marks lv n (List.mem_append_right _ hm)
    rcases s5 with s5 | ⟨hm, d, u, us, s5, s6⟩
    · exact ⟨A, List.Subset.refl _, by omega, g2, popLeft_canon h.inv h.canon h1, h.closed, by rw [s5]; exact h.left, by rw [s1]; exact h.right,
        marks, all, names, points⟩
    · obtain ⟨a, ha, d', r', e⟩ := h.left (d, u) (by rw [s5]; simp)
      obtain ⟨b1, b2⟩ := left_branch e
      have b3 := b2 (h.lne (d, u) (by rw [s5]; simp))
      have hus : LeftAt t.tree A us := fun p hp => h.left p (by rw [s5]; exact List.mem_cons_of_mem _ hp)
      have := downRightAll_at (t := t.tree) _ ⟨true, us, u.l, []⟩ (A := A) rfl b1 hus
      refine ⟨A ++ spine (a ++ [false]) true (u.l.depth + 1), List.subset_append_left _ _, ?_, g2, popLeft_canon h.inv h.canon h1,
        h.closed.spine ha _ _ _, by rw [s6]; exact this, by rw [s1]; exact h.right.mono (List.subset_append_left _ _), marks, all, names, points⟩
      simp only [LOp.crosses, hm, if_true, List.length_append, spine_length] at b3 ⊢
      omega
  | popR =>
    obtain ⟨⟨z1, o⟩, h1, ho⟩ := bind_ok.1 ho
    cases ho
    obtain ⟨z2, g1, g2, g3, g4⟩ := popRight_ok h.inv
    rw [h1] at g1
    cases g1
    obtain ⟨s1, s2, s3, s4, s5⟩ := popRight_shape h.inv h1
    have names : Sub (aN .dcg z'.lStack ++ aN .dcg z'.rStack) (N ++ LOp.cells [LOp.popR (E := E)]) := fun x => by
      have h3 := hn x
      have h4 := s3 x
      rw [s2]
      simp only [List.count_append] at h3 ⊢
      omega
    have points : stackPoints z'.lStack + stackPoints z'.rStack ≤ k + LOp.points [LOp.popR (E := E)] := by rw [s2]; omega
    have marks : ∀ lv n, .mark lv n ∈ Cursor.leftSide z'.lForest.lForest ++ Cursor.rightSide z'.rForest.rForest → .mark lv n ∈ t.items := by
      intro lv n hm
      rcases s5 with s5 | ⟨hm', -⟩
      · rw [s5, s1] at hm; exact h.marks lv n hm
      · rw [s1] at hm
        rcases List.mem_append.1 hm with hm | hm
        · exact h.marks lv n (List.mem_append_left _ hm)
        · have he : z.rStack.isEmpty = true := by
            by_contra hc
            have := (stack_hand (by simpa using hc) (Cursor.rightSide z.rForest.rForest)).2
            rw [Raz.right, this] at hm'
            cases hm'
          have : .mark lv n ∈ z'.right := List.mem_append_right _ hm
          rw [g3] at this
          have := popSide_sub this
          rw [Raz.right, side_empty he] at this
          exact h.marks lv n (List.mem_append_right _ this)
    rcases s5 with s5 | ⟨hm, d, u, us, s5, s6⟩
    · exact ⟨A, List.Subset.refl _, by omega, g2, popRight_canon h.inv h.canon h1, h.closed, by rw [s1]; exact h.left, by rw [s5]; exact h.right,
        marks, all, names, points⟩
    · obtain ⟨a, ha, d', r', e⟩ := h.right (d, u) (by rw [s5]; simp)
      obtain ⟨b1, b2⟩ := right_branch e
      have b3 := b2 (h.rne (d, u) (by rw [s5]; simp))
      have hus : RightAt t.tree A us := fun p hp => h.right p (by rw [s5]; exact List.mem_cons_of_mem _ hp)
      have := downLeftAll_at (t := t.tree) _ ⟨true, [], u.r, us⟩ (A := A) rfl b1 hus
      refine ⟨A ++ spine (a ++ [true]) false (u.r.depth + 1), List.subset_append_left _ _, ?_, g2, popRight_canon h.inv h.canon h1,
        h.closed.spine ha _ _ _, by rw [s1]; exact h.left.mono (List.subset_append_left _ _), by rw [s6]; exact this, marks, all, names, points⟩
      simp only [LOp.crosses, hm, if_true, List.length_append, spine_length] at b3 ⊢
      omega

/-- How often the calls themselves cross. -/
def Raz.crossed (z : Raz E M) : List (LOp E) → Nat
  | [] => 0
  | op :: l =>
    match z.lop op with
    | .ok z' => op.crosses z + z'.crossed l
    | .error _ => 0

theorem crossings_eq : ∀ (l : List (LOp E)) {z z' : Raz E M}, z.lops l = .ok z' →
    z.crossings l = z.crossed l + (if atHand z'.left || atHand z'.right then 0 else 1)
  | [], z, z', h => by cases h; simp [Raz.crossings, Raz.crossed]
  | op :: l, z, z', h => by
    obtain ⟨z1, h1, h⟩ := bind_ok.1 h
    simp only [Raz.crossings, Raz.crossed, h1, crossings_eq l h]
    omega

/-- Any edits over the store. -/
theorem lops_any {t : RazTree E M} : ∀ (l : List (LOp E)) {z : Raz E M} {A : List (List Bool)} {N : List Name} {k : Nat} {σ : RMem E M} {hz : HRaz E},
    GInvs t z A N k → (∀ op ∈ l, op.Lifts) → RepZ .dcg σ hz z → (tN .dcg t.tree ++ (N ++ LOp.cells l)).Nodup →
    Sim (hz.lops .dcg l) σ (z.lops l) (fun z' hz' σ' => RepZ .dcg σ' hz' z' ∧ ∃ A', A ⊆ A' ∧ A'.length ≤ A.length + z.crossed l * t.tree.depth ∧
      GInvs t z' A' (N ++ LOp.cells l) (k + LOp.points l) ∧ Keeps (namesAt t.tree A' ++ LOp.cells l) σ σ') := by
  intro l
  induction l with
  | nil =>
    intro z A N k σ hz h hl hr hn
    exact Sim.pure ⟨hr, A, List.Subset.refl _, by omega, by simpa [LOp.cells, LOp.points] using h, Keeps.refl _ _⟩
  | cons op l ih =>
    intro z A N k σ hz h hl hr hn
    have hzn : ∀ x, (zN .dcg z).count x + (LOp.cells (op :: l)).count x ≤ 1 := fun x => by
      have := nodup_count hn x
      have := h.all x
      simp only [List.count_append] at *
      omega
    have hz0 : (zN .dcg z).Nodup := count_nodup fun x => by have := hzn x; omega
    have kl : eN .dcg z.lForest.lForest ++ eN .dcg z.lForest.rForest ⊆ namesAt t.tree A := by
      rw [hr.le]; simpa [eN] using h.left.names
    have kr : eN .dcg z.rForest.lForest ++ eN .dcg z.rForest.rForest ⊆ namesAt t.tree A := by
      rw [hr.re]; simpa [eN] using h.right.names
    have step : Sim (hz.lop .dcg op) σ (z.lop op) (fun z' hz' σ' => RepZ .dcg σ' hz' z' ∧ Sub (zN .dcg z') (zN .dcg z ++ LOp.cells [op]) ∧
        Keeps (namesAt t.tree A ++ LOp.cells [op]) σ σ') := by
      cases op with
      | pushL x => exact Sim.pure ⟨(pushLeft_rep hr x).1, fun x => by simp [zN, Raz.pushLeft, aN_push], Keeps.refl _ _⟩
      | pushR x => exact Sim.pure ⟨(pushRight_rep hr x).1, fun x => by simp [zN, Raz.pushRight, aN_push], Keeps.refl _ _⟩
      | archL lev n =>
        obtain ⟨hz', σ', g1, g2, g3, g4⟩ := archiveLeft_run hr lev n (count_nodup fun x => by
          have := hzn x
          simp only [LOp.cells, LOp.name?, archN, nm, tnm, List.count_append] at this ⊢; omega)
        have e : LOp.cells [LOp.archL (E := E) lev n] = archN .dcg n := by simp [LOp.cells, LOp.name?, archN, nm, tnm]
        rw [e]
        exact ⟨hz', σ', ⟨0, fun f _ => g1 f⟩, g2, g3, g4.mono (List.subset_append_right _ _)⟩
      | archR lev n =>
        obtain ⟨hz', σ', g1, g2, g3, g4⟩ := archiveRight_run hr lev n (count_nodup fun x => by
          have := hzn x
          simp only [LOp.cells, LOp.name?, archN, nm, tnm, List.count_append] at this ⊢; omega)
        have e : LOp.cells [LOp.archR (E := E) lev n] = archN .dcg n := by simp [LOp.cells, LOp.name?, archN, nm, tnm]
        rw [e]
        exact ⟨hz', σ', ⟨0, fun f _ => g1 f⟩, g2, g3, g4.mono (List.subset_append_right _ _)⟩
      | popL =>
        refine (popLeft_fine hr hz0).bind ?_
        rintro ⟨b, _⟩ ⟨a, _⟩ σ' - ⟨h1, -, h2, h3⟩
        exact Sim.pure ⟨h1, Sub.trans h2 (fun x => by simp only [List.count_append]; omega), h3.mono (List.Subset.trans kl (List.subset_append_left _ _))⟩
      | popR =>
        refine (popRight_fine hr hz0).bind ?_
        rintro ⟨b, _⟩ ⟨a, _⟩ σ' - ⟨h1, -, h2, h3⟩
        exact Sim.pure ⟨h1, Sub.trans h2 (fun x => by simp only [List.count_append]; omega), h3.mono (List.Subset.trans kr (List.subset_append_left _ _))⟩
    refine step.bind ?_
    rintro z1 hz1 σ1 ho ⟨k1, k2, k3⟩
    obtain ⟨A1, s1, s2, s3⟩ := h.lop (hl op (by simp)) ho k2
    refine (ih s3 (fun o ho => hl o (List.mem_cons_of_mem _ ho)) k1 (by rw [cells_cons] at hn; simpa using hn)).mono ?_
    rintro z2 hz2 σ2 - ⟨g1, A2, g2, g3, g4, g5⟩
    refine ⟨g1, A2, List.Subset.trans s1 g2, ?_, ?_, ?_⟩
    · simp only [Raz.crossed, ho, Nat.add_mul]
      omega
    · rw [cells_cons, points_cons, ← List.append_assoc, ← Nat.add_assoc]; exact g4
    · rw [cells_cons]
      have m1 : namesAt t.tree A ⊆ namesAt t.tree A2 := namesAt_mono (List.Subset.trans s1 g2)
      refine (k3.mono ?_).trans (g5.mono ?_)
      · exact List.append_subset.2 ⟨fun x hx => List.mem_append_left _ (m1 hx), fun x hx => List.mem_append_right _ (List.mem_append_left _ hx)⟩
      · intro x; simp only [List.mem_append]; tauto

/-- `unfocus` after any edits. -/
theorem close_any {t : RazTree E M} {σ : RMem E M} {hz : HRaz E} {z : Raz E M} {A : List (List Bool)} {N : List Name} {k : Nat} (h : GInvs t z A N k)
    (hr : RepZ .dcg σ hz z) (hn : (tN .dcg t.tree ++ N).Nodup) :
    Sim (hz.unfocus .dcg) σ z.unfocus (fun t' ht' σ' => RepRT .dcg σ' ht' t' ∧ TInv t' ∧ Canon t'.tree ∧ Sub (tN .dcg t'.tree) (tN .dcg t.tree ++ N) ∧
      (t'.tree ≠ .nil → ∃ A', Closed A' ∧ A ⊆ A' ∧ A'.length ≤ A.length + (if atHand z.left || atHand z.right then 0 else 1) * t.tree.depth ∧
        Keeps (namesAt t.tree A' ++ N) σ σ') ∧
      ∀ lv n, .mark lv (some n) ∈ t'.items → (.mark lv (some n) ∈ t.items) ∨ n ∈ pN .dcg z.lStack.archived ++ pN .dcg z.rStack.archived) := by
  have hzn : (zN .dcg z).Nodup := h.all.nodup hn
  have hfN : ∀ {A'}, A ⊆ A' → fN .dcg z ⊆ namesAt t.tree A' ++ N := by
    intro A' hA
    unfold fN
    have m := namesAt_mono (t := t.tree) hA
    exact List.append_subset.2 ⟨List.Subset.trans (List.append_subset.2 ⟨h.left.names, h.right.names⟩) (List.Subset.trans m (List.subset_append_left _ _)),
      List.Subset.trans h.names.subset (List.subset_append_right _ _)⟩
  have main : Sim (hz.unfocus .dcg) σ z.unfocus (fun t' ht' σ' => RepRT .dcg σ' ht' t' ∧ Sub (tN .dcg t'.tree) (zN .dcg z) ∧
      (t'.tree ≠ .nil → ∃ A', Closed A' ∧ A ⊆ A' ∧ A'.length ≤ A.length + (if atHand z.left || atHand z.right then 0 else 1) * t.tree.depth ∧
        Keeps (namesAt t.tree A' ++ N) σ σ')) := by
    rw [hand_left, hand_right]
    by_cases hs : z.lStack.isEmpty = false ∨ z.rStack.isEmpty = false
    · refine (unfocus_fine hr hzn h.inv h.canon hs).mono ?_
      rintro t' ht' σ' - ⟨g1, g2, g3⟩
      exact ⟨g1, g2, fun _ => ⟨A, h.closed, List.Subset.refl _, by omega, g3.mono (hfN (List.Subset.refl _))⟩⟩
    · have e1 : z.lStack.isEmpty = true := by
        cases he : z.lStack.isEmpty with
        | true => rfl
        | false => exact absurd (.inl he) hs
      have e2 : z.rStack.isEmpty = true := by
        cases he : z.rStack.isEmpty with
        | true => rfl
        | false => exact absurd (.inr he) hs
      rw [e1, e2]
      have spm : ∀ {S S' : List Name} {w : Tree (TreeData E M)}, S ⊆ S' → SpR .dcg S w → SpR .dcg S' w := by
        intro S S' w hs
        induction w with
        | nil => exact id
        | node _ _ _ _ _ _ ih => exact fun h => ⟨List.Subset.trans h.1 hs, ih h.2⟩
      have key : ∃ A', Closed A' ∧ A ⊆ A' ∧ A'.length ≤ A.length + t.tree.depth ∧ NextR .dcg (namesAt t.tree A' ++ N) z := by
        cases hlf : z.lForest.lForest with
        | cons p us =>
          obtain ⟨a, ha, d', r', e⟩ := h.left p (by rw [hlf]; simp)
          obtain ⟨b1, b2⟩ := left_branch e
          have b3 := b2 (h.lne p (by rw [hlf]; simp))
          refine ⟨A ++ spine (a ++ [false]) true (p.2.l.depth + 1), h.closed.spine ha _ _ _, List.subset_append_left _ _, ?_, ?_⟩
          · simp only [List.length_append, spine_length]; omega
          · simp only [NextR, hlf]
            exact spm (List.Subset.trans (namesAt_mono (List.subset_append_right _ _)) (List.subset_append_left _ _)) (spine_SpR _ b1)
        | nil =>
          cases hrf : z.rForest.rForest with
          | nil => exact ⟨A, h.closed, List.Subset.refl _, by omega, by simp [NextR, hlf, hrf]⟩
          | cons p us =>
            obtain ⟨a, ha, d', r', e⟩ := h.right p (by rw [hrf]; simp)
            obtain ⟨b1, b2⟩ := right_branch e
            have b3 := b2 (h.rne p (by rw [hrf]; simp))
            refine ⟨A ++ spine (a ++ [true]) true (p.2.r.depth + 1), h.closed.spine ha _ _ _, List.subset_append_left _ _, ?_, ?_⟩
            · simp only [List.length_append, spine_length]; omega
            · simp only [NextR, hlf, hrf]
              exact spm (List.Subset.trans (namesAt_mono (List.subset_append_right _ _)) (List.subset_append_left _ _)) (spine_SpR _ b1)
      obtain ⟨A', c1, c2, c3, c4⟩ := key
      refine (unfocus_cross hr hzn h.inv h.canon e1 e2 (hfN c2) c4).mono ?_
      rintro t' ht' σ' - ⟨g1, g2, g3⟩
      exact ⟨g1, g2, fun hne => ⟨A', c1, c2, by simpa using c3, g3 hne⟩⟩
  refine main.mono ?_
  rintro t' ht' σ' hu ⟨g1, g2, g3⟩
  obtain ⟨t2, u1, u2, u3⟩ := unfocus_inv h.inv
  rw [hu] at u1
  cases u1
  refine ⟨g1, u2, unfocus_canon h.inv h.canon hu, Sub.trans g2 h.all, g3, ?_⟩
  intro lv n hm
  rw [u3] at hm
  obtain ⟨i, hi, hs'⟩ := List.mem_map.1 hm
  simp only [List.mem_append]
  rcases glue_mem hi with hi | hi
  · rcases List.mem_append.1 hi with hi | hi
    · exact .inr (.inl (side_mark hi hs'))
    · rw [leftSide_settle hi] at hs'
      subst hs'
      exact .inl (h.marks _ _ (List.mem_append_left _ hi))
  · rcases List.mem_append.1 hi with hi | hi
    · exact .inr (.inr (side_mark hi hs'))
    · rw [rightSide_settle hi] at hs'
      subst hs'
      exact .inl (h.marks _ _ (List.mem_append_right _ hi))

/-- A whole edit that does not leave the sequence empty. -/
theorem edit_any [LawfulMeta E M] {σ : RMem E M} {ht : HTree M} {t t' : RazTree E M} (h : RepRT .dcg σ ht t) (hi : TInv t) (hc : Canon t.tree)
    {i : RazMeta.Index E M} {ops : List (LOp E)} {z : Raz E M} (hf : t.focus i = .ok (some z)) (hl : ∀ op ∈ ops, op.Lifts)
    (hn : (tN .dcg t.tree ++ LOp.cells ops).Nodup) (he : t.edit i ops = .ok t') (hne : t'.tree ≠ .nil) :
    ∃ ht' σ', (∃ f0, ∀ f ≥ f0, ht.edit .dcg i ops f σ = .ok (ht', σ')) ∧ RepRT .dcg σ' ht' t' ∧
      ∃ S, Edited t t' ops ((1 + z.crossings ops) * t.tree.depth + LOp.points ops) S σ σ' := by
  have main : Sim (ht.edit .dcg i ops) σ (t.edit i ops) (fun t' ht' σ' => RepRT .dcg σ' ht' t' ∧ (t'.tree ≠ .nil →
      ∃ S, Edited t t' ops ((1 + z.crossings ops) * t.tree.depth + LOp.points ops) S σ σ')) := by
    unfold HTree.edit RazTree.edit
    refine (focus_sim h i).bind ?_
    rintro b a σ1 hf' ⟨hcase, rfl⟩
    rw [hf] at hf'
    cases hf'
    rcases hcase with ⟨h0, rfl⟩ | ⟨z1, hz, h0, rfl, hr, hsub⟩
    · cases h0
    · cases h0
      refine Sim.step (fun f => rfl) ?_
      obtain ⟨k1, k2, -⟩ := focus_ok hi.wf hf
      have k3 := focus_canon hc hf
      obtain ⟨⟨A, p1, p2, p3, p4⟩, p5, p6⟩ := focus_addr hf
      have inv : GInvs t z A [] 0 := ⟨k1, k3, p1, p3, p4, by
          intro lv n hm
          rw [← k2]
          simp only [List.mem_append, List.mem_reverse, Raz.left, Raz.right] at hm ⊢
          tauto, by rw [List.append_nil]; exact hsub, fun x => by simp [aN, p5, p6, sN, pN], by simp [stackPoints, p5, p6, pN]⟩
      refine (lops_any ops inv hl hr (by simpa using hn)).bind ?_
      rintro z' hz' σ2 hlo ⟨g1, A1, g2, g3, g4, g5⟩
      simp only [List.nil_append, Nat.zero_add] at g4
      refine (close_any g4 g1 hn).mono ?_
      rintro t' ht' σ3 - ⟨q1, q2, q3, q4, q5, q6⟩
      refine ⟨q1, fun hne => ?_⟩
      obtain ⟨A2, r1, r2, r3, r4⟩ := q5 hne
      have hpn : pN .dcg z'.lStack.archived ++ pN .dcg z'.rStack.archived ⊆ LOp.cells ops := by
        refine List.Subset.trans (Sub.subset fun x => ?_) g4.names.subset
        simp only [aN, List.count_append]; omega
      refine ⟨namesAt t.tree A2 ++ (pN .dcg z'.lStack.archived ++ pN .dcg z'.rStack.archived), q2, q3, hne, q4, ?_, ?_, ?_, ?_⟩
      · have e1 := namesAt_length t.tree A2
        have e3 := g4.points
        have e4 := crossings_eq ops hlo
        simp only [stackPoints] at e3
        rw [e4]
        simp only [List.length_append, Nat.add_mul]
        omega
      · have m := namesAt_mono (t := t.tree) r2
        refine (g5.mono ?_).trans (r4.mono ?_)
        · intro x hx
          simp only [List.mem_append] at hx ⊢
          rcases hx with hx | hx
          · exact .inl (.inl (m hx))
          · exact .inr hx
        · intro x; simp only [List.mem_append]; tauto
      · intro lv n hm
        rcases q6 lv n hm with hm | hm
        · exact .inl hm
        · exact .inr ⟨List.mem_append_right _ hm, hpn hm⟩
      · intro lv n d l r hw hns x hx
        have h1 := r1.beside (List.Nodup.of_append_left hn) hw (fun hx => hns (List.mem_append_left _ hx))
        have h2 : x ∉ LOp.cells ops := by
          intro hx'
          have a1 := List.count_pos_iff.2 (subs_names hw hx)
          have a2 := List.count_pos_iff.2 hx'
          have := nodup_count hn x
          simp only [List.count_append] at this
          omega
        rw [List.mem_append, List.mem_append]
        rintro ((hx' | hx') | hx')
        · exact h1 x hx hx'
        · exact h2 (hpn hx')
        · exact h2 hx'
  rw [he] at main
  obtain ⟨ht', σ', g1, g2, g3⟩ := main
  exact ⟨ht', σ', g1, g2, g3 hne⟩

end Iodyn
