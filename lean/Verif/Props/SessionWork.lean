import Verif.Spec.SessionWork
import Verif.Proof.FreshRun
import Verif.Props.MeanDriver
/-
C106 the work of whole sessions of the test driver: the first computation exactly, and all others together in the mean.
-/
namespace Iodyn.Incr
open Iodyn.Heap Iodyn.Eval
variable {E F N A B Sp G : Type}

/-! ### The size of the first tree -/

/-- Whether the item next to the cursor is an archive point. -/
def markFirst : List (Item E) → Bool
  | [] => false
  | i :: _ => i.isMark

theorem succ_div_mod (c dg : Nat) : (c + 1) / dg = c / dg + if (c + 1) % dg = 0 then 1 else 0 := by
  rw [Nat.succ_div]
  simp only [Nat.dvd_iff_mod_eq_zero]

theorem plan_marks {dg : Nat} (hd : dg ≠ 0) : ∀ (xs : List E) (c : Nat) (ls : List Nat) (ns : List (Option Name)) (s : List (Item E) × List (Item E)),
    (c + xs.length) / dg - c / dg ≤ ls.length → (c + xs.length) / dg - c / dg ≤ ns.length → markFirst s.1 = decide (c ≠ 0 ∧ c % dg = 0) →
    (levelsOf (onSides s (planLoop dg xs c ls ns)).1).length = (levelsOf s.1).length + ((c + xs.length) / dg - c / dg) ∧
    markFirst (onSides s (planLoop dg xs c ls ns)).1 = decide (c + xs.length ≠ 0 ∧ (c + xs.length) % dg = 0)
  | [], c, ls, ns, s, _, _, h3 => by
    simp only [planLoop, onSides, List.length_nil, Nat.add_zero, Nat.sub_self]
    exact ⟨trivial, h3⟩
  | x :: xs, c, ls, ns, s, h1, h2, h3 => by
    have e : c + (x :: xs).length = c + 1 + xs.length := by simp only [List.length_cons]; omega
    have hdiv := succ_div_mod c dg
    have hmono : (c + 1) / dg ≤ (c + 1 + xs.length) / dg := Nat.div_le_div_right (by omega)
    rw [e] at h1 h2 ⊢
    unfold planLoop
    by_cases hm : (c + 1) % dg = 0
    · rw [if_pos hm] at hdiv ⊢
      rcases ls with _ | ⟨l, ls⟩
      · simp only [List.length_nil] at h1; omega
      rcases ns with _ | ⟨n, ns⟩
      · simp only [List.length_nil] at h2; omega
      simp only [List.length_cons] at h1 h2
      have ih := plan_marks hd xs (c + 1) ls ns (.pend l n :: .elem x :: s.1, s.2) (by omega) (by omega) (by simp [markFirst, Item.isMark, hm])
      simp only [planArch, onSides, LOp.onSides, archiveSide]
      refine ⟨?_, ih.2⟩
      rw [ih.1]
      have : (levelsOf (.pend l n :: .elem x :: s.1)).length = (levelsOf s.1).length + 1 := rfl
      simp only [this]
      omega
    · rw [if_neg hm] at hdiv ⊢
      have ih := plan_marks hd xs (c + 1) ls ns (.elem x :: s.1, s.2) (by omega) (by omega) (by simp [markFirst, Item.isMark, hm])
      simp only [onSides, LOp.onSides]
      refine ⟨?_, ih.2⟩
      rw [ih.1]
      have : (levelsOf (.elem x :: s.1)).length = (levelsOf s.1).length := rfl
      simp only [this]
      omega

theorem levels_mark {i : Item E} (l : List (Item E)) : (levelsOf (i :: l)).length = (levelsOf l).length + if i.isMark then 1 else 0 := by
  cases i <;> rfl

/-- The archive points of the sequence at the start: one after every `datagauge` elements, but none at the end. -/
theorem start_points (C : Coord G E) {p : Params} (hd : p.datagauge ≠ 0) (hs : 0 < p.size) (coord : G) :
    (levelsOf (startSketch C p coord).items).length = (p.size - 1) / p.datagauge := by
  obtain ⟨h1, h2⟩ := plan_marks hd (genData C p.size coord).1 0 (List.range' 0 (p.size / p.datagauge)) (Iodyn.titles 0 (p.size / p.datagauge)) ([], [])
    (by rw [genData_length]; simp) (by rw [genData_length, Iodyn.titles_length]; simp) rfl
  have h3 := (plan_elems p.datagauge (genData C p.size coord).1 0 (List.range' 0 (p.size / p.datagauge)) (Iodyn.titles 0 (p.size / p.datagauge)) ([], [])).2
  have hdiv := succ_div_mod (p.size - 1) p.datagauge
  rw [show p.size - 1 + 1 = p.size by omega] at hdiv
  rw [genData_length] at h1 h2
  simp only [Nat.zero_add, Nat.zero_div, Nat.sub_zero] at h1 h2
  unfold startSketch closed startOps
  simp only
  rw [settle_levels]
  generalize onSides ([], []) (planLoop p.datagauge (genData C p.size coord).1 0 (List.range' 0 (p.size / p.datagauge)) (Iodyn.titles 0 (p.size / p.datagauge))) = s at *
  obtain ⟨a, b⟩ := s
  simp only at h1 h2 h3
  subst h3
  have h0 : (levelsOf ([] : List (Item E))).length = 0 := rfl
  rw [h0] at h1
  cases a with
  | nil =>
    rw [h0] at h1
    simp only [glue]
    rw [h0]
    rw [Nat.zero_add] at h1; rw [← h1] at hdiv; exact (Nat.eq_zero_of_add_eq_zero_right hdiv.symm).symm
  | cons i a =>
    rw [levels_mark] at h1
    simp only [markFirst] at h2
    by_cases hm : p.size % p.datagauge = 0
    · rw [if_pos hm] at hdiv
      rw [decide_eq_true ⟨by omega, hm⟩] at h2
      simp only [glue, h2, if_true]
      rw [levelsOf_reverse, List.length_reverse]
      rw [if_pos h2] at h1
      omega
    · rw [if_neg hm] at hdiv
      rw [decide_eq_false fun h => hm h.2] at h2
      simp only [glue, h2, Bool.false_eq_true, if_false]
      rw [levelsOf_reverse, List.length_reverse, levels_mark, h2]
      simp only [h2, Bool.false_eq_true, if_false] at h1 ⊢
      omega

theorem first_size [DecidableEq E] {run : HTree Count → Sp → HR E Count (A × Nat × Sp)} {val : RazTree E Count → P B} {new : Sp} {C : Coord G E} {p : Params}
    (hd : p.datagauge ≠ 0) (hs : 0 < p.size) {coord : G} {f : Nat → Nat} {x : A × Nat × Sp} (h : FirstRun run val new ((startSketch C p coord).items.map (Item.at f)) x) :
    ∃ (t : RazTree E Count) (v : Tree (Tr × TreeData E Count)) (ht : HTree Count) (h : Tr) (σ : RMem E Count) (b : B), ht.tree = some h ∧
      Runs (run ht new) σ x σ ∧ View σ (some h) v ∧ plain v = t.tree ∧ t.tree ≠ .nil ∧ (nodeNames v).Nodup ∧ val t = .ok b ∧
      v.size = 2 * ((p.size - 1) / p.datagauge) + 1 := by
  obtain ⟨t, v, ht, σ, b, h1, h2, h3, h4, h5, h6, h7, h8⟩ := h
  obtain ⟨h, hh⟩ := view_root h2 h3 h4
  refine ⟨t, v, ht, h, σ, b, hh, h1, hh ▸ h2, h3, h4, h6, h7, ?_⟩
  rw [← plain_size, h3, tree_size (h5.wf.resolve_left h4)]
  have : t.tree.items = _ := h8
  rw [this, at_levels, List.length_map, start_points C hd hs]

theorem Runs.unique {M : Type} {m : HR E M A} {σ σ1 σ2 : RMem E M} {a b : A} (h : Runs m σ a σ1) (h' : Runs m σ b σ2) : a = b := by
  obtain ⟨f, h⟩ := h
  obtain ⟨g, h'⟩ := h'
  have h1 := h (max f g) (Nat.le_max_left _ _)
  rw [h' (max f g) (Nat.le_max_right _ _)] at h1
  cases h1
  rfl

theorem elim_sum (l : List (A × Nat × Sp)) : (l.map (·.2.1)).sum = ∑ j ∈ Finset.range l.length, (l[j]?.elim 0 fun a => a.2.1) := by
  induction l with
  | nil => rfl
  | cons a l ih => rw [List.map_cons, List.sum_cons, ih, List.length_cons, Finset.sum_range_succ']; simp [Nat.add_comm]

/-- From each of the means to the mean of the sum. -/
theorem later_mean {p : Params} {n : Nat} {outs : (Fin n → Fin (2 ^ 64)) → List (A × Nat × Sp)} (hl : ∀ w, (outs w).length = p.changes + 1)
    (hj : ∀ j : Nat, ∑ w, ((outs w)[j + 1]?.elim 0 fun a => a.2.1) ≤ (2 ^ 64) ^ n *
        (2 * (2 * (Nat.clog 2 (p.size / p.datagauge + j * (p.batch / p.datagauge + 1)) + 1) + (p.batch / p.datagauge + 1)) + 1)) :
    ∑ w, laterWork (outs w) ≤ (2 ^ 64) ^ n * (p.changes * perChange p) := by
  have h1 : ∀ w, laterWork (outs w) = ∑ j ∈ Finset.range p.changes, ((outs w)[j + 1]?.elim 0 fun a => a.2.1) := fun w => by
    unfold laterWork
    rw [elim_sum, List.length_tail, hl, Nat.add_sub_cancel]
    simp only [List.getElem?_tail]
  simp only [h1]
  rw [Finset.sum_comm]
  calc _ ≤ ∑ _j ∈ Finset.range p.changes, (2 ^ 64) ^ n * perChange p := Finset.sum_le_sum fun j h => by
        refine Nat.le_trans (hj j) (Nat.mul_le_mul_left _ ?_)
        have h2 : j * (p.batch / p.datagauge + 1) ≤ p.changes * (p.batch / p.datagauge + 1) := Nat.mul_le_mul_right _ (Nat.le_of_lt (Finset.mem_range.1 h))
        have h3 : Nat.clog 2 (p.size / p.datagauge + j * (p.batch / p.datagauge + 1)) ≤ Nat.clog 2 (drawsOf p) := Nat.clog_mono_right _ (by unfold drawsOf; omega)
        unfold perChange
        omega
    _ = _ := by rw [Finset.sum_const, Finset.card_range, smul_eq_mul]; ring

theorem first_exact [DecidableEq E] {run : HTree Count → Sp → HR E Count (A × Nat × Sp)} {val : RazTree E Count → P B} {Rel : B → A → Sp → Prop}
    {Hist : Sp → List (Tree (Tr × TreeData E Count)) → Prop} (hR : Reuses run val Rel Hist) {new : Sp} (hnew : Hist new [])
    (hv : ∀ t : RazTree E Count, t.Reachable .edit → ∃ b, val t = .ok b)
    (hF : ∀ {t : RazTree E Count} {v : Tree (Tr × TreeData E Count)} {ht : HTree Count} {h : Tr} {σ : RMem E Count} {b : B} {x : A × Nat × Sp}, ht.tree = some h →
      Runs (run ht new) σ x σ → View σ (some h) v → plain v = t.tree → t.tree ≠ .nil → (nodeNames v).Nodup → val t = .ok b → x.2.1 = v.size)
    {C : Coord G E} {p : Params} (hp : InRange p) (hg : p.namegauge = 1) (hs : 0 < p.size) (h0 : 0 < p.batch) {o : Edit} (ho : Possible p o) {coord : G} {n : Nat}
    (hn : drawsOf p ≤ n) {w : Fin n → Fin (2 ^ 64)} {outs : List (A × Nat × Sp)} {d : Nat}
    (h : Ends (sessionH C (reads w) p coord 0 (editH C (reads w) o) (keeping run) new) (.ok (outs, d))) :
    firstWork outs = 2 * ((p.size - 1) / p.datagauge) + 1 := by
  have hos : o.size = p.batch := by
    rcases ho with ⟨rfl, -⟩ | rfl <;> rfl
  have hm : p.size + p.changes * p.batch < usizeMax := by
    have := hp.counters
    rw [Nat.mul_add] at this
    omega
  obtain ⟨as, rng', k1, -⟩ := sessionV_total C (reads w) p coord 0 hp ho (scratch := withTree val) (Q := fun _ _ => True) (fun t hr => by
    obtain ⟨b, hb⟩ := hv t hr
    exact ⟨(t, b), bind_ok.2 ⟨b, hb, rfl⟩, trivial⟩)
  obtain ⟨outs', e1, -, -, x, e2, e3⟩ := session_along hR hnew hg hs hos h0 hn hm k1
  have := h.unique e1
  simp only [Except.ok.injEq, Prod.mk.injEq] at this
  obtain ⟨t, v, ht, h, σ, b, q1, q2, q3, q4, q5, q6, q7, q8⟩ := first_size hp.datagauge hs e3
  unfold firstWork
  rw [this.1, e2]
  simp only [Option.elim]
  rw [hF q1 q2 q3 q4 q5 q6 q7, q8]

/-! ### The theorems -/

/-- **C106, folds.** -/
theorem C106_fold [DecidableEq E] [DecidableEq B] {c : Fun E B} (hassoc : ∀ x y z, c.bin (c.bin x y) z = c.bin x (c.bin y z)) {q : Name} (C : Coord G E) {p : Params}
    (hp : InRange p) (hg : p.namegauge = 1) (hs : 0 < p.size) (h0 : 0 < p.batch) {o : Edit} (ho : Possible p o) (coord : G) {n : Nat} (hn : drawsOf p ≤ n)
    (h63 : n ≤ 2 ^ 63) :
    ∃ outs : (Fin n → Fin (2 ^ 64)) → List (Option B × Nat × RTable E Count B),
      (∀ w, Ends (sessionH C (reads w) p coord 0 (editH C (reads w) o) (keeping (refold c.fns q)) Table.empty) (.ok (outs w, drawsOf p)) ∧
        Matches C p coord o (fun xs a => a.1 = fold1 c.bin (xs.map c.init)) (outs w) ∧ firstWork (outs w) = 2 * ((p.size - 1) / p.datagauge) + 1) ∧
      ∑ w, laterWork (outs w) ≤ (2 ^ 64) ^ n * (p.changes * perChange p) := by
  obtain ⟨outs, h1, h2⟩ := C87_fold hassoc (q := q) C hp hg hs h0 ho coord hn h63
  refine ⟨outs, fun w => ⟨(h1 w).1, (h1 w).2, ?_⟩, later_mean (fun w => (h1 w).2.1) h2⟩
  refine first_exact (fold_reuses c.fns q) ⟨.start, fun _ => rfl⟩ (fun t hr => ⟨_, C10_fold_up_edited_partial (Reach.mono (by simp [Usage.edit]) (by simp [Usage.edit]) hr) c.init c.bin hassoc⟩)
    ?_ hp hg hs h0 ho hn (h1 w).1
  intro t v ht h σ b x a1 a2 a3 a4 a5 a6 a7
  obtain ⟨y, rfl⟩ := fold_some a5 a7
  rw [← a4] at a7
  obtain ⟨r, r1, -, r3, -⟩ := C58_update (F := fun _ => c.fns) (T := Table.empty) (p := q) (fun _ => rfl) a3 a6 a7
  rw [Runs.unique a2 (refold_runs a1 r1)]
  exact r3

/-- **C106, maps.** -/
theorem C106_map [DecidableEq E] [RazMeta F N] [DecidableEq F] [DecidableEq N] {f : E → F} (C : Coord G E) {p : Params}
    (hp : InRange p) (hg : p.namegauge = 1) (hs : 0 < p.size) (h0 : 0 < p.batch) {o : Edit} (ho : Possible p o) (coord : G) {n : Nat} (hn : drawsOf p ≤ n)
    (h63 : n ≤ 2 ^ 63) :
    ∃ outs : (Fin n → Fin (2 ^ 64)) → List (HTree N × Nat × RSpace E Count F N),
      (∀ w, Ends (sessionH C (reads w) p coord 0 (editH C (reads w) o) (keeping (countedMap f)) Space.empty) (.ok (outs w, drawsOf p)) ∧
        Matches C p coord o (fun xs a => ∃ t : RazTree F N, Holds a.2.2.mem a.1 t ∧ t.elems = xs.map f) (outs w) ∧
        firstWork (outs w) = 2 * ((p.size - 1) / p.datagauge) + 1) ∧
      ∑ w, laterWork (outs w) ≤ (2 ^ 64) ^ n * (p.changes * perChange p) := by
  obtain ⟨outs, h1, h2⟩ := C87_map (N := N) (f := f) C hp hg hs h0 ho coord hn h63
  refine ⟨outs, fun w => ⟨(h1 w).1, (h1 w).2, ?_⟩, later_mean (fun w => (h1 w).2.1) h2⟩
  refine first_exact (map_reuses f) .start (fun t hr => (C15_map (N := N) hr f).imp fun _ h => h.1) ?_ hp hg hs h0 ho hn (h1 w).1
  intro t v ht h σ b x a1 a2 a3 a4 a5 a6 a7
  obtain ⟨f0, a2⟩ := a2
  have a2 := a2 f0 (Nat.le_refl _)
  unfold countedMap at a2
  rw [a1] at a2
  split at a2
  · cases a2
  · simp only at a2
    split at a2
    · rename_i o' ho'
      cases a2
      rw [mapBody_up] at ho'
      exact up_fresh (mapNode_quiet _) a3 a6 ho'
    · cases a2

/-- **C106, reverse and filter.** -/
theorem C106_rebuild [DecidableEq E] [RazMeta E N] [DecidableEq N] {c : Rebuild E} (C : Coord G E) {p : Params}
    (hp : InRange p) (hg : p.namegauge = 1) (hs : 0 < p.size) (h0 : 0 < p.batch) {o : Edit} (ho : Possible p o) (coord : G) {n : Nat} (hn : drawsOf p ≤ n)
    (h63 : n ≤ 2 ^ 63) :
    ∃ outs : (Fin n → Fin (2 ^ 64)) → List (Option (HTree N) × Nat × GSpace E Count N),
      (∀ w, Ends (sessionH C (reads w) p coord 0 (editH C (reads w) o) (keeping (countedRebuild c)) Space.empty) (.ok (outs w, drawsOf p)) ∧
        Matches C p coord o (fun xs a => ∃ x, ∃ t : RazTree E N, a.1 = some x ∧ Holds a.2.2.mem x t ∧ t.elems = c.list xs) (outs w) ∧
        firstWork (outs w) = 2 * ((p.size - 1) / p.datagauge) + 1) ∧
      ∑ w, laterWork (outs w) ≤ (2 ^ 64) ^ n * (p.changes * perChange p) := by
  obtain ⟨outs, h1, h2⟩ := C87_rebuild (N := N) (c := c) C hp hg hs h0 ho coord hn h63
  refine ⟨outs, fun w => ⟨(h1 w).1, (h1 w).2, ?_⟩, later_mean (fun w => (h1 w).2.1) h2⟩
  refine first_exact (rebuild_reuses c) .start (fun t hr => Heap.rebuild_ok (N := N) c hr.any) ?_ hp hg hs h0 ho hn (h1 w).1
  intro t v ht h σ b x a1 a2 a3 a4 a5 a6 a7
  obtain ⟨f0, a2⟩ := a2
  have a2 := a2 f0 (Nat.le_refl _)
  unfold countedRebuild at a2
  rw [a1] at a2
  split at a2
  · cases a2
  · simp only at a2
    split at a2
    · rename_i o' ho'
      cases a2
      exact up_fresh (rebuild_quiet c) a3 a6 ho'
    · cases a2

/-! ### The examples without arguments -/

/-- The parameters of most examples if none are given (eval/examples/max.rs:55-59, filter.rs:55-59, reverse.rs:55-59, to_string.rs:55-59). -/
def usual : Params := ⟨1000000, 1000, 1, 1, 30⟩

/-- The parameters of eval/examples/crossover.rs if none are given (:26-30, 59-63). -/
def crossing : Params := ⟨1000000, 100, 1, 1, 30⟩

theorem usual_range : InRange usual := ⟨by decide, by decide, by decide, by decide⟩
theorem crossing_range : InRange crossing := ⟨by decide, by decide, by decide, by decide⟩

/-- Less in the mean than the first computation. -/
theorem later_less {n a b : Nat} {outs : (Fin n → Fin (2 ^ 64)) → List (A × Nat × Sp)} (h1 : ∀ w, firstWork (outs w) = b)
    (h2 : ∑ w, laterWork (outs w) ≤ (2 ^ 64) ^ n * a) (h : a < b) : ∑ w, laterWork (outs w) < ∑ w, firstWork (outs w) := by
  refine Nat.lt_of_le_of_lt h2 ?_
  simp only [h1]
  rw [Finset.sum_const, smul_eq_mul, Finset.card_univ, Fintype.card_fun, Fintype.card_fin, Fintype.card_fin]
  exact Nat.mul_lt_mul_of_pos_left h (Nat.pow_pos (by decide))

/-- **C106, folds as in max.rs without arguments.** The first fold visits 1999 nodes; the folds after all 30 insertions together visit at most 1530 in the mean. -/
theorem C106_fold_usual [DecidableEq E] [DecidableEq B] {c : Fun E B} (hassoc : ∀ x y z, c.bin (c.bin x y) z = c.bin x (c.bin y z)) {q : Name} (C : Coord G E) (coord : G) :
    ∃ outs : (Fin 1030 → Fin (2 ^ 64)) → List (Option B × Nat × RTable E Count B),
      (∀ w, Ends (sessionH C (reads w) usual coord 0 (editH C (reads w) (.insert 1)) (keeping (refold c.fns q)) Table.empty) (.ok (outs w, 1030)) ∧
        Matches C usual coord (.insert 1) (fun xs a => a.1 = fold1 c.bin (xs.map c.init)) (outs w) ∧ firstWork (outs w) = 1999) ∧
      ∑ w, laterWork (outs w) ≤ (2 ^ 64) ^ 1030 * 1530 ∧ ∑ w, laterWork (outs w) < ∑ w, firstWork (outs w) := by
  obtain ⟨outs, h1, h2⟩ := C106_fold hassoc (q := q) C usual_range rfl (by decide) (by decide) (o := .insert 1) (.inl ⟨rfl, .inl (by decide)⟩) coord (n := 1030)
    (by decide) (by decide)
  rw [show usual.changes * perChange usual = 1530 by decide +kernel] at h2
  exact ⟨outs, h1, h2, later_less (fun w => (h1 w).2.2) h2 (by decide)⟩

/-- **C106, folds as in crossover.rs without arguments.** The first fold visits 19999 nodes; the folds after all 30 insertions together visit at most 1890 in the mean. -/
theorem C106_fold_crossing [DecidableEq E] [DecidableEq B] {c : Fun E B} (hassoc : ∀ x y z, c.bin (c.bin x y) z = c.bin x (c.bin y z)) {q : Name} (C : Coord G E) (coord : G) :
    ∃ outs : (Fin 10030 → Fin (2 ^ 64)) → List (Option B × Nat × RTable E Count B),
      (∀ w, Ends (sessionH C (reads w) crossing coord 0 (editH C (reads w) (.insert 1)) (keeping (refold c.fns q)) Table.empty) (.ok (outs w, 10030)) ∧
        Matches C crossing coord (.insert 1) (fun xs a => a.1 = fold1 c.bin (xs.map c.init)) (outs w) ∧ firstWork (outs w) = 19999) ∧
      ∑ w, laterWork (outs w) ≤ (2 ^ 64) ^ 10030 * 1890 ∧ ∑ w, laterWork (outs w) < ∑ w, firstWork (outs w) := by
  obtain ⟨outs, h1, h2⟩ := C106_fold hassoc (q := q) C crossing_range rfl (by decide) (by decide) (o := .insert 1) (.inl ⟨rfl, .inl (by decide)⟩) coord (n := 10030)
    (by decide) (by decide)
  rw [show crossing.changes * perChange crossing = 1890 by decide +kernel] at h2
  exact ⟨outs, h1, h2, later_less (fun w => (h1 w).2.2) h2 (by decide)⟩

/-- **C106, maps as in to_string.rs without arguments.** -/
theorem C106_map_usual [DecidableEq E] [RazMeta F N] [DecidableEq F] [DecidableEq N] {f : E → F} (C : Coord G E) (coord : G) :
    ∃ outs : (Fin 1030 → Fin (2 ^ 64)) → List (HTree N × Nat × RSpace E Count F N),
      (∀ w, Ends (sessionH C (reads w) usual coord 0 (editH C (reads w) (.insert 1)) (keeping (countedMap f)) Space.empty) (.ok (outs w, 1030)) ∧
        Matches C usual coord (.insert 1) (fun xs a => ∃ t : RazTree F N, Holds a.2.2.mem a.1 t ∧ t.elems = xs.map f) (outs w) ∧ firstWork (outs w) = 1999) ∧
      ∑ w, laterWork (outs w) ≤ (2 ^ 64) ^ 1030 * 1530 ∧ ∑ w, laterWork (outs w) < ∑ w, firstWork (outs w) := by
  obtain ⟨outs, h1, h2⟩ := C106_map (N := N) (f := f) C usual_range rfl (by decide) (by decide) (o := .insert 1) (.inl ⟨rfl, .inl (by decide)⟩) coord (n := 1030)
    (by decide) (by decide)
  rw [show usual.changes * perChange usual = 1530 by decide +kernel] at h2
  exact ⟨outs, h1, h2, later_less (fun w => (h1 w).2.2) h2 (by decide)⟩

/-- **C106, reverse.rs and filter.rs without arguments.** -/
theorem C106_rebuild_usual [DecidableEq E] [RazMeta E N] [DecidableEq N] {c : Rebuild E} (C : Coord G E) (coord : G) :
    ∃ outs : (Fin 1030 → Fin (2 ^ 64)) → List (Option (HTree N) × Nat × GSpace E Count N),
      (∀ w, Ends (sessionH C (reads w) usual coord 0 (editH C (reads w) (.insert 1)) (keeping (countedRebuild c)) Space.empty) (.ok (outs w, 1030)) ∧
        Matches C usual coord (.insert 1) (fun xs a => ∃ x, ∃ t : RazTree E N, a.1 = some x ∧ Holds a.2.2.mem x t ∧ t.elems = c.list xs) (outs w) ∧
        firstWork (outs w) = 1999) ∧
      ∑ w, laterWork (outs w) ≤ (2 ^ 64) ^ 1030 * 1530 ∧ ∑ w, laterWork (outs w) < ∑ w, firstWork (outs w) := by
  obtain ⟨outs, h1, h2⟩ := C106_rebuild (N := N) (c := c) C usual_range rfl (by decide) (by decide) (o := .insert 1) (.inl ⟨rfl, .inl (by decide)⟩) coord (n := 1030)
    (by decide) (by decide)
  rw [show usual.changes * perChange usual = 1530 by decide +kernel] at h2
  exact ⟨outs, h1, h2, later_less (fun w => (h1 w).2.2) h2 (by decide)⟩

/-! ### Cases that meet the conditions -/

/-- The session of 40 elements with archive points after every second one, with 28 random numbers: 39 nodes at first; the four folds after the edits together visit at
most 116 in the mean. -/
example : ∃ outs : (Fin 28 → Fin (2 ^ 64)) → List (Option Nat × Nat × RTable Nat Count Nat),
    (∀ w, Ends (sessionH exCoord (reads w) exLong 0 0 (editH exCoord (reads w) (.insert 2)) (keeping (refold sumF.fns (.str "sum"))) Table.empty)
        (.ok (outs w, 28)) ∧ firstWork (outs w) = 39) ∧
    ∑ w, laterWork (outs w) ≤ (2 ^ 64) ^ 28 * 116 := by
  obtain ⟨outs, h1, h2⟩ := C106_fold (c := sumF) (q := .str "sum") (by intro x y z; exact Nat.add_assoc x y z) exCoord (p := exLong)
    ⟨by decide, by decide, by decide, by decide⟩ rfl (by decide) (by decide) (o := .insert 2) (.inl ⟨rfl, .inl (by decide)⟩) 0 (n := 28) (by decide) (by decide)
  exact ⟨outs, fun w => ⟨(h1 w).1, (h1 w).2.2⟩, h2⟩

/-- The work with the random numbers 0, 1, 2, …: 39 nodes, then 4, 9, 8 and 9. -/
example : ((sessionH exCoord (reads (n := 28) fun k => ⟨k.1, by omega⟩) exLong 0 0 (editH exCoord (reads (n := 28) fun k => ⟨k.1, by omega⟩) (.insert 2))
    (keeping (refold sumF.fns (.str "sum"))) Table.empty) 200 Store.empty).map (fun x => (firstWork x.1.1, laterWork x.1.1)) = .ok (39, 30) := by
  decide +kernel

/-- Mapping and reversing the same sequence. -/
example : (∃ outs : (Fin 28 → Fin (2 ^ 64)) → List (HTree Count × Nat × RSpace Nat Count Nat Count),
      (∀ w, firstWork (outs w) = 39) ∧ ∑ w, laterWork (outs w) ≤ (2 ^ 64) ^ 28 * 116) ∧
    ∃ outs : (Fin 28 → Fin (2 ^ 64)) → List (Option (HTree Count) × Nat × GSpace Nat Count Count),
      (∀ w, firstWork (outs w) = 39) ∧ ∑ w, laterWork (outs w) ≤ (2 ^ 64) ^ 28 * 116 := by
  obtain ⟨outs, h1, h2⟩ := C106_map (N := Count) (f := fun x : Nat => x + 1) exCoord (p := exLong)
    ⟨by decide, by decide, by decide, by decide⟩ rfl (by decide) (by decide) (o := .append 2) (.inr rfl) 0 (n := 28) (by decide) (by decide)
  obtain ⟨outs', h1', h2'⟩ := C106_rebuild (N := Count) (c := Rebuild.reverse (E := Nat)) exCoord (p := exLong)
    ⟨by decide, by decide, by decide, by decide⟩ rfl (by decide) (by decide) (o := .append 2) (.inr rfl) 0 (n := 28) (by decide) (by decide)
  exact ⟨⟨outs, fun w => (h1 w).2.2, h2⟩, outs', fun w => (h1' w).2.2, h2'⟩

/-- Sums, as for max.rs. -/
example : ∃ outs : (Fin 1030 → Fin (2 ^ 64)) → List (Option Nat × Nat × RTable Nat Count Nat),
    (∀ w, firstWork (outs w) = 1999) ∧ ∑ w, laterWork (outs w) < ∑ w, firstWork (outs w) := by
  obtain ⟨outs, h1, -, h3⟩ := C106_fold_usual (c := sumF) (q := .str "sum") (by intro x y z; exact Nat.add_assoc x y z) exCoord 0
  exact ⟨outs, fun w => (h1 w).2.2, h3⟩

end Iodyn.Incr
