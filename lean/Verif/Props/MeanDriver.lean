import Verif.Spec.MeanDriver
import Verif.Props.MeanUnique
import Verif.Props.MeanHarness
/-
C99: the mean work of `unique_elms` in sessions of the test driver, over all random levels and all hash functions.
-/
namespace Iodyn
variable {E : Type}

/-! ### Means of two sequences -/

theorem pair_mean {n : Nat} (h63 : n ≤ 2 ^ 63) {l l' : List (Item E)} (hs : (levelsOf l).Nodup) (hn : ∀ k ∈ levelsOf l, k < n) (hs' : (levelsOf l').Nodup)
    (hn' : ∀ k ∈ levelsOf l', k < n) {m : Nat} (hm : (marksOf l).length ≤ m) (hm' : (marksOf l').length ≤ m) (b X : Nat) :
    ∑ w : Fin n → Fin (2 ^ 64), ((4 * (deepest (levelsOf (l.map (Item.at (drawn w)))) + b) + 1) + (deepest (levelsOf (l'.map (Item.at (drawn w)))) + 1) *
        ((2 * (deepest (levelsOf (l.map (Item.at (drawn w)))) + b) + 1) * X)) ≤
      (2 ^ 64) ^ n * (4 * (sixLogs m + 2 + b) + 1 + (2 * (sixLogs m + 2) ^ 2 + (2 * b + 1) * (sixLogs m + 2)) * X) := by
  have p := sixLogs_mono hm
  have p' := sixLogs_mono hm'
  have q := Nat.pow_le_pow_left p 2
  have q' := Nat.pow_le_pow_left p' 2
  have a1 := depth_mean h63 hs hn
  have a2 := depth_mean h63 hs' hn'
  have b1 := square_mean h63 hs hn
  have b2 := square_mean h63 hs' hn'
  have hc : ∀ c : Nat, ∑ _w : Fin n → Fin (2 ^ 64), c = (2 ^ 64) ^ n * c := fun c => by
    rw [Finset.sum_const, Finset.card_univ, Fintype.card_fun, Fintype.card_fin, Fintype.card_fin]; rfl
  have point : ∀ w : Fin n → Fin (2 ^ 64), (4 * (deepest (levelsOf (l.map (Item.at (drawn w)))) + b) + 1) + (deepest (levelsOf (l'.map (Item.at (drawn w)))) + 1) *
        ((2 * (deepest (levelsOf (l.map (Item.at (drawn w)))) + b) + 1) * X) ≤
      4 * deepest (levelsOf (l.map (Item.at (drawn w)))) + (4 * b + 1) + (deepest (levelsOf (l'.map (Item.at (drawn w)))) ^ 2 +
        2 * deepest (levelsOf (l'.map (Item.at (drawn w)))) + 1 + deepest (levelsOf (l.map (Item.at (drawn w)))) ^ 2 +
        (2 * b + 1) * (deepest (levelsOf (l'.map (Item.at (drawn w)))) + 1)) * X := by
    intro w
    generalize deepest (levelsOf (l'.map (Item.at (drawn w)))) = d'
    generalize deepest (levelsOf (l.map (Item.at (drawn w)))) = d
    have h : 2 * (d' + 1) * d ≤ (d' + 1) ^ 2 + d ^ 2 := by
      zify
      nlinarith [sq_nonneg ((d' : ℤ) + 1 - d)]
    have h2 : (d' + 1) * (2 * (d + b) + 1) ≤ d' ^ 2 + 2 * d' + 1 + d ^ 2 + (2 * b + 1) * (d' + 1) := by
      calc _ = 2 * (d' + 1) * d + (2 * b + 1) * (d' + 1) := by ring
        _ ≤ (d' + 1) ^ 2 + d ^ 2 + (2 * b + 1) * (d' + 1) := Nat.add_le_add_right h _
        _ = _ := by ring
    rw [← Nat.mul_assoc]
    exact Nat.add_le_add (by omega) (Nat.mul_le_mul_right _ h2)
  refine Nat.le_trans (Finset.sum_le_sum fun w _ => point w) ?_
  simp only [Finset.sum_add_distrib, ← Finset.mul_sum, ← Finset.sum_mul, hc]
  generalize (2 ^ 64) ^ n = N at *
  generalize sixLogs m = S at *
  generalize sixLogs (marksOf l).length = S1 at *
  generalize sixLogs (marksOf l').length = S2 at *
  generalize ∑ w : Fin n → Fin (2 ^ 64), deepest (levelsOf (l.map (Item.at (drawn w)))) = D at *
  generalize ∑ w : Fin n → Fin (2 ^ 64), deepest (levelsOf (l'.map (Item.at (drawn w)))) = D' at *
  generalize ∑ w : Fin n → Fin (2 ^ 64), deepest (levelsOf (l.map (Item.at (drawn w)))) ^ 2 = Q at *
  generalize ∑ w : Fin n → Fin (2 ^ 64), deepest (levelsOf (l'.map (Item.at (drawn w)))) ^ 2 = Q' at *
  have c1 : D ≤ N * (S + 1) := Nat.le_trans a1 (Nat.mul_le_mul_left _ (by omega))
  have c2 : D' ≤ N * (S + 1) := Nat.le_trans a2 (Nat.mul_le_mul_left _ (by omega))
  have c3 : Q ≤ N * (S ^ 2 + S + 2) := Nat.le_trans b1 (Nat.mul_le_mul_left _ (by omega))
  have c4 : Q' ≤ N * (S ^ 2 + S + 2) := Nat.le_trans b2 (Nat.mul_le_mul_left _ (by omega))
  have c5 : Q' + 2 * D' + N * 1 + Q + (2 * b + 1) * (D' + N * 1) ≤ N * (2 * (S + 2) ^ 2 + (2 * b + 1) * (S + 2)) := by
    calc _ ≤ N * (S ^ 2 + S + 2) + 2 * (N * (S + 1)) + N * 1 + N * (S ^ 2 + S + 2) + (2 * b + 1) * (N * (S + 1) + N * 1) :=
          Nat.add_le_add (by omega) (Nat.mul_le_mul_left _ (by omega))
      _ = N * (2 * S ^ 2 + 4 * S + 7 + (2 * b + 1) * (S + 2)) := by ring
      _ ≤ _ := Nat.mul_le_mul_left _ (Nat.add_le_add_right (by
        calc 2 * S ^ 2 + 4 * S + 7 ≤ 2 * S ^ 2 + 8 * S + 8 := by omega
          _ = _ := by ring) _)
  calc _ ≤ 4 * (N * (S + 1)) + N * (4 * b + 1) + N * (2 * (S + 2) ^ 2 + (2 * b + 1) * (S + 2)) * X :=
        Nat.add_le_add (by omega) (Nat.mul_le_mul_right _ c5)
    _ = N * (4 * (S + 1 + b) + 1 + (2 * (S + 2) ^ 2 + (2 * b + 1) * (S + 2)) * X) := by ring
    _ ≤ _ := Nat.mul_le_mul_left _ (Nat.add_le_add_right (by omega) _)

theorem stage_slots {n : Nat} (h63 : n ≤ 2 ^ 63) : ∀ (l : List (List (Nat × List (LOp E)))) {items : List (Item E)}, (levelsOf items ++ batchSlots l).Nodup →
    (∀ k ∈ levelsOf items ++ batchSlots l, k < n) → localLists items l = true → ∀ its ∈ items :: stages items l, (levelsOf its).Nodup ∧ ∀ k ∈ levelsOf its, k < n
  | [], items, hs, hn, hl, its, hi => by
    obtain rfl : its = items := by simpa [stages] using hi
    exact ⟨List.Nodup.of_append_left hs, fun k hk => hn k (List.mem_append_left _ hk)⟩
  | es :: l, items, hs, hn, hl, its, hi => by
    simp only [localLists, Bool.and_eq_true] at hl
    rcases List.mem_cons.1 hi with rfl | hi
    · exact ⟨List.Nodup.of_append_left hs, fun k hk => hn k (List.mem_append_left _ hk)⟩
    · have hb : batchSlots (es :: l) = restSlots es ++ batchSlots l := rfl
      rw [hb] at hs hn
      have hc := nodup_slots hs
      simp only [List.count_append] at hc
      have h1 : (levelsOf items ++ restSlots es).Nodup := slots_nodup fun x => by have := hc x; simp only [List.count_append]; omega
      have h2 : ∀ k ∈ levelsOf items ++ restSlots es, k < n := fun k hk => hn k (by simp only [List.mem_append] at hk ⊢; tauto)
      have h3 := (edits_mean h63 es h1 h2 hl.1).2
      refine stage_slots h63 l (slots_nodup fun x => ?_) (fun k hk => hn k (List.count_pos_iff.1 ?_)) hl.2 its hi
      · have := hc x; have := h3 x; simp only [List.count_append] at *; omega
      · have := List.count_pos_iff.2 hk; have := h3 k; simp only [List.count_append] at *; omega

/-! ### The leaves -/

theorem run_more : ∀ (l : List (Item E)) (c d : Nat), longestRun (c + d) l ≤ longestRun c l + d
  | [], _, _ => Nat.le_refl _
  | .elem _ :: l, c, d => by
    have := run_more l (c + 1) d
    rw [show c + 1 + d = c + d + 1 by omega] at this
    exact this
  | .mark _ _ :: l, c, d => by simp only [longestRun]; omega
  | .pend _ _ :: l, c, d => by simp only [longestRun]; omega

theorem run_mono : ∀ (l : List (Item E)) {c d : Nat}, c ≤ d → longestRun c l ≤ longestRun d l
  | [], _, _, h => h
  | .elem _ :: l, c, d, h => run_mono l (c := c + 1) (d := d + 1) (by omega)
  | .mark _ _ :: l, c, d, h => by simp only [longestRun]; omega
  | .pend _ _ :: l, c, d, h => by simp only [longestRun]; omega

theorem run_front : ∀ (B R : List (Item E)) (c d : Nat), longestRun (c + d) (B ++ R) ≤ longestRun c R + longestRun d B
  | [], R, c, d => run_more R c d
  | .elem _ :: B, R, c, d => run_front B R c (d + 1)
  | .mark _ _ :: B, R, c, d => by
    have h1 : longestRun 0 (B ++ R) ≤ _ := run_front B R 0 0
    have h2 := run_mono R (Nat.zero_le c)
    have h3 := Incr.run_le R c
    simp only [List.cons_append, longestRun]
    omega
  | .pend _ _ :: B, R, c, d => by
    have h1 : longestRun 0 (B ++ R) ≤ _ := run_front B R 0 0
    have h2 := run_mono R (Nat.zero_le c)
    have h3 := Incr.run_le R c
    simp only [List.cons_append, longestRun]
    omega

/-- What comes in between makes a run longer by at most its longest run. -/
theorem run_between (B R : List (Item E)) : ∀ (A : List (Item E)) (c : Nat), longestRun c (A ++ (B ++ R)) ≤ longestRun c (A ++ R) + longestRun 0 B
  | [], c => run_front B R c 0
  | .elem _ :: A, c => run_between B R A (c + 1)
  | .mark _ _ :: A, c => by
    have := run_between B R A 0
    simp only [List.cons_append, longestRun]
    omega
  | .pend _ _ :: A, c => by
    have := run_between B R A 0
    simp only [List.cons_append, longestRun]
    omega

theorem run_point {i : Item E} (hi : i.isMark = true) : ∀ (l : List (Item E)) (c : Nat) (r : List (Item E)), longestRun c (l ++ i :: r) = max (longestRun c l) (longestRun 0 r)
  | [], c, r => by cases i <;> first | rfl | cases hi
  | .elem _ :: l, c, r => run_point hi l (c + 1) r
  | .mark _ _ :: l, c, r => by
    show max c (longestRun 0 (l ++ _)) = max (max c (longestRun 0 l)) _
    rw [run_point hi l, Nat.max_assoc]
  | .pend _ _ :: l, c, r => by
    show max c (longestRun 0 (l ++ _)) = max (max c (longestRun 0 l)) _
    rw [run_point hi l, Nat.max_assoc]

theorem run_settle : ∀ (l : List (Item E)) (c : Nat), longestRun c (l.map Item.settle) = longestRun c l
  | [], _ => rfl
  | .elem _ :: l, c => run_settle l (c + 1)
  | .mark _ _ :: l, c => congrArg (max c) (run_settle l 0)
  | .pend _ _ :: l, c => congrArg (max c) (run_settle l 0)

theorem run_closed (s : List (Item E) × List (Item E)) : longestRun 0 (closed s) ≤ longestRun 0 (s.1.reverse ++ s.2) := by
  obtain ⟨l, r⟩ := s
  unfold closed
  rw [run_settle]
  cases l with
  | nil =>
    cases r with
    | nil => exact Nat.le_refl _
    | cons i r =>
      simp only [glue]
      split
      · next hi =>
        have := run_point hi [] 0 r
        simp only [List.nil_append, List.reverse_nil] at this ⊢
        omega
      · exact Nat.le_refl _
  | cons a l =>
    cases r with
    | nil =>
      simp only [glue]
      split
      · next hi =>
        have := run_point hi l.reverse 0 []
        simp only [List.reverse_cons, List.append_nil]
        omega
      · simp
    | cons b r =>
      simp only [glue]
      split
      · next hi =>
        have h1 := run_point hi.1 l.reverse 0 (b :: r)
        have h2 := run_point hi.2 [] 0 r
        have h3 := run_point hi.1 l.reverse 0 r
        have h4 := run_point hi.2 l.reverse 0 r
        have h0 : longestRun 0 ([] : List (Item E)) = 0 := rfl
        simp only [List.nil_append, List.reverse_cons, List.append_assoc, List.cons_append] at h1 h2 h3 h4 ⊢
        split
        · omega
        · omega
      · exact Nat.le_refl _

/-- What the calls put in: no run of it has more than `dg` elements. -/
theorem plan_runs {dg : Nat} : ∀ (xs : List E) (c : Nat) (ls : List Nat) (ns : List (Option Name)) (s : List (Item E) × List (Item E)),
    ∃ B, onSides s (planLoop dg xs c ls ns) = (B.reverse ++ s.1, s.2) ∧ (∀ a, longestRun a B ≤ a + xs.length) ∧
      (0 < dg → (c + xs.length) / dg - c / dg ≤ ls.length → (c + xs.length) / dg - c / dg ≤ ns.length → ∀ a ≤ c % dg, longestRun a B ≤ dg)
  | [], c, ls, ns, s => ⟨[], rfl, fun a => Nat.le_refl _, fun h _ _ a ha => Nat.le_trans ha (Nat.le_of_lt (Nat.mod_lt _ h))⟩
  | x :: xs, c, ls, ns, s => by
    have hdiv := Nat.succ_div (a := c) (b := dg)
    have e1 : c + (x :: xs).length = c + 1 + xs.length := by simp only [List.length_cons]; omega
    have hge : (c + 1) / dg ≤ (c + 1 + xs.length) / dg := Nat.div_le_div_right (Nat.le_add_right _ _)
    rw [e1]
    unfold planLoop
    by_cases hm : (c + 1) % dg = 0
    · rw [if_pos hm]
      rw [if_pos (Nat.dvd_of_mod_eq_zero hm)] at hdiv
      have other : ∀ (ls : List Nat) (ns : List (Option Name)), ls = [] ∨ ns = [] → planArch (planLoop dg xs (c + 1)) ls ns = planLoop dg xs (c + 1) ls ns := by
        intro ls ns h
        cases ls <;> cases ns <;> first | rfl | simp at h
      cases ls with
      | nil =>
        rw [other _ _ (.inl rfl)]
        obtain ⟨B, b1, b2, b3⟩ := plan_runs xs (c + 1) [] ns (.elem x :: s.1, s.2)
        refine ⟨.elem x :: B, by simpa [onSides, LOp.onSides] using b1, fun a => Nat.le_trans (b2 (a + 1)) (by simp only [List.length_cons]; omega), fun hd h1 _ => ?_⟩
        simp only [List.length_nil] at h1
        omega
      | cons l ls =>
        cases ns with
        | nil =>
          rw [other _ _ (.inr rfl)]
          obtain ⟨B, b1, b2, b3⟩ := plan_runs xs (c + 1) (l :: ls) [] (.elem x :: s.1, s.2)
          refine ⟨.elem x :: B, by simpa [onSides, LOp.onSides] using b1, fun a => Nat.le_trans (b2 (a + 1)) (by simp only [List.length_cons]; omega), fun hd _ h1 => ?_⟩
          simp only [List.length_nil] at h1
          omega
        | cons n ns =>
          obtain ⟨B, b1, b2, b3⟩ := plan_runs xs (c + 1) ls ns (.pend l n :: .elem x :: s.1, s.2)
          refine ⟨.elem x :: .pend l n :: B, by simpa [planArch, onSides, LOp.onSides, archiveSide] using b1, fun a => ?_, fun hd h1 h2 a ha => ?_⟩
          · have := b2 0
            simp only [longestRun, List.length_cons]
            omega
          · simp only [List.length_cons] at h1 h2
            have := b3 hd (by omega) (by omega) 0 (Nat.zero_le _)
            have := Nat.mod_lt c hd
            simp only [longestRun]
            omega
    · rw [if_neg hm]
      rw [if_neg fun h => hm (Nat.mod_eq_zero_of_dvd h)] at hdiv
      obtain ⟨B, b1, b2, b3⟩ := plan_runs xs (c + 1) ls ns (.elem x :: s.1, s.2)
      refine ⟨.elem x :: B, by simpa [onSides, LOp.onSides] using b1, fun a => Nat.le_trans (b2 (a + 1)) (by simp only [List.length_cons]; omega), fun hd h1 h2 a ha => ?_⟩
      refine b3 hd (by omega) (by omega) (a + 1) ?_
      have h3 := Nat.div_add_mod c dg
      have h4 := Nat.div_add_mod (c + 1) dg
      rw [show (c + 1) / dg = c / dg by omega] at h4
      omega

theorem next_longest {G : Type} {C : Iodyn.Eval.Coord G E} {dg : Nat} {o : Iodyn.Eval.Edit} (hd : 0 < dg) (q : Incr.Sketch E G) (h : elemsOf q.items ≠ []) :
    longestRun 0 (q.next C dg o).items ≤ longestRun 0 q.items + min dg o.size := by
  obtain ⟨B, b1, b2, b3⟩ := plan_runs (dg := dg) (Eval.genData C o.size (q.gen C o)).1 q.counter (List.range' q.used (o.size / dg + 1)) (titles q.names (o.size / dg + 1))
    (cutAt (q.index C o) q.items)
  have hlen : (Eval.genData C o.size (q.gen C o)).1.length = o.size := Heap.genData_length ..
  rw [hlen] at b3
  have hdiv : (q.counter + o.size) / dg - q.counter / dg ≤ o.size / dg + 1 := by
    have := Nat.add_div (a := q.counter) (b := o.size) hd
    have := Nat.zero_le (o.size / dg)
    generalize (q.counter + o.size) / dg = A at *
    generalize q.counter / dg = B at *
    generalize o.size / dg = D at *
    split at this <;> omega
  have h1 := b3 hd (by rw [List.length_range']; exact hdiv) (by rw [titles_length]; exact hdiv) 0 (Nat.zero_le _)
  have h2 := b2 0
  rw [hlen] at h2
  have h3 := run_closed (onSides (cutAt (q.index C o) q.items) (q.ops C dg o))
  have h4 : onSides (cutAt (q.index C o) q.items) (q.ops C dg o) = _ := b1
  rw [h4] at h3
  simp only [List.reverse_append, List.reverse_reverse, List.append_assoc] at h3
  have h5 := run_between B (cutAt (q.index C o) q.items).2 (cutAt (q.index C o) q.items).1.reverse 0
  rw [cutAt_append _ _ (Incr.Sketch.index_le q h)] at h5
  have h6 : (q.next C dg o).items = closed (B.reverse ++ (cutAt (q.index C o) q.items).1, (cutAt (q.index C o) q.items).2) := by
    rw [← h4]
    rfl
  rw [h6]
  omega

end Iodyn

namespace Iodyn.Incr
open Iodyn.Heap Iodyn.Eval
open Iodyn.Skip (Skiplist hashOf)
variable {E G : Type} {L : Nat}

/-- After `j` edits: the archive points and the elements. -/
theorem Sketch.plans_sizes {C : Coord G E} {dg : Nat} {o : Edit} : ∀ (m : Nat) (q : Sketch E G) {a : Nat}, elemsOf q.items ≠ [] → (marksOf q.items).length ≤ a →
    ∀ (j : Nat) its, (q.items :: stages q.items (q.plans C dg o m))[j]? = some its →
      (marksOf its).length ≤ a + j * (o.size / dg + 1) ∧ (elemsOf its).length = (elemsOf q.items).length + j * o.size
  | m, q, a, hne, ha, 0, its, h => by
    simp only [List.getElem?_cons_zero, Option.some.injEq] at h
    subst h
    exact ⟨by omega, by omega⟩
  | 0, q, a, hne, ha, j + 1, its, h => by simp [Sketch.plans, stages] at h
  | m + 1, q, a, hne, ha, j + 1, its, h => by
    have h1 := Sketch.next_marks (C := C) (dg := dg) (o := o) q hne
    have h2 := Sketch.next_elems (C := C) (dg := dg) (o := o) q hne
    have ih := plans_sizes m (q.next C dg o) (a := a + (o.size / dg + 1)) (Sketch.next_full q hne) (by omega) j its (by
      simp only [Sketch.plans, stages, editLists, List.getElem?_cons_succ] at h
      exact h)
    rw [h2] at ih
    refine ⟨Nat.le_trans ih.1 (Nat.le_of_eq ?_), ih.2.trans ?_⟩ <;> rw [Nat.succ_mul] <;> omega

/-! ### The trees of a session -/

theorem trees_all {B : Type} {val : RazTree E Count → P B} {C : Coord G E} {n : Nat} {w : Fin n → Fin (2 ^ 64)} {dg : Nat} {o : Edit} : ∀ (m : Nat) {s : EvalRaz E Count G} {t : RazTree E Count}
      {q : Sketch E G} {rng' : Nat} {as : List (Unit × (RazTree E Count × B))}, Along (drawn w) dg s t q → t.Reachable .edit →
      localLists q.items (q.plans C dg o m) = true → q.used + m * (o.size / dg + 1) ≤ n →
      Eval.testLoop (fun s r => o.run C (reads w) s r) (plainly (T := Unit) (fun s => unwrap s.raztree >>= withTree val)) m s () q.used = .ok (as, rng') →
      rng' = q.used + m * (o.size / dg + 1) ∧
      List.Forall₂ (fun its (a : Unit × (RazTree E Count × B)) => Stands (drawn w) a.2.1 its ∧ a.2.1.Reachable .edit) (stages q.items (q.plans C dg o m)) as := by
  intro m
  induction m with
  | zero =>
    intro s t q rng' as ha hr hl hn h
    cases h
    exact ⟨by simp, .nil⟩
  | succ m ih =>
    intro s t q rng' as ha hr hl hn h
    rw [show (m + 1) * (o.size / dg + 1) = (o.size / dg + 1) + m * (o.size / dg + 1) by rw [Nat.succ_mul, Nat.add_comm]] at hn ⊢
    simp only [Sketch.plans, localLists, Bool.and_eq_true] at hl
    unfold Eval.testLoop at h
    obtain ⟨⟨s1, r1⟩, e1, h⟩ := bind_ok.1 h
    obtain ⟨⟨u, t1, b⟩, e2, h⟩ := bind_ok.1 h
    obtain ⟨⟨as1, r2⟩, e3, hfin⟩ := bind_ok.1 h
    cases hfin
    obtain ⟨e4, e5⟩ := plain_answer e2
    obtain ⟨t2, c1, c2, c3, c4, c5, c6, c7, c8, c9⟩ := edit_plan ha (by omega) e1
    simp only at e4
    rw [c2] at e4
    cases e4
    have hl1 := hl.1
    simp only [localList, Bool.and_eq_true, decide_eq_true_eq] at hl1
    obtain ⟨t3, d1, d2, d3⟩ := stands_next (drawn_one w) ha.stands hr hl1.1.1.1 hl1.1.1.2 hl1.1.2
    rw [c1] at d1
    cases d1
    have ha' : Along (drawn w) dg s1 _ (q.next C dg o) := ⟨c2, d3, c3, c4, c5, c6, c7⟩
    subst c8
    obtain ⟨k1, k2⟩ := ih ha' d2 hl.2 (by simp only [Sketch.next]; omega) e3
    exact ⟨by rw [k1]; simp only [Sketch.next]; omega, .cons ⟨d3, d2⟩ k2⟩

theorem trees_session {B : Type} {val : RazTree E Count → P B} {C : Coord G E} {n : Nat} {w : Fin n → Fin (2 ^ 64)} {p : Params} (hg : p.namegauge = 1) (hs : 0 < p.size) {o : Edit} (ho : o.size = p.batch)
    (h0 : 0 < p.batch) (hn : drawsOf p ≤ n) (hm : p.size + p.changes * p.batch < usizeMax) {coord : G} {rng' : Nat} {as : List (RazTree E Count × B)}
    (h : sessionV C (reads w) p coord 0 (fun s r => o.run C (reads w) s r) (withTree val) = .ok (as, rng')) :
    rng' = drawsOf p ∧ List.Forall₂ (fun its (a : RazTree E Count × B) => Stands (drawn w) a.1 its ∧ a.1.Reachable .edit)
      ((startSketch C p coord).items :: stages (startSketch C p coord).items ((startSketch C p coord).plans C p.datagauge o p.changes)) as := by
  unfold sessionV at h
  cases hx : Eval.test (createRaz C (reads w) p coord) (fun s r => o.run C (reads w) s r)
    (plainly (T := Unit) (fun s => unwrap s.raztree >>= withTree val)) p.changes () 0 with
  | error q => rw [hx] at h; cases h
  | ok x =>
    obtain ⟨as0, r0⟩ := x
    rw [hx] at h
    cases h
    unfold Eval.test at hx
    obtain ⟨⟨s, r1⟩, e1, hx⟩ := bind_ok.1 hx
    obtain ⟨⟨u, t, b⟩, e2, hx⟩ := bind_ok.1 hx
    obtain ⟨⟨as1, r2⟩, e3, hfin⟩ := bind_ok.1 hx
    cases hfin
    obtain ⟨e4, e5⟩ := plain_answer e2
    unfold createRaz at e1
    rw [hg] at e1
    unfold drawsOf at hn
    have hlev := levels_reads w (p.size / p.datagauge) 0 (by omega)
    obtain ⟨z, t', c1, c2, c3, c4, c5, c6, c7, c8, c9, c10⟩ := incInit_plan e1 (ops := (startOps C p coord).map (LOp.at (drawn w))) (by
      rw [hlev]
      unfold startOps
      rw [plan_at])
    simp only at e4 e5
    rw [e4] at c3
    cases c3
    rw [hlev] at c9
    subst c9
    obtain ⟨z', t', f1, f2, f3, f4⟩ := make_any (drawn_one w) (startOps C p coord)
    rw [f1] at c1
    cases c1
    rw [f2] at c2
    cases c2
    have hlen := start_elems C p coord
    have hne : elemsOf (startSketch C p coord).items ≠ [] := fun h => by
      rw [h] at hlen
      simp at hlen
      omega
    have hst : Stands (drawn w) t (startSketch C p coord).items := stands_reach f3 f4 (by rw [f4, at_elems]; exact hne)
    have hl : localLists (startSketch C p coord).items ((startSketch C p coord).plans C p.datagauge o p.changes) = true :=
      Sketch.plans_local (by omega) p.changes _ hne (by rw [hlen, ho]; exact hm)
    obtain ⟨q1, q2⟩ := trees_all (q := startSketch C p coord) (w := w) p.changes ⟨e4, hst, c4, c5, c6, c7, c8⟩ f3 hl (by simp only [startSketch, ho]; omega)
      (by simpa only [startSketch, Nat.zero_add] using e3)
    refine ⟨by rw [q1, ho]; rfl, .cons ⟨hst, f3⟩ (List.forall₂_map_right_iff.2 q2)⟩

theorem uqAfter_get [DecidableEq E] [Fintype E] {p : Params} {batch : Nat} : ∀ {l : List (RazTree E Count × Unit)} {t : RazTree E Count} {works},
    uqAfter L p batch t l works → ∀ {j : Nat} {a work}, l[j]? = some a → works[j]? = some work → ∃ t0, ((t, ()) :: l)[j]? = some (t0, ()) ∧
      ∑ w, work w ≤ (2 ^ 64) ^ Fintype.card E * uqBound L (t0.tree.depth + batch / p.datagauge + 1) t0.tree a.1.tree
  | [], _, _, _, _, _, _, h, _ => by simp at h
  | (t', u) :: l, t, [], hu, _, _, _, _, h => by simp at h
  | (t', u) :: l, t, work :: works, hu, 0, a, work', h1, h2 => by
    simp only [List.getElem?_cons_zero, Option.some.injEq] at h1 h2
    subst h1 h2
    exact ⟨t, rfl, hu.1⟩
  | (t', u) :: l, t, work :: works, hu, j + 1, a, work', h1, h2 => by
    simp only [List.getElem?_cons_succ] at h1 h2
    obtain ⟨t0, k1, k2⟩ := uqAfter_get hu.2 h1 h2
    exact ⟨t0, by simpa using k1, k2⟩

theorem forall₂_get {A B : Type} {R : A → B → Prop} {as : List A} {bs : List B} (h : List.Forall₂ R as bs) {j : Nat} {b : B} (hb : bs[j]? = some b) :
    ∃ a, as[j]? = some a ∧ R a b := by
  induction h generalizing j with
  | nil => simp at hb
  | cons h _ ih =>
    cases j with
    | zero =>
      simp only [List.getElem?_cons_zero, Option.some.injEq] at hb
      subst hb
      exact ⟨_, rfl, h⟩
    | succ j => simpa using ih (by simpa using hb)

/-- The bound of one run, from the lists. -/
theorem step_at [DecidableEq E] {f : Nat → Nat} {t t' : RazTree E Count} {its its' : List (Item E)} (hs : Stands f t its) (hr : t.Reachable .edit) (hs' : Stands f t' its')
    (hr' : t'.Reachable .edit) {g r D b : Nat} (hg : widest t.tree ≤ g) (hg' : widest t'.tree ≤ g) (hc : ∀ x, t'.elems.count x ≤ r) (hD : t'.elems.length ≤ D) :
    uqBound L (t.tree.depth + b) t.tree t'.tree ≤ (4 * (deepest (levelsOf (its.map (Item.at f))) + b) + 1) + (deepest (levelsOf (its'.map (Item.at f))) + 1) *
      ((2 * (deepest (levelsOf (its.map (Item.at f))) + b) + 1) * driverSearch L g r D) := by
  have w' := hs'.inv.wf.resolve_left hs'.full
  have d := C88_depth hr
  have d' := C88_depth hr'
  have e : treeElems t'.tree = t'.elems := tree_elems w'
  unfold uqBound driverSearch
  rw [tree_depth w', d, d', hs.eq, hs'.eq, e]
  have h1 : different t'.elems ≤ D := Nat.le_trans (List.dedup_sublist _).length_le hD
  refine Nat.add_le_add_left (Nat.mul_le_mul_left _ (Nat.mul_le_mul_left _ (Nat.add_le_add_left (Nat.mul_le_mul (Nat.mul_le_mul_left _ (Nat.max_le.2 ⟨hg, hg'⟩))
    (Nat.mul_le_mul (most_le hc) (Nat.add_le_add (Nat.add_le_add_right (Nat.clog_mono_right _ h1) _) (Nat.div_le_div_right h1)))) _))) _

theorem plan_facts (C : Coord G E) {p : Params} (hs : 0 < p.size) (h0 : 0 < p.batch) {o : Edit} (hos : o.size = p.batch) (coord : G) {n : Nat} (hn : drawsOf p ≤ n)
    (h63 : n ≤ 2 ^ 63) (hm : p.size + p.changes * p.batch < usizeMax) :
    (∀ (j : Nat) its, ((startSketch C p coord).items :: stages (startSketch C p coord).items ((startSketch C p coord).plans C p.datagauge o p.changes))[j]? = some its →
      (marksOf its).length ≤ p.size / p.datagauge + j * (p.batch / p.datagauge + 1) ∧ (elemsOf its).length = p.size + j * p.batch) ∧
    ∀ its ∈ (startSketch C p coord).items :: stages (startSketch C p coord).items ((startSketch C p coord).plans C p.datagauge o p.changes),
      (levelsOf its).Nodup ∧ ∀ k ∈ levelsOf its, k < n := by
  have hlen := start_elems C p coord
  have hne : elemsOf (startSketch C p coord).items ≠ [] := fun h => by
    rw [h] at hlen
    simp at hlen
    omega
  have hmk : (marksOf (startSketch C p coord).items).length ≤ p.size / p.datagauge := by
    have := Sketch.length_of_count (start_levels C p coord)
    simpa [levelsOf] using this
  have hsize := Sketch.plans_sizes (C := C) (dg := p.datagauge) (o := o) p.changes (startSketch C p coord) hne hmk
  rw [hos, hlen] at hsize
  have hl : localLists (startSketch C p coord).items ((startSketch C p coord).plans C p.datagauge o p.changes) = true :=
    Sketch.plans_local (by omega) p.changes _ hne (by rw [hlen, hos]; exact hm)
  have hsl := Sketch.plans_slots (C := C) (dg := p.datagauge) (o := o) p.changes (startSketch C p coord)
  have hr : ∀ x, (levelsOf (startSketch C p coord).items ++ batchSlots ((startSketch C p coord).plans C p.datagauge o p.changes)).count x ≤
      (List.range' 0 (p.size / p.datagauge + p.changes * (o.size / p.datagauge + 1))).count x := fun x => by
    have := start_levels C p coord x
    have := hsl.count_le x
    rw [List.count_append, ← List.range'_append_1, List.count_append, Nat.zero_add]
    simp only [startSketch] at *
    omega
  have hslots := stage_slots h63 _ (slots_nodup fun x => Nat.le_trans (hr x) (nodup_slots List.nodup_range' x)) (fun k hk => by
    have h2 := List.count_pos_iff.1 (Nat.lt_of_lt_of_le (List.count_pos_iff.2 hk) (hr k))
    rw [List.mem_range'_1, hos] at h2
    unfold drawsOf at hn
    omega) hl
  exact ⟨hsize, hslots⟩

/-- **C99** (`unique_elms` in sessions of the driver, eval/examples/unique_elms.rs, with `namegauge` 1). The harness makes a sequence of `size` elements, builds its
skip list with stored calls, and then in turn edits the sequence with batches of `batch` elements and builds the skip list again. For every parameter, generator of
elements and places, and edit: whatever the random numbers `w` and the hashes `v` of the elements, the session does not panic, takes `drawsOf p` random numbers, and
each skip list finds the elements of the list that the edits make. The first run takes at most two steps for each archive point and one more. If no leaf of the tree
after `i` edits has more than `g i` elements, and no element occurs more than `r i` times, then the mean over all random numbers and all hash functions of the work
after the edit with index `j` is at most `driverBound`. -/
theorem C99_unique [DecidableEq E] [Fintype E] (hL : 1 ≤ L) (hL' : L ≤ 63) (C : Coord G E) {p : Params} (hp : InRange p) (hg : p.namegauge = 1) (hs : 0 < p.size)
    (h0 : 0 < p.batch) {o : Edit} (ho : Possible p o) (coord : G) {n : Nat} (hn : drawsOf p ≤ n) (h63 : n ≤ 2 ^ 63) {g r : Nat → Nat}
    (hleaf : ∀ (w : Fin n → Fin (2 ^ 64)) (as : List (RazTree E Count × Unit)) (rng' : Nat),
      sessionV C (reads w) p coord 0 (fun s r => o.run C (reads w) s r) (withTree fun _ => .ok ()) = .ok (as, rng') → ∀ i a, as[i]? = some a → widest a.1.tree ≤ g i)
    (hoften : ∀ i ≤ p.changes, ∀ x, (sessionAt (o.spec C) C p.size coord i).1.count x ≤ r i) :
    ∃ outs : (Fin n → Fin (2 ^ 64)) → (E → Fin (2 ^ 64)) → List (Skiplist × Nat × UqSpace E Count),
      (∀ w v, Ends (sessionH C (reads w) p coord 0 (editH C (reads w) o) (keeping (countedUnique (hashOf v) L)) OSpace.empty) (.ok (outs w v, drawsOf p)) ∧
        Matches C p coord o (fun xs a => Finds (hashOf v) xs a.1 a.2.2) (outs w v) ∧
        ((outs w v)[0]?.elim 0 fun a => a.2.1) ≤ 2 * (p.size / p.datagauge) + 1) ∧
      ∀ j, ∑ w, ∑ v, ((outs w v)[j + 1]?.elim 0 fun a => a.2.1) ≤
        (2 ^ 64) ^ n * ((2 ^ 64) ^ Fintype.card E * driverBound L p (max (g j) (g (j + 1))) (r (j + 1)) j) := by
  have hos : o.size = p.batch := by
    rcases ho with ⟨rfl, -⟩ | rfl <;> rfl
  have hm : p.size + p.changes * p.batch < usizeMax := by
    have := hp.counters
    rw [Nat.mul_add] at this
    omega
  obtain ⟨hsize, hslots⟩ := plan_facts C hs h0 hos coord hn h63 hm
  generalize hplan : (startSketch C p coord).items :: stages (startSketch C p coord).items ((startSketch C p coord).plans C p.datagauge o p.changes) = plan at *
  have h1 : ∀ w : Fin n → Fin (2 ^ 64), ∃ outs : (E → Fin (2 ^ 64)) → List (Skiplist × Nat × UqSpace E Count),
      (∀ v, Ends (sessionH C (reads w) p coord 0 (editH C (reads w) o) (keeping (countedUnique (hashOf v) L)) OSpace.empty) (.ok (outs v, drawsOf p)) ∧
        Matches C p coord o (fun xs a => Finds (hashOf v) xs a.1 a.2.2) (outs v) ∧
        ((outs v)[0]?.elim 0 fun a => a.2.1) ≤ 2 * (p.size / p.datagauge) + 1) ∧
      ∀ j its its', plan[j]? = some its → plan[j + 1]? = some its' →
        ∑ v, ((outs v)[j + 1]?.elim 0 fun a => a.2.1) ≤ (2 ^ 64) ^ Fintype.card E * ((4 * (deepest (levelsOf (its.map (Item.at (drawn w)))) + addsOf p) + 1) +
          (deepest (levelsOf (its'.map (Item.at (drawn w)))) + 1) * ((2 * (deepest (levelsOf (its.map (Item.at (drawn w)))) + addsOf p) + 1) *
            driverSearch L (max (g j) (g (j + 1))) (r (j + 1)) (p.size + (j + 1) * p.batch))) := by
    intro w
    obtain ⟨as, rng', k1, k2⟩ := sessionV_total (B := RazTree E Count × Unit) (scratch := withTree fun _ => .ok ())
      (Q := fun xs a => a.1.elems = xs) C (reads w) p coord 0 hp ho (fun t _ => ⟨(t, ()), rfl, rfl⟩)
    obtain ⟨works, k3, k4⟩ := C97_session hL hL' hs hg (by omega) k1
    obtain ⟨k5, k6⟩ := trees_session hg hs hos h0 hn hm k1
    rw [hplan] at k6
    have k7 := hleaf w as rng' k1
    choose outs k3 k8 k9 using k3
    subst k5
    have hwork : ∀ (j : Nat) v, ((outs v)[j]?.elim 0 fun a => a.2.1) = (works[j]?.elim 0 fun work => work v) := fun j v => by
      have := congrArg (·[j]?) (k9 v)
      simp only [List.getElem?_map] at this
      cases h1 : (outs v)[j]? <;> cases h2 : works[j]? <;> rw [h1, h2] at this <;> simp_all
    have hstart : ∀ v, ((outs v)[0]?.elim 0 fun a => a.2.1) ≤ 2 * (p.size / p.datagauge) + 1 := fun v => by
      rw [hwork]
      cases as with
      | nil => exact k4.elim
      | cons a as =>
        cases works with
        | nil => exact k4.elim
        | cons work works =>
          obtain ⟨its, i1, i2, i3⟩ := forall₂_get k6 (j := 0) rfl
          have q1 := (hsize 0 its i1).1
          simp only [List.getElem?_cons_zero, Option.elim]
          rw [k4.1 v, tree_size (i2.inv.wf.resolve_left i2.full)]
          have : (levelsOf a.1.tree.items).length = (marksOf its).length := by
            rw [show a.1.tree.items = _ from i2.eq, at_levels]
            simp [levelsOf]
          omega
    refine ⟨outs, fun v => ⟨k3 v, ⟨by rw [← (k8 v).length_eq]; exact k2.1, fun i a hi => ?_⟩, hstart v⟩, fun j its its' hj hj' => ?_⟩
    · obtain ⟨b, hb, hf⟩ := forall₂_get (k8 v) hi
      rw [← k2.2 i b hb]
      exact hf
    · simp only [hwork]
      cases hw : works[j + 1]? with
      | none => simp
      | some work =>
        simp only [Option.elim]
        cases as with
        | nil => exact k4.elim
        | cons a as =>
          cases works with
          | nil => exact k4.elim
          | cons work0 works =>
            simp only [List.getElem?_cons_succ] at hw
            obtain ⟨b, hb⟩ : ∃ b, as[j]? = some b := by
              have h1 := (k8 fun _ => 0).length_eq
              have h2 := congrArg List.length (k9 fun _ => 0)
              have h3 := (List.getElem?_eq_some_iff.1 hw).1
              simp only [List.length_map, List.length_cons] at h1 h2
              exact ⟨as[j], List.getElem?_eq_getElem (by omega)⟩
            obtain ⟨t0, q1, q2⟩ := uqAfter_get k4.2 hb hw
            have q3 : (a :: as)[j]? = some (t0, ()) := q1
            have q4 : (a :: as)[j + 1]? = some b := by simpa using hb
            obtain ⟨i0, m1, m2, m3⟩ := forall₂_get k6 q3
            obtain ⟨i1, m4, m5, m6⟩ := forall₂_get k6 q4
            rw [hj] at m1
            rw [hj'] at m4
            cases m1
            cases m4
            have hch : j + 1 ≤ p.changes := by
              have h1 := k2.1
              have h2 := (List.getElem?_eq_some_iff.1 q4).1
              omega
            refine Nat.le_trans q2 (Nat.mul_le_mul_left _ ?_)
            rw [hos, Nat.add_assoc]
            refine step_at m2 m3 m5 m6 (Nat.le_trans (k7 _ _ q3) (Nat.le_max_left _ _)) (Nat.le_trans (k7 _ _ q4) (Nat.le_max_right _ _)) ?_ ?_
            · rw [k2.2 _ _ q4]
              exact hoften _ hch
            · rw [show b.1.elems = elemsOf its' by
                have : b.1.elems = elemsOf b.1.items := rfl
                rw [this, m5.eq, at_elems]]
              exact Nat.le_of_eq (hsize _ _ hj').2
  choose outs hq using h1
  refine ⟨outs, fun w => (hq w).1, fun j => ?_⟩
  have hk := fun w => (hq w).1
  have hlong : ∀ w v, (outs w v).length = p.changes + 1 := fun w v => (hk w v).2.1.1
  by_cases hj : j + 1 ≤ p.changes
  · have hpl : plan.length = p.changes + 1 := by
      obtain ⟨as, rng', k1, k2⟩ := sessionV_total (B := RazTree E Count × Unit) (scratch := withTree fun _ => .ok ())
        (Q := fun xs a => a.1.elems = xs) C (reads (n := n) fun _ => 0) p coord 0 hp ho (fun t _ => ⟨(t, ()), rfl, rfl⟩)
      obtain ⟨k5, k6⟩ := trees_session hg hs hos h0 hn hm k1
      rw [hplan] at k6
      rw [k6.length_eq]
      exact k2.1
    have e1 : plan[j]? = some plan[j] := List.getElem?_eq_getElem (by omega)
    have e2 : plan[j + 1]? = some plan[j + 1] := List.getElem?_eq_getElem (by omega)
    have s1 := hslots _ (List.mem_of_getElem? e1)
    have s2 := hslots _ (List.mem_of_getElem? e2)
    have c1 := (hsize _ _ e1).1
    have c2 := (hsize _ _ e2).1
    have key := pair_mean h63 s1.1 s1.2 s2.1 s2.2 (m := p.size / p.datagauge + (j + 1) * addsOf p)
      (Nat.le_trans c1 (Nat.add_le_add_left (Nat.mul_le_mul_right _ (Nat.le_succ j)) _)) c2 (addsOf p)
      (driverSearch L (max (g j) (g (j + 1))) (r (j + 1)) (p.size + (j + 1) * p.batch))
    refine Nat.le_trans (Finset.sum_le_sum fun w _ => (hq w).2 j _ _ e1 e2) ?_
    rw [← Finset.mul_sum]
    refine Nat.le_trans (Nat.mul_le_mul_left _ key) (Nat.le_of_eq ?_)
    rw [Nat.mul_left_comm]
    rfl
  · refine Nat.le_trans (Nat.le_of_eq ?_) (Nat.zero_le _)
    refine Finset.sum_eq_zero fun w _ => Finset.sum_eq_zero fun v _ => ?_
    rw [List.getElem?_eq_none (by rw [hlong]; omega)]
    rfl

theorem Sketch.plans_runs {C : Coord G E} {dg : Nat} {o : Edit} (hd : 0 < dg) : ∀ (m : Nat) (q : Sketch E G) {a : Nat}, elemsOf q.items ≠ [] → longestRun 0 q.items ≤ a →
    ∀ (j : Nat) its, (q.items :: stages q.items (q.plans C dg o m))[j]? = some its → longestRun 0 its ≤ a + j * min dg o.size
  | m, q, a, hne, ha, 0, its, h => by
    simp only [List.getElem?_cons_zero, Option.some.injEq] at h
    subst h
    omega
  | 0, q, a, hne, ha, j + 1, its, h => by simp [Sketch.plans, stages] at h
  | m + 1, q, a, hne, ha, j + 1, its, h => by
    have h1 := next_longest (C := C) (o := o) hd q hne
    have ih := plans_runs hd m (q.next C dg o) (a := a + min dg o.size) (Sketch.next_full q hne) (by omega) j its (by
      simp only [Sketch.plans, stages, editLists, List.getElem?_cons_succ] at h
      exact h)
    refine Nat.le_trans ih (Nat.le_of_eq ?_)
    rw [Nat.succ_mul]
    omega

theorem start_run (C : Coord G E) {p : Params} (hd : 0 < p.datagauge) (coord : G) : longestRun 0 (startSketch C p coord).items ≤ p.datagauge := by
  obtain ⟨B, b1, b2, b3⟩ := plan_runs (dg := p.datagauge) (genData C p.size coord).1 0 (List.range' 0 (p.size / p.datagauge)) (Iodyn.titles 0 (p.size / p.datagauge)) ([], [])
  rw [genData_length, Nat.zero_add, Nat.zero_div, Nat.sub_zero] at b3
  have h1 := b3 hd (by rw [List.length_range']) (by rw [titles_length]) 0 (Nat.zero_le _)
  have h2 := run_closed (onSides ([], []) (startOps C p coord))
  have h3 : onSides ([], []) (startOps C p coord) = _ := b1
  rw [h3] at h2
  simp only [List.reverse_append, List.reverse_reverse, List.append_nil] at h2
  have h4 : (startSketch C p coord).items = closed (B.reverse ++ [], []) := by
    rw [← h3]
    rfl
  rw [h4]
  simp only [List.append_nil] at h2 ⊢
  omega

/-- **C99, leaves.** In such sessions no leaf of the tree after `i` edits has more than `datagauge + i * min datagauge batch` elements. -/
theorem C99_leaves {C : Coord G E} {n : Nat} {w : Fin n → Fin (2 ^ 64)} {p : Params} (hp : InRange p) (hg : p.namegauge = 1) (hs : 0 < p.size) {o : Edit} (ho : Possible p o)
    (h0 : 0 < p.batch) (hn : drawsOf p ≤ n) {coord : G} {rng' : Nat} {as : List (RazTree E Count × Unit)}
    (h : sessionV C (reads w) p coord 0 (fun s r => o.run C (reads w) s r) (withTree fun _ => .ok ()) = .ok (as, rng')) :
    ∀ i a, as[i]? = some a → widest a.1.tree ≤ p.datagauge + i * min p.datagauge p.batch := by
  intro i a hi
  have hos : o.size = p.batch := by
    rcases ho with ⟨rfl, -⟩ | rfl <;> rfl
  have hm : p.size + p.changes * p.batch < usizeMax := by
    have := hp.counters
    rw [Nat.mul_add] at this
    omega
  have hd := Nat.pos_of_ne_zero hp.datagauge
  have hlen := start_elems C p coord
  have hne : elemsOf (startSketch C p coord).items ≠ [] := fun h => by
    rw [h] at hlen
    simp at hlen
    omega
  obtain ⟨its, i1, i2, i3⟩ := forall₂_get (trees_session hg hs hos h0 hn hm h).2 hi
  have := Sketch.plans_runs (C := C) (o := o) hd p.changes (startSketch C p coord) hne (start_run C hd coord) i its i1
  rw [tree_run (i2.inv.wf.resolve_left i2.full), show a.1.tree.items = _ from i2.eq, run_at]
  rwa [hos] at this

/-- **C99, from the parameters.** Both together: only the number of times that an element occurs is left as a condition. -/
theorem C99_bound [DecidableEq E] [Fintype E] (hL : 1 ≤ L) (hL' : L ≤ 63) (C : Coord G E) {p : Params} (hp : InRange p) (hg : p.namegauge = 1) (hs : 0 < p.size)
    (h0 : 0 < p.batch) {o : Edit} (ho : Possible p o) (coord : G) {n : Nat} (hn : drawsOf p ≤ n) (h63 : n ≤ 2 ^ 63) {r : Nat → Nat}
    (hoften : ∀ i ≤ p.changes, ∀ x, (sessionAt (o.spec C) C p.size coord i).1.count x ≤ r i) :
    ∃ outs : (Fin n → Fin (2 ^ 64)) → (E → Fin (2 ^ 64)) → List (Skiplist × Nat × UqSpace E Count),
      (∀ w v, Ends (sessionH C (reads w) p coord 0 (editH C (reads w) o) (keeping (countedUnique (hashOf v) L)) OSpace.empty) (.ok (outs w v, drawsOf p)) ∧
        Matches C p coord o (fun xs a => Finds (hashOf v) xs a.1 a.2.2) (outs w v) ∧
        ((outs w v)[0]?.elim 0 fun a => a.2.1) ≤ 2 * (p.size / p.datagauge) + 1) ∧
      ∀ j, ∑ w, ∑ v, ((outs w v)[j + 1]?.elim 0 fun a => a.2.1) ≤
        (2 ^ 64) ^ n * ((2 ^ 64) ^ Fintype.card E * driverBound L p (p.datagauge + (j + 1) * min p.datagauge p.batch) (r (j + 1)) j) := by
  obtain ⟨outs, h1, h2⟩ := C99_unique hL hL' C hp hg hs h0 ho coord hn h63 (g := fun i => p.datagauge + i * min p.datagauge p.batch)
    (fun w as rng' h => C99_leaves hp hg hs ho h0 hn h) hoften
  refine ⟨outs, h1, fun j => ?_⟩
  have := h2 j
  rwa [Nat.max_eq_right (Nat.add_le_add_left (Nat.mul_le_mul_right _ (Nat.le_succ j)) _)] at this

/-! ### `to_list` -/

theorem listsAfter_get {A B Sp : Type} {Rel : B → A → Sp → Prop} {p : Params} {batch : Nat} : ∀ {l : List (RazTree E Count × B)} {t : RazTree E Count}
    {outs : List (A × Nat × Sp)}, listsAfter p batch Rel t l outs → l.length = outs.length ∧ ∀ {j : Nat} {o : A × Nat × Sp} {b : B}, outs[j]? = some o →
      ∃ t0 b0 b1, ((t, b) :: l)[j]? = some (t0, b0) ∧ (∃ t1, l[j]? = some (t1, b1)) ∧ Rel b1 o.1 o.2.2 ∧ o.2.1 ≤ 2 * (2 * t0.tree.depth + batch / p.datagauge + 1) + 1
  | [], _, [], _ => ⟨rfl, fun h => by simp at h⟩
  | [], _, _ :: _, h => h.elim
  | _ :: _, _, [], h => h.elim
  | (t', b') :: l, t, (a, w, s) :: outs, h => by
    obtain ⟨h1, h2⟩ := listsAfter_get h.2.2
    refine ⟨congrArg (· + 1) h1, fun {j o b} ho => ?_⟩
    cases j with
    | zero =>
      simp only [List.getElem?_cons_zero, Option.some.injEq] at ho
      subst ho
      exact ⟨t, b, b', rfl, ⟨t', rfl⟩, h.1, h.2.1⟩
    | succ j =>
      simp only [List.getElem?_cons_succ] at ho
      exact h2 (b := b') ho

/-- **C99, `to_list`** (eval/examples/tree_to_list.rs). The same for `to_list`, in the mean over all random numbers: behind each handle is an archive stack with the
elements of the list, from the end, and the mean of the steps after the edit with index `j` is at most `driverList`. -/
theorem C99_list [DecidableEq E] (C : Coord G E) {p : Params} (hp : InRange p) (hg : p.namegauge = 1) (hs : 0 < p.size) (h0 : 0 < p.batch) {o : Edit} (ho : Possible p o)
    (coord : G) {n : Nat} (hn : drawsOf p ≤ n) (h63 : n ≤ 2 ^ 63) :
    ∃ outs : (Fin n → Fin (2 ^ 64)) → List (ASt E × Nat × LSpace E Count E Count (ASt E)),
      (∀ w, Ends (sessionH C (reads w) p coord 0 (editH C (reads w) o) (keeping countedList) Space.empty) (.ok (outs w, drawsOf p)) ∧
        Matches C p coord o (fun xs a => ∃ b, HoldsList a.2.2.mem a.1 b ∧ b.elems.reverse = xs) (outs w) ∧
        ((outs w)[0]?.elim 0 fun a => a.2.1) ≤ 2 * (p.size / p.datagauge) + 1) ∧
      ∀ j, ∑ w, ((outs w)[j + 1]?.elim 0 fun a => a.2.1) ≤ (2 ^ 64) ^ n * driverList p j := by
  have hos : o.size = p.batch := by
    rcases ho with ⟨rfl, -⟩ | rfl <;> rfl
  have hm : p.size + p.changes * p.batch < usizeMax := by
    have := hp.counters
    rw [Nat.mul_add] at this
    omega
  obtain ⟨hsize, hslots⟩ := plan_facts C hs h0 hos coord hn h63 hm
  generalize hplan : (startSketch C p coord).items :: stages (startSketch C p coord).items ((startSketch C p coord).plans C p.datagauge o p.changes) = plan at *
  have h1 : ∀ w : Fin n → Fin (2 ^ 64), ∃ outs : List (ASt E × Nat × LSpace E Count E Count (ASt E)),
      (Ends (sessionH C (reads w) p coord 0 (editH C (reads w) o) (keeping countedList) Space.empty) (.ok (outs, drawsOf p)) ∧
        Matches C p coord o (fun xs a => ∃ b, HoldsList a.2.2.mem a.1 b ∧ b.elems.reverse = xs) outs ∧
        (outs[0]?.elim 0 fun a => a.2.1) ≤ 2 * (p.size / p.datagauge) + 1) ∧
      ∀ j, (outs[j + 1]?.elim 0 fun a => a.2.1) ≤
        (plan[j]?.elim 0 fun its => 4 * deepest (levelsOf (its.map (Item.at (drawn w)))) + (2 * addsOf p + 1)) := by
    intro w
    obtain ⟨as, rng', k1, k2⟩ := sessionV_total (B := RazTree E Count × AStack E Nat) (scratch := withTree fun t => .ok (toListScratch t))
      (Q := fun xs a => a.1.elems = xs ∧ a.2.elems.reverse = xs) C (reads w) p coord 0 hp ho
      (fun t hr => ⟨(t, toListScratch t), rfl, rfl, toListScratch_elems hr.any⟩)
    obtain ⟨outs, k3, k4⟩ := C82_session hs hg (by omega) k1
    obtain ⟨k5, k6⟩ := trees_session hg hs hos h0 hn hm k1
    rw [hplan] at k6
    subst k5
    cases as with
    | nil => exact k4.elim
    | cons a as =>
      cases outs with
      | nil => exact k4.elim
      | cons x outs =>
        obtain ⟨t, b⟩ := a
        obtain ⟨a, wk, s⟩ := x
        obtain ⟨q1, q2, q3⟩ := k4
        obtain ⟨q4, q5⟩ := listsAfter_get q3
        refine ⟨_, ⟨k3, ⟨?_, fun i y hi => ?_⟩, ?_⟩, fun j => ?_⟩
        · have := k2.1
          simp only [List.length_cons] at this ⊢
          omega
        · cases i with
          | zero =>
            simp only [List.getElem?_cons_zero, Option.some.injEq] at hi
            subst hi
            exact ⟨b, q1, (k2.2 0 _ rfl).2⟩
          | succ i =>
            simp only [List.getElem?_cons_succ] at hi
            obtain ⟨t0, b0, b1, m1, ⟨t1, m2⟩, m3, m4⟩ := q5 (b := b) hi
            exact ⟨b1, m3, (k2.2 (i + 1) (t1, b1) (by simpa using m2)).2⟩
        · obtain ⟨its, i1, i2, i3⟩ := forall₂_get k6 (j := 0) rfl
          have r1 := (hsize 0 its i1).1
          simp only [List.getElem?_cons_zero, Option.elim]
          refine Nat.le_trans q2 ?_
          rw [tree_size (i2.inv.wf.resolve_left i2.full)]
          have : (levelsOf t.tree.items).length = (marksOf its).length := by
            rw [show t.tree.items = _ from i2.eq, at_levels]
            simp [levelsOf]
          simp only [this]
          omega
        · cases ho : outs[j]? with
          | none => simp [ho]
          | some y =>
            obtain ⟨t0, b0, b1, m1, -, -, m4⟩ := q5 (b := b) ho
            obtain ⟨its, i1, i2, i3⟩ := forall₂_get k6 m1
            have d := C88_depth i3
            simp only at d
            rw [i1]
            simp only [List.getElem?_cons_succ, ho, Option.elim, addsOf]
            rw [d, i2.eq, hos] at m4
            omega
  choose outs hq using h1
  refine ⟨outs, fun w => (hq w).1, fun j => ?_⟩
  refine Nat.le_trans (Finset.sum_le_sum fun w _ => (hq w).2 j) ?_
  cases hj : plan[j]? with
  | none => simp
  | some its =>
    simp only [Option.elim]
    have s1 := hslots _ (List.mem_of_getElem? hj)
    have c1 := (hsize _ _ hj).1
    have key := Nat.le_trans (depth_mean h63 s1.1 s1.2) (Nat.mul_le_mul_left _ (Nat.add_le_add_right (sixLogs_mono c1) 1))
    rw [Finset.sum_add_distrib, ← Finset.mul_sum, Finset.sum_const, Finset.card_univ, Fintype.card_fun, Fintype.card_fin, Fintype.card_fin, smul_eq_mul]
    unfold driverList
    change _ ≤ (2 ^ 64) ^ n * (2 * (2 * (sixLogs (p.size / p.datagauge + j * addsOf p) + 1) + addsOf p) + 1)
    change _ ≤ (2 ^ 64) ^ n * (sixLogs (p.size / p.datagauge + j * addsOf p) + 1) at key
    generalize (2 ^ 64) ^ n = N at *
    generalize sixLogs (p.size / p.datagauge + j * addsOf p) = S at *
    calc _ ≤ 4 * (N * (S + 1)) + N * (2 * addsOf p + 1) := Nat.add_le_add_right (Nat.mul_le_mul_left _ key) _
      _ = _ := by ring

/-! ### A session that meets the conditions -/

/-- The session of 40 elements: no element occurs twice. The bound for the first run after an edit. -/
example : ∃ outs : (Fin 28 → Fin (2 ^ 64)) → (Fin 64 → Fin (2 ^ 64)) → List (Skiplist × Nat × UqSpace (Fin 64) Count),
    (∀ w v, Ends (sessionH exFin (reads w) exLong 0 0 (editH exFin (reads w) (.insert 2)) (keeping (countedUnique (hashOf v) 6)) OSpace.empty) (.ok (outs w v, 28)) ∧
      Matches exFin exLong 0 (.insert 2) (fun xs a => Finds (hashOf v) xs a.1 a.2.2) (outs w v) ∧ ((outs w v)[0]?.elim 0 fun a => a.2.1) ≤ 41) ∧
    ∑ w, ∑ v, ((outs w v)[1]?.elim 0 fun a => a.2.1) ≤ (2 ^ 64) ^ 28 * ((2 ^ 64) ^ Fintype.card (Fin 64) * 143657) := by
  obtain ⟨outs, h1, h2⟩ := C99_bound (L := 6) (by decide) (by decide) exFin (p := exLong) ⟨by decide, by decide, by decide, by decide⟩ rfl (by decide) (by decide)
    (o := .insert 2) (.inl ⟨rfl, .inl (by decide)⟩) 0 (n := 28) (by decide) (by decide) (r := fun _ => 1) (by
      have h : ∀ i, i ≤ 4 → ∀ x : Fin 64, (sessionAt ((Edit.insert 2).spec exFin) exFin exLong.size 0 i).1.count x ≤ 1 := by decide +kernel
      exact h)
  refine ⟨outs, h1, Nat.le_trans (h2 0) (Nat.mul_le_mul_left _ (Nat.mul_le_mul_left _ ?_))⟩
  decide +kernel

/-- The leaves of this session, with the first 28 numbers as random numbers: at most 2, 4, 6, 8 and 10 elements by `C99_leaves`. -/
example : (sessionV (M := Count) exFin (reads (n := 28) fun k => ⟨k.1, by omega⟩) exLong 0 0
      (fun s r => (Edit.insert 2).run exFin (reads (n := 28) fun k => ⟨k.1, by omega⟩) s r) (withTree fun _ => .ok ())).map (fun x => x.1.map fun a => widest a.1.tree) =
    .ok [2, 2, 3, 4, 4] := by
  decide +kernel

/-- The same session with `to_list`: the mean is at most 129 steps after the first edit. -/
example : ∃ outs : (Fin 28 → Fin (2 ^ 64)) → List (ASt (Fin 64) × Nat × LSpace (Fin 64) Count (Fin 64) Count (ASt (Fin 64))),
    (∀ w, Ends (sessionH exFin (reads w) exLong 0 0 (editH exFin (reads w) (.insert 2)) (keeping countedList) Space.empty) (.ok (outs w, 28)) ∧
      Matches exFin exLong 0 (.insert 2) (fun xs a => ∃ b, HoldsList a.2.2.mem a.1 b ∧ b.elems.reverse = xs) (outs w) ∧ ((outs w)[0]?.elim 0 fun a => a.2.1) ≤ 41) ∧
    ∑ w, ((outs w)[1]?.elim 0 fun a => a.2.1) ≤ (2 ^ 64) ^ 28 * 129 := by
  obtain ⟨outs, h1, h2⟩ := C99_list exFin (p := exLong) ⟨by decide, by decide, by decide, by decide⟩ rfl (by decide) (by decide)
    (o := .insert 2) (.inl ⟨rfl, .inl (by decide)⟩) 0 (n := 28) (by decide) (by decide)
  exact ⟨outs, h1, Nat.le_trans (h2 0) (Nat.mul_le_mul_left _ (by decide +kernel))⟩

end Iodyn.Incr
