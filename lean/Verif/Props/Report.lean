import Verif.Spec.Report
import Verif.Props.Actions
import Mathlib.Tactic.Linarith
import Mathlib.Tactic.FieldSimp
import Mathlib.Tactic.Ring
/-
**C105.** The numbers that the example programs print.
-/
namespace Iodyn.Eval.Rep
open Iodyn

theorem column_ok {l : List Int} (h : Fits l) : column l = .ok l := by
  induction l with
  | nil => rfl
  | cons a l ih =>
    have h1 : nanoseconds a = .ok a := if_pos (h a (by simp))
    have h2 := ih fun t ht => h t (by simp [ht])
    simp only [column, List.mapM_cons, h1, bind, Except.bind] at h2 ⊢
    rw [h2]
    rfl

theorem column_error {l : List Int} (h : ¬ Fits l) : column l = .error .unwrapNone := by
  induction l with
  | nil => exact absurd (by simp [Fits]) h
  | cons a l ih =>
    by_cases h1 : -2 ^ 63 ≤ a ∧ a < 2 ^ 63
    · have h2 := ih fun hl => h fun t ht => by
        rcases List.mem_cons.1 ht with rfl | ht
        · exact h1
        · exact hl t ht
      have h3 : nanoseconds a = .ok a := if_pos h1
      simp only [column, List.mapM_cons, h3, bind, Except.bind] at h2 ⊢
      rw [h2]
    · have h3 : nanoseconds a = .error .unwrapNone := by
        unfold nanoseconds
        rw [if_neg h1]
      simp only [column, List.mapM_cons, h3, bind, Except.bind]

theorem index_ok {A : Type} {v : List A} {i : Nat} (h : i < v.length) : index v i = .ok v[i] := by
  simp [index, h]

theorem index_error {A : Type} {v : List A} {i : Nat} (h : v.length ≤ i) : index v i = .error .outOfRange := by
  simp [index, h]

theorem take_snoc {A : Type} {l : List A} {m : Nat} (h : m < l.length) : l.take (m + 1) = l.take m ++ [l[m]] := by
  rw [List.take_add_one, List.getElem?_eq_getElem h]
  rfl

theorem changeTimes_fold (native inc : List Int) : ∀ m, m ≤ native.length → m ≤ inc.length →
    (List.range m).foldlM (m := Except Panic) (fun v i => do
      let nc ← index native i
      let ac ← index inc i
      return (v.1 ++ [ms nc], v.2 ++ [ms ac])) (([], []) : List Rat × List Rat) =
      .ok ((native.take m).map ms, (inc.take m).map ms) := by
  intro m
  induction m with
  | zero => intros; rfl
  | succ m ih =>
    intro h1 h2
    rw [List.range_succ, List.foldlM_append, ih (by omega) (by omega)]
    simp only [List.foldlM_cons, List.foldlM_nil, bind, Except.bind, pure, Except.pure]
    rw [index_ok (by omega : m < native.length), index_ok (by omega : m < inc.length)]
    rw [take_snoc (by omega : m < native.length), take_snoc (by omega : m < inc.length), List.map_append, List.map_append]
    rfl

theorem changeTimes_ok {native inc : List Int} {changes : Nat} (h1 : changes < native.length) (h2 : changes < inc.length) :
    changeTimes native inc changes = .ok ((native.take (changes + 1)).map ms, (inc.take (changes + 1)).map ms) :=
  changeTimes_fold native inc _ h1 h2

theorem foldlM_error {A B : Type} {f : B → A → P B} {e : Panic} {l1 l2 : List A} {a : A} {b b' : B} (h1 : l1.foldlM f b = .ok b')
    (h2 : f b' a = .error e) : (l1 ++ a :: l2).foldlM f b = .error e := by
  rw [List.foldlM_append, h1]
  simp only [bind, Except.bind, List.foldlM_cons, h2]

theorem range_split {m n : Nat} (h : m < n) : ∃ l, List.range n = List.range m ++ m :: l := by
  refine ⟨(List.range (n - m - 1)).map (m + 1 + ·), ?_⟩
  apply List.ext_getElem
  · simp
    omega
  · intro i h1 h2
    simp only [List.getElem_range, List.getElem_append, List.length_range, List.getElem_cons, List.getElem_map]
    split
    · rfl
    · split
      · omega
      · omega

theorem changeTimes_error {native inc : List Int} {changes : Nat} (h : native.length ≤ changes ∨ inc.length ≤ changes) :
    changeTimes native inc changes = .error .outOfRange := by
  obtain ⟨m, hm, h1, h2, h3⟩ : ∃ m, m < changes + 1 ∧ m ≤ native.length ∧ m ≤ inc.length ∧ (m = native.length ∨ m = inc.length) :=
    ⟨min native.length inc.length, by omega, by omega, by omega, by omega⟩
  obtain ⟨l, hl⟩ := range_split hm
  unfold changeTimes
  rw [hl]
  refine foldlM_error (changeTimes_fold native inc m h1 h2) ?_
  simp only [bind, Except.bind]
  by_cases h4 : m = native.length
  · rw [index_error (by omega : native.length ≤ m)]
  · rw [index_ok (by omega : m < native.length), index_error (by omega : inc.length ≤ m)]

theorem sum_ms (l : List Int) : (l.map ms).sum = (l.sum : Rat) / 1000000 := by
  induction l with
  | nil => simp
  | cons a l ih => simp [ih, ms]; ring

theorem total_cons (a : Int) (l : List Int) (k : Nat) : total (a :: l) k = a + (l.take k).sum := by
  simp [total]

/-- The fold for the crossover over the first changes. -/
theorem cross_fold (n0 a0 : Int) (ns as : List Int) (hl : ns.length = as.length) : ∀ m, m ≤ ns.length → ∃ c,
    (((ns.map ms).zip (as.map ms)).take m).zipIdx.foldl crossStep (ms n0, ms a0, 0) =
      (((total (n0 :: ns) m : Int) : Rat) / 1000000, ((total (a0 :: as) m : Int) : Rat) / 1000000, c) ∧
    LastOvertaking (n0 :: ns) (a0 :: as) m c := by
  intro m
  induction m with
  | zero =>
    intro _
    refine ⟨0, by simp [total, ms], .inl rfl, fun k h1 h2 h3 => by omega⟩
  | succ m ih =>
    intro hm
    obtain ⟨c, h1, h2, h3⟩ := ih (by omega)
    have hz : ((ns.map ms).zip (as.map ms)).take (m + 1) =
        ((ns.map ms).zip (as.map ms)).take m ++ [(ms (ns[m]'(by omega)), ms (as[m]'(by omega)))] := by
      rw [take_snoc (by simp; omega)]
      simp
    have hlen : (((ns.map ms).zip (as.map ms)).take m).length = m := by
      simp
      omega
    have tn : total (n0 :: ns) (m + 1) = total (n0 :: ns) m + ns[m]'(by omega) := by
      rw [total_cons, total_cons, take_snoc (by omega), List.sum_append, List.sum_singleton]
      ring
    have ta : total (a0 :: as) (m + 1) = total (a0 :: as) m + as[m]'(by omega) := by
      rw [total_cons, total_cons, take_snoc (by omega), List.sum_append, List.sum_singleton]
      ring
    rw [hz, List.zipIdx_append, List.foldl_append, h1, hlen]
    have en : ((total (n0 :: ns) m : Int) : Rat) / 1000000 + ms (ns[m]'(by omega)) = ((total (n0 :: ns) (m + 1) : Int) : Rat) / 1000000 := by
      rw [tn, ms]
      push_cast
      ring
    have ea : ((total (a0 :: as) m : Int) : Rat) / 1000000 + ms (as[m]'(by omega)) = ((total (a0 :: as) (m + 1) : Int) : Rat) / 1000000 := by
      rw [ta, ms]
      push_cast
      ring
    have hlt : ∀ x y : Int, (x : Rat) / 1000000 < (y : Rat) / 1000000 ↔ x < y := by
      intro x y
      rw [div_lt_div_iff_of_pos_right (by norm_num)]
      exact_mod_cast Iff.rfl
    have hle : ∀ x y : Int, (x : Rat) / 1000000 ≤ (y : Rat) / 1000000 ↔ x ≤ y := by
      intro x y
      rw [div_le_div_iff_of_pos_right (by norm_num)]
      exact_mod_cast Iff.rfl
    simp only [List.zipIdx_cons, List.zipIdx_nil, List.foldl_cons, List.foldl_nil, crossStep, en, ea, hlt, ge_iff_le, hle]
    by_cases hx : total (n0 :: ns) m < total (a0 :: as) m ∧ total (a0 :: as) (m + 1) ≤ total (n0 :: ns) (m + 1)
    · rw [if_pos hx]
      refine ⟨m + 1, by simp, .inr ⟨by omega, by omega, ?_⟩, fun k h1 _ h3 => by omega⟩
      simpa [Overtakes] using hx
    · rw [if_neg hx]
      refine ⟨c, rfl, ?_, ?_⟩
      · rcases h2 with h2 | ⟨h2, h4, h5⟩
        · exact .inl h2
        · exact .inr ⟨h2, by omega, h5⟩
      · intro k h4 h5 h6
        rcases Nat.lt_or_ge m k with h7 | h7
        · obtain rfl : k = m + 1 := by omega
          simpa [Overtakes] using hx
        · exact h3 k h4 h5 h7

theorem quotient_some {a b q : Rat} : quotient a b = some q ↔ b ≠ 0 ∧ q * b = a := by
  unfold quotient
  by_cases h : b = 0
  · simp [h]
  · rw [if_neg h]
    constructor
    · intro h1
      cases h1
      exact ⟨h, by field_simp⟩
    · rintro ⟨-, rfl⟩
      congr 1
      field_simp

theorem summarise_ok (n0 a0 : Int) (ns as : List Int) (hl : ns.length = as.length) :
    ∃ r, summarise ((n0 :: ns).map ms) ((a0 :: as).map ms) = .ok r ∧ Says n0 a0 ns as r := by
  obtain ⟨c, hc, hlast⟩ := cross_fold n0 a0 ns as hl ns.length le_rfl
  have hfull : ((ns.map ms).zip (as.map ms)).take ns.length = (ns.map ms).zip (as.map ms) := by
    apply List.take_of_length_le
    simp
  rw [hfull] at hc
  have hcr : crossover (ms n0) (ms a0) (ns.map ms) (as.map ms) = c := by
    rw [crossover, hc]
  refine ⟨_, rfl, ?_, ?_, ?_, ?_, ?_, ?_⟩
  · simp [ms]
  · simp [ms]
  · intro o
    rw [quotient_some]
    simp only [ms]
    constructor
    · rintro ⟨h1, h2⟩
      have h3 : n0 ≠ 0 := by
        rintro rfl
        simp at h1
      refine ⟨h3, ?_⟩
      linarith
    · rintro ⟨h1, h2⟩
      refine ⟨?_, by linarith⟩
      have : (n0 : Rat) ≠ 0 := by exact_mod_cast h1
      simpa using this
  · intro u
    simp only [List.map_cons, List.eraseIdx_cons_zero, quotient_some, sum_ms, List.length_map]
    constructor
    · rintro ⟨h1, h2⟩
      refine ⟨by rintro rfl; simp at h1, by linarith⟩
    · rintro ⟨h1, h2⟩
      refine ⟨?_, by linarith⟩
      have : as.length ≠ 0 := by simpa using h1
      exact_mod_cast this
  · intro s
    simp only [List.map_cons, List.eraseIdx_cons_zero, sum_ms, List.length_map, Option.bind_eq_some_iff, quotient_some]
    constructor
    · rintro ⟨u, ⟨h1, h2⟩, h3, h4⟩
      have h5 : (as.sum : Rat) = u * as.length * 1000000 := by linarith
      have h6 : as.sum ≠ 0 := by
        intro h
        rw [h] at h5
        have : u * (as.length : Rat) = 0 := by
          simpa using h5.symm
        rcases mul_eq_zero.1 this with h | h
        · exact h3 h
        · exact h1 h
      refine ⟨h6, ?_⟩
      rw [h5]
      have : (n0 : Rat) = s * u * 1000000 := by
        rw [h4, ms]
        ring
      rw [this]
      ring
    · rintro ⟨h1, h2⟩
      have h3 : as ≠ [] := by
        rintro rfl
        simp at h1
      have h4 : (as.length : Rat) ≠ 0 := by
        have : as.length ≠ 0 := by simpa using h3
        exact_mod_cast this
      have h5 : (as.sum : Rat) ≠ 0 := by exact_mod_cast h1
      refine ⟨(as.sum : Rat) / 1000000 / as.length, ⟨h4, by field_simp⟩, by simp [h4]; exact_mod_cast h1, ?_⟩
      rw [ms]
      field_simp
      linarith
  · simpa [hcr] using hlast

/-- **C105.** With one time for the initial run and one for each change the report is made without panic, and it says: the times of the
initial runs; their quotient; the mean of the times of the changes; the quotient of the initial time of the other program and that mean;
and as crossover the number of the last change with which the incremental program overtakes the other one, 0 if there is none. A
quotient is infinite or not a number exactly if it is one by zero, in particular the mean of no changes. -/
theorem C105_report (n0 a0 : Int) (ns as : List Int) (hl : ns.length = as.length) (hn : Fits (n0 :: ns)) (ha : Fits (a0 :: as)) :
    ∃ r, report (n0 :: ns) (a0 :: as) ns.length = .ok r ∧ Says n0 a0 ns as r := by
  obtain ⟨r, h1, h2⟩ := summarise_ok n0 a0 ns as hl
  refine ⟨r, ?_, h2⟩
  have h3 := changeTimes_ok (native := n0 :: ns) (inc := a0 :: as) (changes := ns.length) (by simp) (by simp [hl])
  rw [List.take_of_length_le (by simp), List.take_of_length_le (by simp [hl])] at h3
  simp only [report, column_ok hn, column_ok ha, bind, Except.bind, h3]
  exact h1

/-- **C105.** The report panics exactly if a time does not fit in an `i64` of nanoseconds, or one of the tables has no time for some change. -/
theorem C105_panics (native inc : List Int) (changes : Nat) :
    (∃ e, report native inc changes = .error e) ↔
      ¬ Fits native ∨ ¬ Fits inc ∨ native.length ≤ changes ∨ inc.length ≤ changes := by
  constructor
  · rintro ⟨e, he⟩
    by_contra h
    push Not at h
    obtain ⟨h1, h2, h3, h4⟩ := h
    simp only [report, column_ok h1, column_ok h2, bind, Except.bind, changeTimes_ok h3 h4] at he
    rcases native with _ | ⟨n0, ns⟩
    · simp at h3
    rcases inc with _ | ⟨a0, as⟩
    · simp at h4
    obtain ⟨r, h5, -⟩ := summarise_ok n0 a0 (ns.take changes) (as.take changes) (by simp at h3 h4 ⊢; omega)
    simp only [List.take_succ_cons] at he
    rw [h5] at he
    cases he
  · intro h
    by_cases h1 : Fits native
    · by_cases h2 : Fits inc
      · refine ⟨.outOfRange, ?_⟩
        have h3 : native.length ≤ changes ∨ inc.length ≤ changes := by
          rcases h with h | h | h
          · exact absurd h1 h
          · exact absurd h2 h
          · exact h
        simp only [report, column_ok h1, column_ok h2, bind, Except.bind, changeTimes_error h3]
      · exact ⟨.unwrapNone, by simp only [report, column_ok h1, column_error h2, bind, Except.bind]⟩
    · exact ⟨.unwrapNone, by simp only [report, column_error h1, bind, Except.bind]⟩

/-- **C105**, in part: from the printed crossover on the incremental program is not behind, and before it is — if no change takes it more
time than it takes the other program. If 0 is printed then it was behind, or not behind, all the time. Without that the claim is false,
see `C105_lost_again` and `C105_zero`. -/
theorem C105_break_even_partial {n0 a0 : Int} {ns as : List Int} (hl : ns.length = as.length) {r : Report} (hr : Says n0 a0 ns as r)
    (hle : ∀ i (h1 : i < ns.length) (h2 : i < as.length), as[i] ≤ ns[i]) :
    (r.crossover ≠ 0 → BreakEven (n0 :: ns) (a0 :: as) ns.length r.crossover) ∧
    (r.crossover = 0 → n0 < a0 → ∀ k, k ≤ ns.length → total (n0 :: ns) k < total (a0 :: as) k) ∧
    (r.crossover = 0 → a0 ≤ n0 → ∀ k, k ≤ ns.length → total (a0 :: as) k ≤ total (n0 :: ns) k) := by
  obtain ⟨-, -, -, -, -, h1, h2⟩ := hr
  have step : ∀ k, k < ns.length → total (n0 :: ns) k - total (a0 :: as) k ≤ total (n0 :: ns) (k + 1) - total (a0 :: as) (k + 1) := by
    intro k hk
    have := hle k hk (by omega)
    rw [total_cons, total_cons, total_cons, total_cons, take_snoc hk, take_snoc (by omega : k < as.length), List.sum_append, List.sum_append,
      List.sum_singleton, List.sum_singleton]
    omega
  have mono : ∀ k d, k + d ≤ ns.length →
      total (n0 :: ns) k - total (a0 :: as) k ≤ total (n0 :: ns) (k + d) - total (a0 :: as) (k + d) := by
    intro k d
    induction d with
    | zero => intros; simp
    | succ d ih =>
      intro h
      exact le_trans (ih (by omega)) (step (k + d) (by omega))
  refine ⟨?_, ?_, ?_⟩
  · intro hc
    rcases h1 with h1 | ⟨h1, h3, h4, h5⟩
    · exact absurd h1 hc
    · constructor
      · intro k hk
        have := mono k (r.crossover - 1 - k) (by omega)
        rw [show k + (r.crossover - 1 - k) = r.crossover - 1 by omega] at this
        omega
      · intro k hk hk2
        have := mono r.crossover (k - r.crossover) (by omega)
        rw [show r.crossover + (k - r.crossover) = k by omega] at this
        omega
  · intro hc h0 k
    induction k with
    | zero => intro _; simpa [total] using h0
    | succ k ih =>
      intro hk
      have h3 := h2 (k + 1) (by omega) (by omega) hk
      have h4 := ih (by omega)
      by_contra h5
      exact h3 ⟨by simpa using h4, by omega⟩
  · intro hc h0 k hk
    have := mono 0 k (by omega)
    rw [Nat.zero_add] at this
    have e1 : total (n0 :: ns) 0 = n0 := by simp [total]
    have e2 : total (a0 :: as) 0 = a0 := by simp [total]
    omega

/-- A session: the incremental program takes 50 at first and then 10 for each of four changes, the other one 20 each time. It is
overtaken with the third change. -/
example : ∃ r, report [20, 20, 20, 20, 20] [50, 10, 10, 10, 10] 4 = .ok r ∧ Says 20 50 [20, 20, 20, 20] [10, 10, 10, 10] r ∧ r.crossover = 3 ∧
    BreakEven [20, 20, 20, 20, 20] [50, 10, 10, 10, 10] 4 3 := by
  obtain ⟨r, h1, h2⟩ := C105_report 20 50 [20, 20, 20, 20] [10, 10, 10, 10] rfl (by unfold Fits; decide) (by unfold Fits; decide)
  have hc : r.crossover = 3 := by
    have := congrArg (fun x => x.toOption.map (·.crossover)) h1
    have h3 : (report [20, 20, 20, 20, 20] [50, 10, 10, 10, 10] 4).toOption.map (·.crossover) = some 3 := by decide +kernel
    exact (Option.some.inj (h3.symm.trans this)).symm
  have h3 := (C105_break_even_partial (by rfl) h2 (by simp; decide)).1 (by rw [hc]; decide)
  rw [hc] at h3
  exact ⟨r, h1, h2, hc, h3⟩

/-- **C105, violated.** The crossover is the last one, but nothing is said about afterwards: here 1 is printed, and the incremental program is
behind again after the second change, to the end. -/
theorem C105_lost_again : ∃ native inc, Fits native ∧ Fits inc ∧ native.length = 4 ∧ inc.length = 4 ∧
    (report native inc 3).toOption.map (·.crossover) = some 1 ∧ ¬ BreakEven native inc 3 1 ∧ total native 3 < total inc 3 := by
  refine ⟨[2, 10, 1, 1], [5, 1, 20, 1], by unfold Fits; decide, by unfold Fits; decide, rfl, rfl, by decide +kernel, ?_, by decide⟩
  intro h
  exact absurd (h.2 3 (by omega) le_rfl) (by decide)

/-- **C105, violated.** 0, or "off chart", is printed if the incremental program is behind all the time, and also if it is ahead from the
start: the two cannot be told apart by the crossover. -/
theorem C105_zero : ∃ native inc native' inc', Fits native ∧ Fits inc ∧ Fits native' ∧ Fits inc' ∧
    (report native inc 2).toOption.map (·.crossover) = some 0 ∧ (report native' inc' 2).toOption.map (·.crossover) = some 0 ∧
    (∀ k, k ≤ 2 → total native k < total inc k) ∧ (∀ k, k ≤ 2 → total inc' k < total native' k) :=
  ⟨[1, 1, 1], [5, 1, 1], [5, 1, 1], [1, 1, 1], by unfold Fits; decide, by unfold Fits; decide, by unfold Fits; decide, by unfold Fits; decide,
    by decide +kernel, by decide +kernel, by decide, by decide⟩

theorem dataRows_fold (edits comps : List Int) : ∀ m, m ≤ edits.length → m ≤ comps.length →
    (List.range m).foldlM (m := Except Panic) (fun (st : Rat × Rat × List (Nat × Rat × Rat)) i => do
      let e ← index edits i
      let en := st.1 + ms e
      let c ← index comps i
      let rn := st.2.1 + ms c
      return (en, rn, st.2.2 ++ [(i, en, rn)])) (0, 0, []) =
      .ok ((((edits.take m).sum : Int) : Rat) / 1000000, (((comps.take m).sum : Int) : Rat) / 1000000,
        (List.range m).map fun i => (i, ((total edits i : Int) : Rat) / 1000000, ((total comps i : Int) : Rat) / 1000000)) := by
  intro m
  induction m with
  | zero => intros; simp [pure, Except.pure]
  | succ m ih =>
    intro h1 h2
    have e1 : (((edits.take m).sum : Int) : Rat) / 1000000 + ms edits[m] = (((edits.take (m + 1)).sum : Int) : Rat) / 1000000 := by
      rw [take_snoc (by omega : m < edits.length), List.sum_append, List.sum_singleton, ms]
      push_cast
      ring
    have e2 : (((comps.take m).sum : Int) : Rat) / 1000000 + ms comps[m] = (((comps.take (m + 1)).sum : Int) : Rat) / 1000000 := by
      rw [take_snoc (by omega : m < comps.length), List.sum_append, List.sum_singleton, ms]
      push_cast
      ring
    rw [List.range_succ, List.foldlM_append, ih (by omega) (by omega)]
    simp only [List.foldlM_cons, List.foldlM_nil, bind, Except.bind, pure, Except.pure]
    rw [index_ok (by omega : m < edits.length), index_ok (by omega : m < comps.length)]
    simp only [e1, e2, List.map_append, List.map_cons, List.map_nil, total]

/-- **C105**, in part: row `i` of the data file has the time of the creation and the first `i` edits, and that of the first computation and those
after the first `i` changes. Missing: the row of the last change, see `C105_last_missing`. -/
theorem C105_data_partial {edits comps : List Int} {changes : Nat} (h1 : edits.length = changes + 1) (h2 : comps.length = changes + 1) :
    dataRows edits comps changes =
      .ok ((List.range changes).map fun i => (i, ((total edits i : Int) : Rat) / 1000000, ((total comps i : Int) : Rat) / 1000000)) := by
  unfold dataRows
  rw [dataRows_fold edits comps changes (by omega) (by omega)]
  rfl

example : dataRows [4000000, 1000000, 2000000] [6000000, 3000000, 9000000] 2 = .ok [(0, 4, 6), (1, 5, 9)] := by
  rw [C105_data_partial rfl rfl]
  congr 1
  simp [List.range_succ, total]
  norm_num

/-- **C105, violated.** The last change is not in the data file: whatever the last edit and the last computation took, the rows are the same, and
there are only as many as there are changes, with the initial run among them. -/
theorem C105_last_missing {edits comps : List Int} {changes : Nat} (h1 : edits.length = changes) (h2 : comps.length = changes) (x y x' y' : Int) :
    dataRows (edits ++ [x]) (comps ++ [y]) changes = dataRows (edits ++ [x']) (comps ++ [y']) changes ∧
    ∃ rows, dataRows (edits ++ [x]) (comps ++ [y]) changes = .ok rows ∧ rows.length = changes := by
  have ht : ∀ (l : List Int) (z z' : Int), l.length = changes → ∀ i < changes, total (l ++ [z]) i = total (l ++ [z']) i := by
    intro l z z' hl i hi
    simp only [total]
    rw [List.take_append_of_le_length (by omega), List.take_append_of_le_length (by omega)]
  rw [C105_data_partial (by simp [h1]) (by simp [h2]), C105_data_partial (by simp [h1]) (by simp [h2])]
  refine ⟨?_, _, rfl, by simp⟩
  congr 1
  apply List.map_congr_left
  intro i hi
  rw [List.mem_range] at hi
  rw [ht edits x x' h1 i hi, ht comps y y' h2 i hi]

example : dataRows ([4, 1] ++ [2]) ([6, 3] ++ [9]) 2 = dataRows ([4, 1] ++ [200]) ([6, 3] ++ [900]) 2 :=
  (C105_last_missing (edits := [4, 1]) (comps := [6, 3]) rfl rfl 2 9 200 900).1

theorem columns2_ok {rows : List (List Int)} (h1 : ∀ d ∈ rows, d.length = 2) (h2 : ∀ d ∈ rows, Fits d) :
    ∃ ps, columns2 rows = .ok ps ∧ rows = ps.map fun p => [p.1, p.2] := by
  induction rows with
  | nil => exact ⟨[], rfl, rfl⟩
  | cons d rows ih =>
    obtain ⟨ps, h3, h4⟩ := ih (fun d hd => h1 d (by simp [hd])) (fun d hd => h2 d (by simp [hd]))
    have h5 := h1 d (by simp)
    rcases d with _ | ⟨a, _ | ⟨b, _ | ⟨c, d⟩⟩⟩
    · simp at h5
    · simp at h5
    · have ha : nanoseconds a = .ok a := if_pos (h2 [a, b] (by simp) a (by simp))
      have hb : nanoseconds b = .ok b := if_pos (h2 [a, b] (by simp) b (by simp))
      refine ⟨(a, b) :: ps, ?_, by simp [h4]⟩
      unfold columns2 at h3 ⊢
      rw [List.mapM_cons, h3]
      simp [index, ha, hb, bind, Except.bind, pure, Except.pure]
    · simp at h5

theorem changeTimes2_fold (native inc : List (Int × Int)) (hn : ∀ p ∈ native, -2 ^ 63 ≤ p.1 + p.2 ∧ p.1 + p.2 < 2 ^ 63)
    (ha : ∀ p ∈ inc, -2 ^ 63 ≤ p.1 + p.2 ∧ p.1 + p.2 < 2 ^ 63) : ∀ m, m ≤ native.length → m ≤ inc.length →
    (List.range m).foldlM (m := Except Panic) (fun v i => do
      let n ← index native i
      let nc ← addI n.1 n.2
      let a ← index inc i
      let ac ← addI a.1 a.2
      return (v.1 ++ [ms nc], v.2 ++ [ms ac])) (([], []) : List Rat × List Rat) =
      .ok ((native.take m).map (fun p => ms (p.1 + p.2)), (inc.take m).map (fun p => ms (p.1 + p.2))) := by
  intro m
  induction m with
  | zero => intros; rfl
  | succ m ih =>
    intro h1 h2
    have e1 : addI (native[m]).1 (native[m]).2 = .ok ((native[m]).1 + (native[m]).2) := if_pos (hn _ (List.getElem_mem _))
    have e2 : addI (inc[m]).1 (inc[m]).2 = .ok ((inc[m]).1 + (inc[m]).2) := if_pos (ha _ (List.getElem_mem _))
    rw [List.range_succ, List.foldlM_append, ih (by omega) (by omega)]
    simp only [List.foldlM_cons, List.foldlM_nil, bind, Except.bind, pure, Except.pure]
    rw [index_ok (by omega : m < native.length), index_ok (by omega : m < inc.length)]
    simp only [e1, e2]
    rw [take_snoc (by omega : m < native.length), take_snoc (by omega : m < inc.length), List.map_append, List.map_append]
    rfl

/-- **C105.** The report of the adder is that on the sums of the two times of each row, tokenize and parse, if these fit. -/
theorem C105_adder (n0 a0 : List Int) (ns as : List (List Int)) (hl : ns.length = as.length)
    (h2 : ∀ d ∈ n0 :: ns ++ a0 :: as, d.length = 2) (hf : ∀ d ∈ n0 :: ns ++ a0 :: as, Fits (d.sum :: d)) :
    ∃ r, report2 (n0 :: ns) (a0 :: as) ns.length = .ok r ∧ Says n0.sum a0.sum (ns.map List.sum) (as.map List.sum) r := by
  obtain ⟨ps, h3, h4⟩ := columns2_ok (rows := n0 :: ns) (fun d hd => h2 d (by simp at hd ⊢; tauto)) (fun d hd t ht =>
    hf d (by simp at hd ⊢; tauto) t (by simp [ht]))
  obtain ⟨qs, h5, h6⟩ := columns2_ok (rows := a0 :: as) (fun d hd => h2 d (by simp at hd ⊢; tauto)) (fun d hd t ht =>
    hf d (by simp at hd ⊢; tauto) t (by simp [ht]))
  have hp : ∀ p ∈ ps, -2 ^ 63 ≤ p.1 + p.2 ∧ p.1 + p.2 < 2 ^ 63 := by
    intro p hp
    have : [p.1, p.2] ∈ n0 :: ns := by
      rw [h4]
      exact List.mem_map.2 ⟨p, hp, rfl⟩
    have := hf [p.1, p.2] (List.mem_append_left _ this) ([p.1, p.2].sum) (by simp)
    simpa using this
  have hq : ∀ p ∈ qs, -2 ^ 63 ≤ p.1 + p.2 ∧ p.1 + p.2 < 2 ^ 63 := by
    intro p hp
    have : [p.1, p.2] ∈ a0 :: as := by
      rw [h6]
      exact List.mem_map.2 ⟨p, hp, rfl⟩
    have := hf [p.1, p.2] (List.mem_append_right _ this) ([p.1, p.2].sum) (by simp)
    simpa using this
  have hpl : ps.length = ns.length + 1 := by simpa using (congrArg List.length h4).symm
  have hql : qs.length = ns.length + 1 := by simpa [hl] using (congrArg List.length h6).symm
  have h7 := changeTimes2_fold ps qs hp hq (ns.length + 1) (by omega) (by omega)
  rw [List.take_of_length_le (by omega), List.take_of_length_le (by omega)] at h7
  have e1 : ps.map (fun p => ms (p.1 + p.2)) = (n0.sum :: ns.map List.sum).map ms := by
    rw [← List.map_cons, h4]
    simp
  have e2 : qs.map (fun p => ms (p.1 + p.2)) = (a0.sum :: as.map List.sum).map ms := by
    rw [← List.map_cons, h6]
    simp
  rw [e1, e2] at h7
  obtain ⟨r, h8, h9⟩ := summarise_ok n0.sum a0.sum (ns.map List.sum) (as.map List.sum) (by simp [hl])
  refine ⟨r, ?_, h9⟩
  simp only [report2, h3, h5, bind, Except.bind]
  unfold changeTimes2
  rw [h7]
  exact h8

example : ∃ r, report2 [[1, 2], [3, 4]] [[10, 20], [0, 1]] 1 = .ok r ∧ Says 3 30 [7] [1] r := by
  simpa using C105_adder [1, 2] [10, 20] [[3, 4]] [[0, 1]] rfl (by decide) (by unfold Fits; decide)

theorem foldlM_steps {A B : Type} {f : A → B → P A} : ∀ {l : List B} {a r : A}, l.foldlM f a = .ok r → ∀ x ∈ l, ∃ v v', f v x = .ok v'
  | [], _, _, _, x, hx => by simp at hx
  | b :: l, a, r, h, x, hx => by
    rw [List.foldlM_cons] at h
    obtain ⟨a', h1, h2⟩ := bind_ok.1 h
    rcases List.mem_cons.1 hx with rfl | hx
    · exact ⟨a, a', h1⟩
    · exact foldlM_steps h2 x hx

theorem mapM_steps {A B : Type} {f : A → P B} : ∀ {l : List A} {r : List B}, l.mapM f = .ok r → List.Forall₂ (fun a b => f a = .ok b) l r
  | [], r, h => by
    rw [List.mapM_nil] at h
    cases h
    exact .nil
  | a :: l, r, h => by
    rw [List.mapM_cons] at h
    obtain ⟨b, h1, h⟩ := bind_ok.1 h
    obtain ⟨bs, h2, h⟩ := bind_ok.1 h
    cases h
    exact .cons h1 (mapM_steps h2)

theorem index_fits {A : Type} {v : List A} {i : Nat} {a : A} (h : index v i = .ok a) : v[i]? = some a := by
  unfold index at h
  split at h
  · rename_i x hx
    cases h
    exact hx
  · cases h

theorem columns2_rows {rows : List (List Int)} {ps : List (Int × Int)} (h : columns2 rows = .ok ps) :
    List.Forall₂ (fun d p => ∃ t, d = p.1 :: p.2 :: t ∧ Fits [p.1, p.2]) rows ps := by
  refine (mapM_steps h).imp ?_
  intro d p hp
  obtain ⟨a, h1, hp⟩ := bind_ok.1 hp
  obtain ⟨a', h2, hp⟩ := bind_ok.1 hp
  obtain ⟨b, h3, hp⟩ := bind_ok.1 hp
  obtain ⟨b', h4, hp⟩ := bind_ok.1 hp
  cases hp
  have e : ∀ {x y}, nanoseconds x = .ok y → x = y ∧ (-2 ^ 63 ≤ y ∧ y < 2 ^ 63) := by
    intro x y hxy
    unfold nanoseconds at hxy
    split at hxy
    · rename_i hr
      cases hxy
      exact ⟨rfl, hr⟩
    · cases hxy
  obtain ⟨rfl, ha⟩ := e h2
  obtain ⟨rfl, hb⟩ := e h4
  have h1 := index_fits h1
  have h3 := index_fits h3
  rcases d with _ | ⟨x, _ | ⟨y, t⟩⟩
  · cases h1
  · cases h3
  · cases h1
    cases h3
    refine ⟨t, rfl, fun z hz => ?_⟩
    rcases List.mem_cons.1 hz with rfl | hz
    · exact ha
    · rcases List.mem_cons.1 hz with rfl | hz
      · exact hb
      · cases hz

/-- **C105.** There is a report of the adder only if both tables reach to the last change, each row has two times that fit in an `i64`, and so do the sums of the two times of
the rows that are read: otherwise the program panics. With `C105_adder` these are all panics. -/
theorem C105_adder_panics {native inc : List (List Int)} {changes : Nat} {r : Report} (h : report2 native inc changes = .ok r) :
    changes < native.length ∧ changes < inc.length ∧ (∀ d ∈ native ++ inc, ∃ a b t, d = a :: b :: t ∧ Fits [a, b]) ∧
      ∀ i ≤ changes, (∃ a b t, native[i]? = some (a :: b :: t) ∧ Fits [a + b]) ∧ ∃ a b t, inc[i]? = some (a :: b :: t) ∧ Fits [a + b] := by
  obtain ⟨ps, h1, h⟩ := bind_ok.1 h
  obtain ⟨qs, h2, h⟩ := bind_ok.1 h
  obtain ⟨v, h3, -⟩ := bind_ok.1 h
  have c1 := columns2_rows h1
  have c2 := columns2_rows h2
  have rows : ∀ {l : List (List Int)} {ps : List (Int × Int)}, List.Forall₂ (fun d p => ∃ t, d = p.1 :: p.2 :: t ∧ Fits [p.1, p.2]) l ps →
      (∀ d ∈ l, ∃ a b t, d = a :: b :: t ∧ Fits [a, b]) ∧ ∀ (i : Nat) (p : Int × Int), ps[i]? = some p → ∃ t, l[i]? = some (p.1 :: p.2 :: t) := by
    intro l ps hc
    induction hc with
    | nil => exact ⟨by simp, by simp⟩
    | @cons d p l ps h1 h2 ih =>
      obtain ⟨t, rfl, hf⟩ := h1
      refine ⟨fun d hd => ?_, fun i q hq => ?_⟩
      · rcases List.mem_cons.1 hd with rfl | hd
        · exact ⟨_, _, t, rfl, hf⟩
        · exact ih.1 d hd
      · cases i with
        | zero => cases hq; exact ⟨t, rfl⟩
        | succ i => exact ih.2 i q hq
  have fits : ∀ {a b c : Int}, addI a b = .ok c → Fits [a + b] := by
    intro a b c hc z hz
    unfold addI at hc
    split at hc
    · rename_i hr
      rw [List.mem_singleton.1 hz]
      exact hr
    · cases hc
  have each : ∀ i ≤ changes, (∃ a b t, native[i]? = some (a :: b :: t) ∧ Fits [a + b]) ∧ ∃ a b t, inc[i]? = some (a :: b :: t) ∧ Fits [a + b] := by
    intro i hi
    obtain ⟨v, v', hv⟩ := foldlM_steps h3 i (List.mem_range.2 (by omega))
    obtain ⟨p, k1, hv⟩ := bind_ok.1 hv
    obtain ⟨x, k2, hv⟩ := bind_ok.1 hv
    obtain ⟨q, k3, hv⟩ := bind_ok.1 hv
    obtain ⟨y, k4, -⟩ := bind_ok.1 hv
    obtain ⟨t, e1⟩ := (rows c1).2 i p (index_fits k1)
    obtain ⟨t', e2⟩ := (rows c2).2 i q (index_fits k3)
    exact ⟨⟨_, _, t, e1, fits k2⟩, _, _, t', e2, fits k4⟩
  obtain ⟨⟨a, b, t, l1, -⟩, a', b', t', l2, -⟩ := each changes (Nat.le_refl _)
  refine ⟨(List.getElem?_eq_some_iff.1 l1).1, (List.getElem?_eq_some_iff.1 l2).1, fun d hd => ?_, each⟩
  rcases List.mem_append.1 hd with hd | hd
  · exact (rows c1).1 d hd
  · exact (rows c2).1 d hd

/-- Two times that fit, with a sum that does not. -/
example : ∀ r, report2 [[2 ^ 62, 2 ^ 62], [3, 4]] [[10, 20], [0, 1]] 1 ≠ .ok r := fun r h => by
  obtain ⟨⟨a, b, t, h1, h2⟩, -⟩ := (C105_adder_panics h).2.2.2 0 (by decide)
  simp only [List.getElem?_cons_zero, Option.some.injEq, List.cons.injEq] at h1
  obtain ⟨rfl, rfl, -⟩ := h1
  exact absurd (h2 _ (List.mem_singleton_self _)).2 (by decide)

/-- A report that there is. -/
example : (report2 [[1, 2], [3, 4]] [[10, 20], [0, 1]] 1).isOk = true := by decide +kernel

theorem dataRows2_fold (edits : List Int) (comps : List (Int × Int)) : ∀ m, m ≤ edits.length → m ≤ comps.length →
    (List.range m).foldlM (m := Except Panic) (fun (st : Rat × Rat × Rat × List (Nat × Rat × Rat × Rat)) i => do
      let e ← index edits i
      let en := st.1 + ms e
      let c ← index comps i
      let tn := st.2.1 + ms c.1
      let pn := st.2.2.1 + ms c.2
      return (en, tn, pn, st.2.2.2 ++ [(i, en, tn, pn)])) (0, 0, 0, []) =
      .ok ((((edits.take m).sum : Int) : Rat) / 1000000, ((((comps.map (·.1)).take m).sum : Int) : Rat) / 1000000,
        ((((comps.map (·.2)).take m).sum : Int) : Rat) / 1000000,
        (List.range m).map fun i => (i, ((total edits i : Int) : Rat) / 1000000, ((total (comps.map (·.1)) i : Int) : Rat) / 1000000,
          ((total (comps.map (·.2)) i : Int) : Rat) / 1000000)) := by
  intro m
  induction m with
  | zero => intros; simp [pure, Except.pure]
  | succ m ih =>
    intro h1 h2
    have step : ∀ (l : List Int) (h : m < l.length),
        (((l.take m).sum : Int) : Rat) / 1000000 + ms l[m] = (((l.take (m + 1)).sum : Int) : Rat) / 1000000 := by
      intro l h
      rw [take_snoc h, List.sum_append, List.sum_singleton, ms]
      push_cast
      ring
    have e1 := step edits (by omega)
    have e2 := step (comps.map (·.1)) (by simp; omega)
    have e3 := step (comps.map (·.2)) (by simp; omega)
    rw [List.getElem_map] at e2 e3
    rw [List.range_succ, List.foldlM_append, ih (by omega) (by omega)]
    simp only [List.foldlM_cons, List.foldlM_nil, bind, Except.bind, pure, Except.pure]
    rw [index_ok (by omega : m < edits.length), index_ok (by omega : m < comps.length)]
    simp only [e1, e2, e3, List.map_append, List.map_cons, List.map_nil, total]

/-- **C105**, in part: the same for the data file of the adder, with a column for tokenize and one for parse. The last change is missing. -/
theorem C105_adder_data_partial {edits : List Int} {comps : List (Int × Int)} {changes : Nat} (h1 : edits.length = changes + 1)
    (h2 : comps.length = changes + 1) :
    dataRows2 edits comps changes =
      .ok ((List.range changes).map fun i => (i, ((total edits i : Int) : Rat) / 1000000, ((total (comps.map (·.1)) i : Int) : Rat) / 1000000,
        ((total (comps.map (·.2)) i : Int) : Rat) / 1000000)) := by
  unfold dataRows2
  rw [dataRows2_fold edits comps changes (by omega) (by omega)]
  rfl

example : dataRows2 [4000000, 1000000, 2000000] [(6000000, 0), (3000000, 1000000), (9000000, 1)] 2 = .ok [(0, 4, 6, 0), (1, 5, 9, 1)] := by
  rw [C105_adder_data_partial rfl rfl]
  congr 1
  simp [List.range_succ, total]
  norm_num

section Sessions
variable {S S' D D' O O' : Type}

/-- **C105.** No session of the test driver ends with a table on which the report or the data file panics, as long as the times fit. -/
theorem C105_session {init : Creator Int S D} {edit : Editor Int S D} {comp : Computor Int S D O} {init' : Creator Int S' D'}
    {edit' : Editor Int S' D'} {comp' : Computor Int S' D' O'} {n : Nat} {s : S × S'} {t : S × S'} {r : Table Int Int O} {r' : Table Int Int O'}
    (h : testTable init edit comp n s.1 = .ok (r, t.1)) (h' : testTable init' edit' comp' n s.2 = .ok (r', t.2))
    (hf : Fits (r.edits ++ r.computes ++ (r'.edits ++ r'.computes))) :
    (∃ x, report r.computes r'.computes n = .ok x) ∧ (∃ rows, dataRows r.edits r.computes n = .ok rows) ∧
    ∃ rows, dataRows r'.edits r'.computes n = .ok rows := by
  obtain ⟨h1, h2, -⟩ := C104_rows h
  obtain ⟨h3, h4, -⟩ := C104_rows h'
  refine ⟨?_, ⟨_, C105_data_partial h1 h2⟩, ⟨_, C105_data_partial h3 h4⟩⟩
  rcases hx : report r.computes r'.computes n with e | x
  · rcases (C105_panics ..).1 ⟨e, hx⟩ with hh | hh | hh | hh
    · exact absurd (fun t ht => hf t (by simp [ht])) hh
    · exact absurd (fun t ht => hf t (by simp [ht])) hh
    · omega
    · omega
  · exact ⟨x, rfl⟩

/-- **C105.** The same for computations of two folds, as in the adder. -/
theorem C105_adder_session {init : Creator Int S D} {edit : Editor Int S D} {comp : Computor (List Int) S D O} {init' : Creator Int S' D'}
    {edit' : Editor Int S' D'} {comp' : Computor (List Int) S' D' O'} (hc : Staged 2 comp) (hc' : Staged 2 comp') {n : Nat} {s t : S × S'}
    {r : Table Int (List Int) O} {r' : Table Int (List Int) O'}
    (h : testTable init edit comp n s.1 = .ok (r, t.1)) (h' : testTable init' edit' comp' n s.2 = .ok (r', t.2))
    (hf : ∀ d ∈ r.computes ++ r'.computes, Fits (d.sum :: d)) : ∃ x, report2 r.computes r'.computes n = .ok x := by
  obtain ⟨-, h2, -⟩ := C104_rows h
  obtain ⟨-, h4, -⟩ := C104_rows h'
  have h5 := C104_stages hc h
  have h6 := C104_stages hc' h'
  generalize r.computes = l at *
  generalize r'.computes = l' at *
  rcases l with _ | ⟨n0, ns⟩
  · simp at h2
  rcases l' with _ | ⟨a0, as⟩
  · simp at h4
  simp only [List.length_cons] at h2 h4
  obtain ⟨x, hx, -⟩ := C105_adder n0 a0 ns as (by omega) (fun d hd => by
    rcases List.mem_append.1 hd with hd | hd
    · exact h5 d hd
    · exact h6 d hd) hf
  obtain rfl : ns.length = n := by omega
  exact ⟨x, hx⟩

end Sessions

/-- Two sessions with other times, one change each. -/
example : ∃ x, report [9, 9] [20, 1] 1 = .ok x :=
  (C105_session (S := Unit) (S' := Nat) (D := Nat) (D' := Nat) (O := Nat) (O' := Nat)
    (init := fun w => .ok (3, 5, w)) (edit := fun d w => .ok (2, d + 1, w)) (comp := fun d w => .ok (9, d * d, w))
    (init' := fun w => .ok (8, 5, w)) (edit' := fun d w => .ok (1, d + 1, w)) (comp' := fun d w => .ok (if w = 0 then 20 else 1, d * d, w + 1))
    (n := 1) (s := ((), 0)) (t := ((), 2)) (r := ⟨[3, 2], [9, 9], [25, 36]⟩) (r' := ⟨[8, 1], [20, 1], [25, 36]⟩) rfl rfl
    (by unfold Fits; decide)).1

/-- Two sessions with a constant clock. -/
example : ∃ x, report2 [[0, 0], [0, 0]] [[0, 0], [0, 0]] 1 = .ok x :=
  C105_adder_session (S := Unit × Unit) (S' := Unit × Unit) (D := Nat) (D' := Nat) (O := Nat) (O' := Nat)
    (init := fun w => .ok (0, 5, w)) (edit := fun d w => .ok (0, d + 1, w))
    (comp := compute2 (folder fun d => span (fun q => (0, q)) fun w => .ok (d, w)) (folder fun d => span (fun q => (0, q)) fun w => .ok (d * 2, w)))
    (init' := fun w => .ok (0, 5, w)) (edit' := fun d w => .ok (0, d + 1, w))
    (comp' := compute2 (folder fun d => span (fun q => (0, q)) fun w => .ok (d, w)) (folder fun d => span (fun q => (0, q)) fun w => .ok (d * 2, w)))
    (.compute2 (.folder _) (.folder _)) (.compute2 (.folder _) (.folder _)) (s := (((), ()), ((), ()))) (t := (((), ()), ((), ()))) (n := 1)
    (r := ⟨[0, 0], [[0, 0], [0, 0]], [10, 12]⟩) (r' := ⟨[0, 0], [[0, 0], [0, 0]], [10, 12]⟩) rfl rfl (by unfold Fits; decide)

end Iodyn.Eval.Rep
