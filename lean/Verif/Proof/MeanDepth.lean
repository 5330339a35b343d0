import Verif.Spec.MeanDepth
import Verif.Proof.MeanSeen
import Verif.Proof.MeanPath
import Mathlib.Tactic.Linarith
import Mathlib.Tactic.FieldSimp
import Mathlib.Tactic.Positivity
import Mathlib.Algebra.Order.BigOperators.Ring.Finset
import Mathlib.Data.Rat.Cast.Order
/-
How large the number of entries of a random list that see its start gets: the mean of a power of it.
-/
namespace Iodyn
open Finset

/-- The number of entries that are at least as great as `x` and all before them. -/
def seenFrom (x : Nat) : List Nat → Nat
  | [] => 0
  | l :: rest => if x ≤ l then 1 + seenFrom l rest else seenFrom x rest

theorem seenLe_from : ∀ (l before : List Nat) (x : Nat), (∀ v ∈ l, 1 ≤ v) → (∀ v, 1 ≤ v → ((∀ b ∈ before, b ≤ v) ↔ x ≤ v)) →
    seenLe before l = seenFrom x l
  | [], _, _, _, _ => rfl
  | v :: l, before, x, hl, h => by
    have hv := hl v List.mem_cons_self
    unfold seenLe seenFrom
    by_cases hx : x ≤ v
    · rw [if_pos hx, if_pos ((h v hv).2 hx), seenLe_from l (v :: before) v (fun u hu => hl u (List.mem_cons_of_mem _ hu))]
      intro u hu
      simp only [List.mem_cons, forall_eq_or_imp, h u hu, and_iff_left_iff_imp]
      omega
    · rw [if_neg hx, if_neg (fun h' => hx ((h v hv).1 h')), seenLe_from l (v :: before) x (fun u hu => hl u (List.mem_cons_of_mem _ hu)), Nat.zero_add]
      intro u hu
      simp only [List.mem_cons, forall_eq_or_imp, h u hu, and_iff_right_iff_imp]
      omega

section count
variable {W : Type} [Fintype W] (g : W → Nat)

/-- Averaging over one coordinate. -/
theorem sum_update {n : Nat} (j : Fin n) (F : (Fin n → W) → ℚ) :
    (Fintype.card W : ℚ) * ∑ w, F w = ∑ x : W, ∑ w, F (Function.update w j x) := by
  classical
  have inv : Function.Involutive fun p : W × (Fin n → W) => (p.2 j, Function.update p.2 j p.1) := by
    rintro ⟨x, w⟩
    simp
  have h := Equiv.sum_comp inv.toPerm fun p : W × (Fin n → W) => F p.2
  simp only [Function.Involutive.coe_toPerm] at h
  rw [Fintype.sum_prod_type, Fintype.sum_prod_type] at h
  rw [h]
  simp

/-- The part of the words with value at least `x`. -/
def tail (x : Nat) : ℚ := ((univ.filter fun y => x ≤ g y).card : ℚ) / Fintype.card W

/-- The values are distributed like the levels: each is reached by half of those that reach the one before, up to `H`. -/
structure Halves (H : Nat) : Prop where
  pos : 0 < Fintype.card W
  range : ∀ y, 1 ≤ g y ∧ g y ≤ H
  half : ∀ x, 1 ≤ x → x < H → tail g x = 2 * tail g (x + 1)

variable {g}

theorem tail_card (x : Nat) (hp : 0 < Fintype.card W) : ((univ.filter fun y => x ≤ g y).card : ℚ) = tail g x * Fintype.card W := by
  unfold tail
  have : (Fintype.card W : ℚ) ≠ 0 := by positivity
  field_simp

theorem tail_nonneg (x : Nat) : 0 ≤ tail g x := by unfold tail; positivity

theorem tail_mono {x y : Nat} (h : x ≤ y) : tail g y ≤ tail g x := by
  unfold tail
  refine div_le_div_of_nonneg_right ?_ (by positivity)
  have : (univ.filter fun z => y ≤ g z).card ≤ (univ.filter fun z => x ≤ g z).card := card_le_card fun z => by
    simp only [mem_filter, mem_univ, true_and]
    omega
  exact_mod_cast this

theorem tail_one {H : Nat} (h : Halves g H) : tail g 1 = 1 := by
  unfold tail
  rw [filter_true_of_mem fun y _ => (h.range y).1, card_univ]
  have := h.pos
  exact div_self (by positivity)

/-- The sum over the values that are at least `x`. -/
theorem high_sum {H : Nat} (h : Halves g H) (a : ℚ) : ∀ (d x : Nat), x + d = H → 1 ≤ x →
    ∑ y, (if x ≤ g y then 1 + a * tail g (g y) else 0) = Fintype.card W * (tail g x + a * (2 / 3 * tail g x ^ 2 + tail g H ^ 2 / 3))
  | 0, x, hd, _ => by
    obtain rfl : x = H := by omega
    have e : ∀ y ∈ univ, (if x ≤ g y then 1 + a * tail g (g y) else 0) = if x ≤ g y then 1 + a * tail g x else 0 := fun y _ => by
      by_cases hy : x ≤ g y
      · rw [if_pos hy, if_pos hy, show g y = x from Nat.le_antisymm (h.range y).2 hy]
      · rw [if_neg hy, if_neg hy]
    rw [sum_congr rfl e, ← sum_filter, sum_const, nsmul_eq_mul, tail_card x h.pos]
    ring
  | d + 1, x, hd, hx => by
    have e : ∀ y ∈ univ, (if x ≤ g y then 1 + a * tail g (g y) else 0) =
        ((if x ≤ g y then 1 + a * tail g x else 0) - (if x + 1 ≤ g y then 1 + a * tail g x else 0)) +
          (if x + 1 ≤ g y then 1 + a * tail g (g y) else 0) := fun y _ => by
      rcases Nat.lt_trichotomy x (g y) with hy | hy | hy
      · rw [if_pos (by omega), if_pos (by omega), if_pos (by omega), if_pos (by omega)]; ring
      · rw [if_pos (by omega), if_pos (by omega), if_neg (by omega), if_neg (by omega), hy]; ring
      · rw [if_neg (by omega), if_neg (by omega), if_neg (by omega), if_neg (by omega)]; ring
    rw [sum_congr rfl e, sum_add_distrib, sum_sub_distrib, high_sum h a d (x + 1) (by omega) (by omega), ← sum_filter, ← sum_filter, sum_const, sum_const,
      nsmul_eq_mul, nsmul_eq_mul, tail_card x h.pos, tail_card (x + 1) h.pos, h.half x hx (by omega)]
    ring

/-- One more entry. -/
theorem step_sum {H : Nat} (h : Halves g H) {m : Nat} (hm : m * tail g H ≤ 1) {x : Nat} (hx : 1 ≤ x) (hH : x ≤ H) :
    ∑ y, (if x ≤ g y then 3 / 2 * (1 + m * tail g (g y)) else 1 + m * tail g x) ≤ Fintype.card W * (1 + (m + 1 : Nat) * tail g x) := by
  have e : ∀ y ∈ univ, (if x ≤ g y then 3 / 2 * (1 + m * tail g (g y)) else 1 + m * tail g x) =
      3 / 2 * (if x ≤ g y then 1 + m * tail g (g y) else 0) + ((1 + m * tail g x) - (if x ≤ g y then 1 + m * tail g x else 0)) := fun y _ => by
    by_cases hy : x ≤ g y
    · rw [if_pos hy, if_pos hy, if_pos hy]; ring
    · rw [if_neg hy, if_neg hy, if_neg hy]; ring
  rw [sum_congr rfl e, sum_add_distrib, ← mul_sum, high_sum h m (H - x) x (by omega) hx, sum_sub_distrib, ← sum_filter, sum_const, sum_const, nsmul_eq_mul,
    nsmul_eq_mul, tail_card x h.pos, card_univ]
  have hp : (0 : ℚ) < Fintype.card W := by have := h.pos; positivity
  have t0 := tail_nonneg (g := g) H
  have t1 := tail_mono (g := g) hH
  have k1 : (m : ℚ) * tail g H ^ 2 ≤ tail g x := by
    calc (m : ℚ) * tail g H ^ 2 = (m * tail g H) * tail g H := by ring
      _ ≤ 1 * tail g H := mul_le_mul_of_nonneg_right hm t0
      _ ≤ tail g x := by rw [one_mul]; exact t1
  have k2 : 3 / 2 * (Fintype.card W * (tail g x + m * (2 / 3 * tail g x ^ 2 + tail g H ^ 2 / 3))) +
      (Fintype.card W * (1 + m * tail g x) - tail g x * Fintype.card W * (1 + m * tail g x)) =
      Fintype.card W * (1 + m * tail g x + tail g x / 2 + m * tail g H ^ 2 / 2) := by ring
  rw [k2]
  refine mul_le_mul_of_nonneg_left ?_ hp.le
  push_cast
  linarith

/-- The mean of a power of the number of entries that see the start; `K` depends on other entries. -/
theorem seen_power {H n : Nat} (h : Halves g H) (hH : 1 ≤ H) : ∀ (J : List (Fin n)) (x : Nat) (K : (Fin n → W) → ℚ), J.Nodup → 1 ≤ x → x ≤ H →
    J.length * tail g H ≤ 1 → (∀ w, 0 ≤ K w) → (∀ j ∈ J, ∀ w y, K (Function.update w j y) = K w) →
    ∑ w, (3 / 2 : ℚ) ^ seenFrom x (J.map fun b => g (w b)) * K w ≤ (1 + J.length * tail g x) * ∑ w, K w
  | [], x, K, _, _, _, _, _, _ => by simp [seenFrom]
  | j :: J, x, K, hn, hx, hxH, hl, hK, hu => by
    have hp : (0 : ℚ) < Fintype.card W := by have := h.pos; positivity
    have hl' : J.length * tail g H ≤ 1 := by
      refine le_trans (mul_le_mul_of_nonneg_right ?_ (tail_nonneg H)) hl
      simp
    have ih := fun x hx hxH => seen_power h hH J x K (List.nodup_cons.1 hn).2 hx hxH hl' hK fun i hi => hu i (List.mem_cons_of_mem _ hi)
    have hS : 0 ≤ ∑ w, K w := sum_nonneg fun w _ => hK w
    refine le_of_mul_le_mul_left ?_ hp
    rw [sum_update j]
    have e : ∀ y ∈ univ, (∑ w : Fin n → W, (3 / 2 : ℚ) ^ seenFrom x ((j :: J).map fun b => g (Function.update w j y b)) * K (Function.update w j y)) ≤
        (if x ≤ g y then 3 / 2 * (1 + J.length * tail g (g y)) else 1 + J.length * tail g x) * ∑ w, K w := fun y _ => by
      have e1 : ∀ w : Fin n → W, (j :: J).map (fun b => g (Function.update w j y b)) = g y :: J.map fun b => g (w b) := fun w => by
        simp only [List.map_cons, Function.update_self, List.cons.injEq, true_and]
        refine List.map_congr_left fun b hb => ?_
        have hne : b ≠ j := by rintro rfl; exact (List.nodup_cons.1 hn).1 hb
        rw [Function.update_of_ne hne]
      simp only [e1, hu j List.mem_cons_self, seenFrom]
      by_cases hy : x ≤ g y
      · simp only [if_pos hy, pow_add, pow_one, mul_assoc]
        rw [← mul_sum]
        have := ih (g y) (h.range y).1 (h.range y).2
        linarith
      · simp only [if_neg hy]
        exact ih x hx hxH
    refine le_trans (sum_le_sum e) ?_
    rw [← sum_mul, ← mul_assoc]
    exact mul_le_mul_of_nonneg_right (step_sum h hl' hx hxH) hS

end count

/-! ### Levels -/

theorem level_tail (x : Nat) (hx : 1 ≤ x) (h : x ≤ 64) : tail levelOf x = 2 / 2 ^ x := by
  obtain ⟨v, rfl⟩ : ∃ v, x = v + 1 := ⟨x - 1, by omega⟩
  have h1 := level_upTo (v := v) (by omega)
  have h2 : (univ.filter fun y : Fin (2 ^ 64) => levelOf y ≤ v).card + (univ.filter fun y : Fin (2 ^ 64) => v + 1 ≤ levelOf y).card = 2 ^ 64 := by
    have := card_filter_add_card_filter_not (s := (univ : Finset (Fin (2 ^ 64)))) (fun y => levelOf y ≤ v)
    rw [card_univ, Fintype.card_fin] at this
    simpa only [Nat.not_le, ← Nat.succ_le_iff] using this
  have h3 : (univ.filter fun y : Fin (2 ^ 64) => v + 1 ≤ levelOf y).card = 2 ^ (64 - v) := by
    unfold upTo at h1
    omega
  unfold tail
  rw [h3, Fintype.card_fin]
  have h4 : ((2 ^ 64 : Nat) : ℚ) = 2 ^ (64 - v) * 2 ^ v := by
    rw [← pow_add, show 64 - v + v = 64 by omega]
    norm_num
  rw [h4, pow_succ, Nat.cast_pow, Nat.cast_ofNat]
  field_simp

theorem level_halves : Halves levelOf 64 where
  pos := by rw [Fintype.card_fin]; positivity
  range y := ⟨(C29_level_range _).1, (C29_level_range _).2.1⟩
  half x h1 h2 := by
    rw [level_tail x h1 (by omega), level_tail (x + 1) (by omega) (by omega), pow_succ]
    field_simp

/-- The mean of a power of the number of entries that see a cut. -/
theorem cut_power {n : Nat} {A B : List (Fin n)} (hn : (A ++ B).Nodup) (h63 : n ≤ 2 ^ 63) :
    ∑ w : Fin n → Fin (2 ^ 64), (3 / 2 : ℚ) ^ (seenLe [] (A.map fun b => levelOf (w b)) + seenLt [] (B.map fun b => levelOf (w b))) ≤
      (1 + A.length) * (1 + B.length) * (2 ^ 64) ^ n := by
  have h64 : tail levelOf 64 = 1 / 2 ^ 63 := by rw [level_tail 64 (by decide) (by decide)]; norm_num
  have hlen : ∀ {J : List (Fin n)}, J.Nodup → J.length * tail levelOf 64 ≤ 1 := fun {J} hJ => by
    have h1 : J.length ≤ n := by simpa using hJ.length_le_card
    have h2 : (J.length : ℚ) ≤ 2 ^ 63 := by exact_mod_cast le_trans h1 h63
    rw [h64, mul_one_div, div_le_one (by positivity)]
    exact h2
  have hpos : ∀ (J : List (Fin n)) (w : Fin n → Fin (2 ^ 64)), ∀ v ∈ J.map fun b => levelOf (w b), 1 ≤ v := fun J w v hv => by
    obtain ⟨b, -, rfl⟩ := List.mem_map.1 hv
    exact (level_halves.range _).1
  have hf : ∀ (J : List (Fin n)) (w : Fin n → Fin (2 ^ 64)), seenLe [] (J.map fun b => levelOf (w b)) = seenFrom 1 (J.map fun b => levelOf (w b)) := fun J w =>
    seenLe_from _ _ _ (hpos J w) fun v hv => by simp [hv]
  have hA := (List.nodup_append.1 hn).1
  have hB := (List.nodup_append.1 hn).2.1
  have t1 := tail_one level_halves
  have k1 := seen_power level_halves (by decide) A 1 (fun w => (3 / 2 : ℚ) ^ seenFrom 1 (B.map fun b => levelOf (w b))) hA (by decide) (by decide) (hlen hA)
    (fun w => by positivity) (fun j hj w y => by
      congr 2
      refine List.map_congr_left fun b hb => ?_
      have hne : b ≠ j := fun hbj => (List.nodup_append.1 hn).2.2 j hj b hb hbj.symm
      rw [Function.update_of_ne hne])
  have k2 := seen_power level_halves (by decide) B 1 (fun _ : Fin n → Fin (2 ^ 64) => (1 : ℚ)) hB (by decide) (by decide) (hlen hB)
    (fun w => by positivity) (fun _ _ _ _ => rfl)
  rw [t1] at k1 k2
  simp only [mul_one] at k1 k2
  have k3 : ∑ _w : Fin n → Fin (2 ^ 64), (1 : ℚ) = (2 ^ 64) ^ n := by
    rw [sum_const, card_univ, Fintype.card_pi, nsmul_eq_mul, mul_one]
    simp only [Fintype.card_fin, prod_const, card_univ]
    norm_num
  rw [k3] at k2
  refine le_trans (sum_le_sum fun w _ => ?_) (le_trans k1 ?_)
  · rw [hf, pow_add]
    refine mul_le_mul_of_nonneg_left ?_ (by positivity)
    rw [← hf]
    exact pow_le_pow_right₀ (by norm_num) (seenLt_le _ _)
  · rw [mul_assoc]
    exact mul_le_mul_of_nonneg_left k2 (by positivity)

/-! ### The depth of a tree -/

theorem seenLe_stop {v : Nat} {rest : List Nat} : ∀ (l before : List Nat), (∀ x ∈ l ++ before, x ≤ v) → (∀ x ∈ rest, x < v) →
    seenLe before (l ++ v :: rest) = seenLe before l + 1
  | [], before, h, hr => by
    have e := seenLe_skip (v := v) rest (v :: before) [] List.mem_cons_self hr
    rw [List.append_nil] at e
    simp only [List.nil_append, seenLe, e]
    rw [if_pos (by simpa using h)]
  | x :: l, before, h, hr => by
    simp only [List.cons_append, seenLe]
    rw [seenLe_stop l (x :: before) (fun y hy => h y (by simp only [List.mem_append, List.mem_cons] at hy ⊢; tauto)) hr, Nat.add_assoc]

theorem seenLt_stop {v : Nat} {rest : List Nat} : ∀ (l before : List Nat), (∀ x ∈ l ++ before, x < v) → (∀ x ∈ rest, x ≤ v) →
    seenLt before (l ++ v :: rest) = seenLt before l + 1
  | [], before, h, hr => by
    have e := seenLt_skip (v := v) rest (v :: before) [] List.mem_cons_self hr
    rw [List.append_nil] at e
    simp only [List.nil_append, seenLt, e]
    rw [if_pos (by simpa using h)]
  | x :: l, before, h, hr => by
    simp only [List.cons_append, seenLt]
    rw [seenLt_stop l (x :: before) (fun y hy => h y (by simp only [List.mem_append, List.mem_cons] at hy ⊢; tauto)) hr, Nat.add_assoc]

theorem sight_left {v : Nat} {a b : List Nat} (ha : ∀ x ∈ a, x < v) (hb : ∀ x ∈ b, x ≤ v) {k : Nat} (hk : k ≤ a.length) :
    sight k (a ++ v :: b) = sight k a + 1 := by
  unfold sight
  rw [List.take_append_of_le_length hk, List.drop_append_of_le_length hk,
    seenLt_stop _ _ (fun x hx => ha x (by simp only [List.append_nil] at hx; exact List.mem_of_mem_drop hx)) hb, Nat.add_assoc]

theorem sight_right {v : Nat} {a b : List Nat} (ha : ∀ x ∈ a, x < v) (hb : ∀ x ∈ b, x ≤ v) (k : Nat) :
    sight (a.length + 1 + k) (a ++ v :: b) = sight k b + 1 := by
  have e1 : (a ++ v :: b).take (a.length + 1 + k) = a ++ v :: b.take k := by
    rw [List.take_append, List.take_of_length_le (by omega), show a.length + 1 + k - a.length = k + 1 by omega, List.take_succ_cons]
  have e2 : (a ++ v :: b).drop (a.length + 1 + k) = b.drop k := by
    rw [List.drop_append, List.drop_of_length_le (by omega), show a.length + 1 + k - a.length = k + 1 by omega, List.drop_succ_cons, List.nil_append]
  unfold sight
  rw [e1, e2, List.reverse_append, List.reverse_cons, List.append_assoc, List.singleton_append,
    seenLe_stop _ _ (fun x hx => hb x (by simp only [List.append_nil, List.mem_reverse] at hx; exact List.mem_of_mem_take hx))
      (fun x hx => ha x (List.mem_reverse.1 hx))]
  omega

theorem sight_le {k : Nat} {ls : List Nat} (hk : k ≤ ls.length) : sight k ls ≤ deepest ls :=
  le_sup (f := fun k => sight k ls) (mem_range.2 (by omega))

theorem sight_max (ls : List Nat) : ∃ k, k ≤ ls.length ∧ deepest ls = sight k ls := by
  obtain ⟨k, h1, h2⟩ := exists_mem_eq_sup (range (ls.length + 1)) ⟨0, mem_range.2 (by omega)⟩ fun k => sight k ls
  exact ⟨k, by have := mem_range.1 h1; omega, h2⟩

theorem deepest_node {v : Nat} {a b : List Nat} (ha : ∀ x ∈ a, x < v) (hb : ∀ x ∈ b, x ≤ v) :
    deepest (a ++ v :: b) = 1 + max (deepest a) (deepest b) := by
  apply Nat.le_antisymm
  · obtain ⟨k, h1, h2⟩ := sight_max (a ++ v :: b)
    rw [h2]
    by_cases hk : k ≤ a.length
    · rw [sight_left ha hb hk]
      have := sight_le hk
      omega
    · obtain ⟨j, rfl⟩ : ∃ j, k = a.length + 1 + j := ⟨k - a.length - 1, by omega⟩
      rw [sight_right ha hb]
      have := sight_le (k := j) (ls := b) (by simp only [List.length_append, List.length_cons] at h1; omega)
      omega
  · obtain ⟨k, h1, h2⟩ := sight_max a
    obtain ⟨j, h3, h4⟩ := sight_max b
    have k1 := sight_le (k := k) (ls := a ++ v :: b) (by simp only [List.length_append]; omega)
    have k2 := sight_le (k := a.length + 1 + j) (ls := a ++ v :: b) (by simp only [List.length_append, List.length_cons]; omega)
    rw [sight_left ha hb h1] at k1
    rw [sight_right ha hb] at k2
    omega

theorem WF.depth_branch {E M : Type} [RazMeta E M] {lv : Nat} {nm : Option Name} {d : TreeData E M} {l r : Tree (TreeData E M)} (hl : WF l) :
    (Tree.node lv nm d l r).depth = 1 + max l.depth r.depth := by
  cases hl <;> rfl

/-- The depth of a tree in heap order, from the levels of its archive points. -/
theorem depth_deepest {E M : Type} [RazMeta E M] {t : Tree (TreeData E M)} (h : WF t) (hc : Canon t) : t.depth = deepest (levelsOf t.items) := by
  induction h with
  | leaf v => simp [Tree.items, levelsOf_elems, Tree.depth, deepest, sight, seenLe, seenLt]
  | @branch lv nm l r h1 hl hr ihl ihr =>
    rw [WF.depth_branch hl, ihl hc.2.2.1, ihr hc.2.2.2]
    have e : levelsOf (Tree.node lv nm (.branch (metaOf lv nm l) (metaOf lv nm r)) l r).items = levelsOf l.items ++ lv :: levelsOf r.items := by
      simp only [Tree.items, levelsOf_append, levelsOf_mark]
    rw [e, deepest_node]
    · intro x hx
      obtain ⟨i, hi, -, rfl⟩ := mem_levelsOf hx
      exact items_lt_left hl hc i hi
    · intro x hx
      obtain ⟨i, hi, -, rfl⟩ := mem_levelsOf hx
      exact items_le_right hr hc i hi

/-! ### The mean depth -/

/-- The mean of a power of the depth. -/
theorem deepest_power {n : Nat} {J : List (Fin n)} (hn : J.Nodup) (h63 : n ≤ 2 ^ 63) :
    4 * ∑ w : Fin n → Fin (2 ^ 64), (3 / 2 : ℚ) ^ deepest (J.map fun b => levelOf (w b)) ≤ (J.length + 2) ^ 3 * (2 ^ 64) ^ n := by
  have h1 : ∀ w : Fin n → Fin (2 ^ 64), (3 / 2 : ℚ) ^ deepest (J.map fun b => levelOf (w b)) ≤
      ∑ k ∈ range (J.length + 1), (3 / 2 : ℚ) ^ sight k (J.map fun b => levelOf (w b)) := fun w => by
    obtain ⟨k, hk, e⟩ := sight_max (J.map fun b => levelOf (w b))
    rw [List.length_map] at hk
    rw [e]
    exact single_le_sum (f := fun k => (3 / 2 : ℚ) ^ sight k (J.map fun b => levelOf (w b))) (fun i _ => by positivity) (mem_range.2 (by omega))
  have h2 : ∀ k ∈ range (J.length + 1), 4 * ∑ w : Fin n → Fin (2 ^ 64), (3 / 2 : ℚ) ^ sight k (J.map fun b => levelOf (w b)) ≤
      (J.length + 2) ^ 2 * (2 ^ 64) ^ n := fun k hk => by
    have hk := mem_range.1 hk
    have e : ∀ w : Fin n → Fin (2 ^ 64), sight k (J.map fun b => levelOf (w b)) =
        seenLe [] ((J.take k).reverse.map fun b => levelOf (w b)) + seenLt [] ((J.drop k).map fun b => levelOf (w b)) := fun w => by
      unfold sight
      rw [List.map_reverse, List.map_take, List.map_drop]
    simp only [e]
    have hd : ((J.take k).reverse ++ J.drop k).Nodup := by
      have : ((J.take k).reverse ++ J.drop k).Perm J := by
        conv_rhs => rw [← List.take_append_drop k J]
        exact (List.reverse_perm _).append_right _
      exact this.nodup_iff.2 hn
    have h3 := cut_power hd h63
    rw [List.length_reverse, List.length_take, List.length_drop, Nat.min_eq_left (by omega)] at h3
    have h4 : ((J.length - k : Nat) : ℚ) = J.length - k := by rw [Nat.cast_sub (by omega)]
    rw [h4] at h3
    have h5 : (4 : ℚ) * ((1 + k) * (1 + (J.length - k))) ≤ (J.length + 2) ^ 2 := by nlinarith [sq_nonneg ((J.length : ℚ) - 2 * k)]
    have h6 : (0 : ℚ) ≤ (2 ^ 64) ^ n := by positivity
    calc _ ≤ 4 * ((1 + (k : ℚ)) * (1 + (J.length - k)) * (2 ^ 64) ^ n) := mul_le_mul_of_nonneg_left h3 (by norm_num)
      _ = 4 * ((1 + (k : ℚ)) * (1 + (J.length - k))) * (2 ^ 64) ^ n := by ring
      _ ≤ _ := mul_le_mul_of_nonneg_right h5 h6
  calc _ ≤ 4 * ∑ w : Fin n → Fin (2 ^ 64), ∑ k ∈ range (J.length + 1), (3 / 2 : ℚ) ^ sight k (J.map fun b => levelOf (w b)) :=
        mul_le_mul_of_nonneg_left (sum_le_sum fun w _ => h1 w) (by norm_num)
    _ = ∑ k ∈ range (J.length + 1), 4 * ∑ w : Fin n → Fin (2 ^ 64), (3 / 2 : ℚ) ^ sight k (J.map fun b => levelOf (w b)) := by rw [sum_comm, mul_sum]
    _ ≤ ∑ _k ∈ range (J.length + 1), (J.length + 2 : ℚ) ^ 2 * (2 ^ 64) ^ n := sum_le_sum h2
    _ = (J.length + 1) * ((J.length + 2) ^ 2 * (2 ^ 64) ^ n) := by rw [sum_const, card_range, nsmul_eq_mul]; push_cast; ring
    _ ≤ (J.length + 2) * ((J.length + 2) ^ 2 * (2 ^ 64) ^ n) := mul_le_mul_of_nonneg_right (by linarith) (by positivity)
    _ = _ := by ring

theorem logs_power (m : Nat) : ((m : ℚ) + 2) ^ 3 ≤ (3 / 2) ^ sixLogs m := by
  have h1 : ((m : ℚ) + 2) ≤ 2 ^ Nat.clog 2 (m + 2) := by exact_mod_cast Nat.le_pow_clog (by decide) (m + 2)
  calc ((m : ℚ) + 2) ^ 3 ≤ (2 ^ Nat.clog 2 (m + 2)) ^ 3 := pow_le_pow_left₀ (by positivity) h1 3
    _ = 8 ^ Nat.clog 2 (m + 2) := by rw [← pow_mul, Nat.mul_comm, pow_mul]; norm_num
    _ ≤ ((3 / 2) ^ 6) ^ Nat.clog 2 (m + 2) := pow_le_pow_left₀ (by norm_num) (by norm_num) _
    _ = _ := by rw [← pow_mul]; rfl

theorem power_card {α : Type} [Fintype α] (f : α → Nat) (K : Nat) : ((univ.filter fun x => K ≤ f x).card : ℚ) * (3 / 2) ^ K ≤ ∑ x, (3 / 2 : ℚ) ^ f x := by
  rw [← nsmul_eq_mul]
  refine le_trans (card_nsmul_le_sum _ (fun x => (3 / 2 : ℚ) ^ f x) _ fun x hx => ?_)
    (sum_le_sum_of_subset_of_nonneg (subset_univ _) fun x _ _ => by positivity)
  exact pow_le_pow_right₀ (by norm_num) (mem_filter.1 hx).2

/-- Greater depths are unlikely. -/
theorem deepest_tail {n : Nat} {J : List (Fin n)} (hn : J.Nodup) (h63 : n ≤ 2 ^ 63) (j : Nat) :
    4 * 3 ^ j * (univ.filter fun w : Fin n → Fin (2 ^ 64) => sixLogs J.length + j ≤ deepest (J.map fun b => levelOf (w b))).card ≤ 2 ^ j * (2 ^ 64) ^ n := by
  have h1 := deepest_power hn h63
  have h2 : ((univ.filter fun w : Fin n → Fin (2 ^ 64) => sixLogs J.length + j ≤ deepest (J.map fun b => levelOf (w b))).card : ℚ) * (3 / 2) ^ (sixLogs J.length + j) ≤
      ∑ w : Fin n → Fin (2 ^ 64), (3 / 2 : ℚ) ^ deepest (J.map fun b => levelOf (w b)) :=
    power_card (fun w : Fin n → Fin (2 ^ 64) => deepest (J.map fun b => levelOf (w b))) _
  have h3 := logs_power J.length
  have h4 : (0 : ℚ) < (3 / 2) ^ sixLogs J.length := by positivity
  generalize (univ.filter fun w : Fin n → Fin (2 ^ 64) => sixLogs J.length + j ≤ deepest (J.map fun b => levelOf (w b))).card = c at h2 ⊢
  have h5 : (4 : ℚ) * (3 / 2) ^ j * c ≤ (2 ^ 64) ^ n := by
    refine le_of_mul_le_mul_left ?_ h4
    calc _ = 4 * ((c : ℚ) * (3 / 2) ^ (sixLogs J.length + j)) := by rw [pow_add]; ring
      _ ≤ 4 * ∑ w : Fin n → Fin (2 ^ 64), (3 / 2 : ℚ) ^ deepest (J.map fun b => levelOf (w b)) := mul_le_mul_of_nonneg_left h2 (by norm_num)
      _ ≤ _ := h1
      _ ≤ _ := mul_le_mul_of_nonneg_right h3 (by positivity)
  have h6 : (4 : ℚ) * 3 ^ j * c ≤ 2 ^ j * (2 ^ 64) ^ n := by
    calc (4 : ℚ) * 3 ^ j * c = 2 ^ j * (4 * (3 / 2) ^ j * c) := by rw [div_pow]; field_simp
      _ ≤ _ := mul_le_mul_of_nonneg_left h5 (by positivity)
  exact_mod_cast h6

theorem bernoulli (d K : Nat) : (d : ℚ) * (3 / 2) ^ K ≤ K * (3 / 2) ^ K + 2 * (3 / 2) ^ d := by
  by_cases h : d ≤ K
  · have : (d : ℚ) ≤ K := by exact_mod_cast h
    have h1 : (0 : ℚ) < (3 / 2) ^ K := by positivity
    have h2 : (0 : ℚ) < (3 / 2) ^ d := by positivity
    nlinarith
  · obtain ⟨x, rfl⟩ : ∃ x, d = K + x := ⟨d - K, by omega⟩
    have h1 : (0 : ℚ) < (3 / 2) ^ K := by positivity
    have h2 : (x : ℚ) ≤ 2 * (3 / 2) ^ x := by
      clear h
      induction x with
      | zero => norm_num
      | succ x ih =>
        have h3 : (1 : ℚ) ≤ (3 / 2) ^ x := one_le_pow₀ (by norm_num)
        rw [pow_succ]
        push_cast
        linarith
    rw [pow_add]
    push_cast
    nlinarith

/-- The mean depth. -/
theorem deepest_mean {n : Nat} {J : List (Fin n)} (hn : J.Nodup) (h63 : n ≤ 2 ^ 63) :
    2 * ∑ w : Fin n → Fin (2 ^ 64), deepest (J.map fun b => levelOf (w b)) ≤ (2 ^ 64) ^ n * (2 * sixLogs J.length + 1) := by
  have h1 := deepest_power hn h63
  have h3 := logs_power J.length
  have h4 : (0 : ℚ) < (3 / 2) ^ sixLogs J.length := by positivity
  have h5 : (∑ w : Fin n → Fin (2 ^ 64), (deepest (J.map fun b => levelOf (w b)) : ℚ)) * (3 / 2) ^ sixLogs J.length ≤
      (2 ^ 64) ^ n * (sixLogs J.length * (3 / 2) ^ sixLogs J.length) + 2 * ∑ w : Fin n → Fin (2 ^ 64), (3 / 2 : ℚ) ^ deepest (J.map fun b => levelOf (w b)) := by
    rw [sum_mul, mul_sum]
    refine le_trans (sum_le_sum fun w _ => bernoulli _ (sixLogs J.length)) ?_
    rw [sum_add_distrib, sum_const, card_univ, nsmul_eq_mul, Fintype.card_pi]
    simp only [Fintype.card_fin, prod_const, card_univ]
    norm_num
  have h6 : 2 * (∑ w : Fin n → Fin (2 ^ 64), (deepest (J.map fun b => levelOf (w b)) : ℚ)) ≤ (2 ^ 64) ^ n * (2 * sixLogs J.length + 1) := by
    refine le_of_mul_le_mul_right ?_ h4
    have h7 : (J.length + 2 : ℚ) ^ 3 * (2 ^ 64) ^ n ≤ (3 / 2) ^ sixLogs J.length * (2 ^ 64) ^ n := mul_le_mul_of_nonneg_right h3 (by positivity)
    nlinarith
  exact_mod_cast h6

end Iodyn
