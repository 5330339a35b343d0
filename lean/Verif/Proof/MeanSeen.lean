import Verif.Spec.MeanWork
import Verif.Props.LevelDist
import Mathlib.Data.Fintype.BigOperators
import Mathlib.Algebra.Order.BigOperators.Group.Finset
import Mathlib.Algebra.BigOperators.Intervals
import Mathlib.Algebra.BigOperators.Fin
import Mathlib.Algebra.BigOperators.Ring.Finset
import Mathlib.Tactic.Ring
/-
How many entries of a random list see its start, in the mean.
-/
namespace Iodyn
open Finset

section count
variable {W : Type} [Fintype W] (g : W → Nat)

/-- The words whose value is at most `v`. -/
def upTo (v : Nat) : Nat := (univ.filter fun x => g x ≤ v).card

/-- Assignments in which the value at `j` is at least those at the places `B`. -/
theorem card_above {n : Nat} (j : Fin n) (B : Finset (Fin n)) (hj : j ∉ B) :
    (∑ w : Fin n → W, if ∀ b ∈ B, g (w b) ≤ g (w j) then 1 else 0) * Fintype.card W ^ (B.card + 1) =
      Fintype.card W ^ n * ∑ x : W, upTo g (g x) ^ B.card := by
  classical
  have key : ∀ x : W, (univ.filter fun w : Fin n → W => w j = x ∧ ∀ b ∈ B, g (w b) ≤ g x).card * Fintype.card W ^ (B.card + 1) =
      Fintype.card W ^ n * upTo g (g x) ^ B.card := by
    intro x
    have e : (univ.filter fun w : Fin n → W => w j = x ∧ ∀ b ∈ B, g (w b) ≤ g x) =
        Fintype.piFinset fun i => if i = j then {x} else if i ∈ B then univ.filter (fun y => g y ≤ g x) else univ := by
      ext w
      simp only [mem_filter, mem_univ, true_and, Fintype.mem_piFinset]
      constructor
      · rintro ⟨h1, h2⟩ i
        by_cases hi : i = j
        · subst hi; simp [h1]
        · by_cases hb : i ∈ B
          · simp [hi, hb, h2 i hb]
          · simp [hi, hb]
      · intro h
        refine ⟨by simpa using h j, fun b hb => ?_⟩
        have := h b
        rw [if_neg (by rintro rfl; exact hj hb), if_pos hb] at this
        simpa using this
    rw [e, Fintype.card_piFinset]
    have e2 : (∏ i : Fin n, (if i = j then ({x} : Finset W) else if i ∈ B then univ.filter (fun y => g y ≤ g x) else univ).card) *
        Fintype.card W ^ (B.card + 1) = Fintype.card W ^ n * upTo g (g x) ^ B.card := by
      have e3 : ∀ i : Fin n, (if i = j then ({x} : Finset W) else if i ∈ B then univ.filter (fun y => g y ≤ g x) else univ).card *
          (if i ∈ insert j B then Fintype.card W else 1) = Fintype.card W * (if i ∈ B then upTo g (g x) else 1) := by
        intro i
        by_cases hi : i = j
        · subst hi; simp [hj]
        · by_cases hb : i ∈ B
          · simp [hi, hb, upTo, Nat.mul_comm]
          · simp [hi, hb]
      have e4 : ∏ i : Fin n, (if i ∈ insert j B then Fintype.card W else 1) = Fintype.card W ^ (B.card + 1) := by
        rw [prod_ite_mem, univ_inter, prod_const, card_insert_of_notMem hj]
      have e5 : ∏ i : Fin n, (if i ∈ B then upTo g (g x) else 1) = upTo g (g x) ^ B.card := by
        rw [prod_ite_mem, univ_inter, prod_const]
      rw [← e4, ← prod_mul_distrib, prod_congr rfl (fun i _ => e3 i), prod_mul_distrib, e5, prod_const, card_univ, Fintype.card_fin]
    exact e2
  rw [← card_filter, mul_sum]
  rw [card_eq_sum_card_fiberwise (f := fun w => w j) (t := univ) (fun _ _ => mem_coe.2 (mem_univ _)), sum_mul]
  refine sum_congr rfl fun x _ => ?_
  rw [← key x]
  congr 2
  ext w
  simp only [mem_filter, mem_univ, true_and]
  constructor
  · rintro ⟨h1, h2⟩; exact ⟨h2, by subst h2; exact h1⟩
  · rintro ⟨h1, h2⟩; exact ⟨by subst h1; exact h2, h1⟩

/-- The number of pairs of an assignment of `k` values and an entry that sees the start. -/
def seenSum : Nat → Nat
  | 0 => 0
  | k+1 => Fintype.card W * seenSum k + ∑ x : W, upTo g (g x) ^ k

theorem seen_sum {n : Nat} : ∀ (J before : List (Fin n)), (J ++ before).Nodup →
    (∑ w : Fin n → W, seenLe (before.map fun b => g (w b)) (J.map fun b => g (w b))) * Fintype.card W ^ (J.length + before.length) +
      Fintype.card W ^ n * (Fintype.card W ^ J.length * seenSum g before.length) = Fintype.card W ^ n * seenSum g (J.length + before.length)
  | [], before, _ => by simp [seenLe]
  | j :: J, before, hn => by
    classical
    have hj : j ∉ before.toFinset := by
      rw [List.mem_toFinset]
      intro h
      exact (List.nodup_cons.1 hn).1 (List.mem_append_right _ h)
    have hb : before.toFinset.card = before.length := List.toFinset_card_of_nodup (List.Nodup.of_append_right hn)
    have h1 := card_above g j before.toFinset hj
    rw [hb] at h1
    have h2 := seen_sum J (j :: before) ((List.perm_middle (a := j) (l₁ := J) (l₂ := before)).nodup_iff.2 hn)
    have e1 : ∀ w : Fin n → W, seenLe (before.map fun b => g (w b)) ((j :: J).map fun b => g (w b)) =
        (if ∀ b ∈ before.toFinset, g (w b) ≤ g (w j) then 1 else 0) + seenLe ((j :: before).map fun b => g (w b)) (J.map fun b => g (w b)) := by
      intro w
      simp only [List.map_cons, seenLe]
      congr 1
      simp [List.mem_toFinset]
    rw [sum_congr rfl (fun w _ => e1 w), sum_add_distrib]
    simp only [List.length_cons] at h2 ⊢
    rw [show J.length + 1 + before.length = J.length + (before.length + 1) by omega]
    rw [← h2]
    simp only [seenSum]
    rw [Nat.add_mul, show J.length + (before.length + 1) = (before.length + 1) + J.length by omega, Nat.pow_add, ← Nat.mul_assoc, h1]
    ring

/-- The mean number of entries that see the start, over all assignments. -/
theorem seen_mean {n : Nat} {J : List (Fin n)} (hn : J.Nodup) (hW : 0 < Fintype.card W) {b : Nat} (hb : seenSum g J.length ≤ b * Fintype.card W ^ J.length) :
    ∑ w : Fin n → W, seenLe [] (J.map fun b => g (w b)) ≤ Fintype.card W ^ n * b := by
  have h := seen_sum g J [] (by simpa using hn)
  simp only [List.map_nil, List.length_nil, Nat.add_zero, seenSum, Nat.mul_zero] at h
  refine Nat.le_of_mul_le_mul_right ?_ (Nat.pow_pos (n := J.length) hW)
  rw [h, Nat.mul_assoc]
  exact Nat.mul_le_mul_left _ hb

end count

/-! ### Levels -/

theorem pow_gap {N c q : Nat} (h : c + q = N) (k : Nat) : q * c ^ k + N * (N ^ k - c ^ k) = N ^ (k + 1) - c ^ (k + 1) := by
  have h1 : c ^ k ≤ N ^ k := Nat.pow_le_pow_left (by omega) k
  have h2 : c ^ (k + 1) ≤ N ^ (k + 1) := Nat.pow_le_pow_left (by omega) _
  obtain ⟨d, hd⟩ : ∃ d, N ^ k = c ^ k + d := ⟨N ^ k - c ^ k, by omega⟩
  rw [Nat.pow_succ, Nat.pow_succ, hd, Nat.add_sub_cancel_left]
  subst h
  rw [show (c ^ k + d) * (c + q) = (q * c ^ k + (c + q) * d) + c ^ k * c by ring, Nat.add_sub_cancel]

theorem pow_gap_le {N c q : Nat} (h : c + q = N) : ∀ k, N * (N ^ k - c ^ k) ≤ k * q * N ^ k
  | 0 => by simp
  | k+1 => by
    have ih := pow_gap_le h k
    rw [← pow_gap h k]
    have h1 : q * c ^ k ≤ q * N ^ k := Nat.mul_le_mul_left _ (Nat.pow_le_pow_left (by omega) k)
    calc N * (q * c ^ k + N * (N ^ k - c ^ k)) ≤ N * (q * N ^ k + k * q * N ^ k) := Nat.mul_le_mul_left _ (by omega)
      _ = (k + 1) * q * N ^ (k + 1) := by ring

/-- The values are `1 … h` and a greatest one. For `v ≤ h` all but `q v` words have values up to `v`, and `q v` words have the value `v`; the greatest value
has `r` words. -/
theorem seen_exact {W : Type} [Fintype W] {g : W → Nat} {h r : Nat} {q : Nat → Nat} {c : Nat → Nat}
    (hc : ∀ v ∈ Icc 1 h, c v + q v = Fintype.card W)
    (hs : ∀ k, ∑ x : W, upTo g (g x) ^ k = ∑ v ∈ Icc 1 h, q v * c v ^ k + r * Fintype.card W ^ k) (k : Nat) :
    Fintype.card W * seenSum g k = ∑ v ∈ Icc 1 h, Fintype.card W * (Fintype.card W ^ k - c v ^ k) + k * r * Fintype.card W ^ k := by
  induction k with
  | zero => simp [seenSum]
  | succ k ih =>
    simp only [seenSum, hs]
    have e : ∀ v ∈ Icc 1 h, Fintype.card W * (Fintype.card W ^ (k + 1) - c v ^ (k + 1)) =
        Fintype.card W * (q v * c v ^ k) + Fintype.card W * (Fintype.card W * (Fintype.card W ^ k - c v ^ k)) := fun v hv => by
      rw [← pow_gap (hc v hv) k]; ring
    rw [sum_congr rfl e, sum_add_distrib, ← mul_sum, ← mul_sum, ih]
    ring

theorem tail_sum_add : ∀ d m : Nat, ∑ v ∈ Ioc m (m + d), 2 ^ (m + d + 1 - v) + 2 = 2 ^ (d + 1)
  | 0, m => by simp
  | d+1, m => by
    have ih := tail_sum_add d (m + 1)
    rw [← Finset.sum_Ioc_consecutive _ (Nat.le_succ m) (show m + 1 ≤ m + (d + 1) by omega), Nat.Ioc_succ_singleton, sum_singleton]
    rw [show m + 1 + d = m + (d + 1) by omega] at ih
    rw [Nat.add_assoc, ih, show m + (d + 1) + 1 - (m + 1) = d + 1 by omega, Nat.pow_succ 2 (d + 1)]
    omega

theorem tail_sum (h m : Nat) (hm : m ≤ h) : ∑ v ∈ Ioc m h, 2 ^ (h + 1 - v) + 2 = 2 ^ (h + 1 - m) := by
  have := tail_sum_add (h - m) m
  rwa [show m + (h - m) = h by omega, show h - m + 1 = h + 1 - m by omega] at this

theorem seen_bound {W : Type} [Fintype W] {g : W → Nat} {h : Nat} {c : Nat → Nat} (hW : Fintype.card W = 2 ^ (h + 1))
    (hc : ∀ v ∈ Icc 1 h, c v + 2 ^ (h + 1 - v) = Fintype.card W)
    (hs : ∀ k, ∑ x : W, upTo g (g x) ^ k = ∑ v ∈ Icc 1 h, 2 ^ (h + 1 - v) * c v ^ k + 2 * Fintype.card W ^ k) {k m : Nat} (hk : k ≤ 2 ^ m) (hm : m ≤ h) :
    seenSum g k ≤ (m + 1) * Fintype.card W ^ k := by
  have hpos : 0 < Fintype.card W := by rw [hW]; exact Nat.two_pow_pos _
  refine Nat.le_of_mul_le_mul_left ?_ hpos
  rw [seen_exact (q := fun v => 2 ^ (h + 1 - v)) hc hs k]
  have e : Icc 1 h = Ioc 0 h := rfl
  have e1 : ∑ v ∈ Icc 1 h, Fintype.card W * (Fintype.card W ^ k - c v ^ k) = ∑ v ∈ Ioc 0 m, Fintype.card W * (Fintype.card W ^ k - c v ^ k) +
      ∑ v ∈ Ioc m h, Fintype.card W * (Fintype.card W ^ k - c v ^ k) := by
    rw [e, Finset.sum_Ioc_consecutive _ (Nat.zero_le m) hm]
  have e2 : ∑ v ∈ Ioc 0 m, Fintype.card W * (Fintype.card W ^ k - c v ^ k) ≤ m * (Fintype.card W * Fintype.card W ^ k) := by
    refine Nat.le_trans (sum_le_card_nsmul _ _ (Fintype.card W * Fintype.card W ^ k) fun v _ => Nat.mul_le_mul_left _ (Nat.sub_le _ _)) ?_
    simp
  have e3 : ∑ v ∈ Ioc m h, Fintype.card W * (Fintype.card W ^ k - c v ^ k) ≤ ∑ v ∈ Ioc m h, 2 ^ (h + 1 - v) * (k * Fintype.card W ^ k) := by
    refine sum_le_sum fun v hv => ?_
    have hv' : v ∈ Icc 1 h := by simp only [mem_Ioc, mem_Icc] at hv ⊢; omega
    refine Nat.le_trans (pow_gap_le (hc v hv') k) (Nat.le_of_eq ?_)
    ring
  rw [← sum_mul] at e3
  have e4 := tail_sum h m hm
  have e5 : k * 2 ^ (h + 1 - m) ≤ Fintype.card W := by
    rw [hW]
    calc k * 2 ^ (h + 1 - m) ≤ 2 ^ m * 2 ^ (h + 1 - m) := Nat.mul_le_mul_right _ hk
      _ = 2 ^ (h + 1) := by rw [← Nat.pow_add]; congr 1; omega
  rw [e1]
  calc _ ≤ m * (Fintype.card W * Fintype.card W ^ k) + (∑ v ∈ Ioc m h, 2 ^ (h + 1 - v)) * (k * Fintype.card W ^ k) + k * 2 * Fintype.card W ^ k := by omega
    _ = m * (Fintype.card W * Fintype.card W ^ k) + k * (∑ v ∈ Ioc m h, 2 ^ (h + 1 - v) + 2) * Fintype.card W ^ k := by ring
    _ = m * (Fintype.card W * Fintype.card W ^ k) + k * 2 ^ (h + 1 - m) * Fintype.card W ^ k := by rw [e4]
    _ ≤ m * (Fintype.card W * Fintype.card W ^ k) + Fintype.card W * Fintype.card W ^ k := Nat.add_le_add_left (Nat.mul_le_mul_right _ e5) _
    _ = Fintype.card W * ((m + 1) * Fintype.card W ^ k) := by ring

/-- The level that a random number gives. -/
def levelOf (x : Fin (2 ^ 64)) : Nat := genBranchLevel (BitVec.ofNat 64 x)

theorem level_le_iff (n v : Nat) (hv : v ≤ 63) : v < genBranchLevel (BitVec.ofNat 64 n) ↔ n % 2 ^ v = 0 := by
  obtain ⟨j, h1, h2, h3, h4⟩ := C29_level (BitVec.ofNat 64 n)
  have bit : ∀ i, i < 64 → (BitVec.ofNat 64 n).getLsbD i = n.testBit i := by
    intro i hi; rw [BitVec.getLsbD_ofNat]; simp [hi]
  constructor
  · intro h
    apply Nat.eq_of_testBit_eq
    intro i
    rw [Nat.testBit_mod_two_pow]
    by_cases hi : i < v
    · have := h3 i (by omega); rw [bit i (by omega)] at this
      simp [this]
    · simp [hi]
  · intro h
    by_contra hlt
    have := h4 (by omega)
    rw [bit j (by omega)] at this
    have h5 := congrArg (fun m => m.testBit j) h
    simp only [Nat.testBit_mod_two_pow] at h5
    simp [this] at h5
    omega

theorem fin_card {N : Nat} (p : Nat → Prop) [DecidablePred p] : (univ.filter fun x : Fin N => p x).card = ((range N).filter p).card := by
  rw [card_filter, card_filter, sum_range]

theorem level_upTo {v : Nat} (hv : v ≤ 63) : upTo levelOf v + 2 ^ (64 - v) = 2 ^ 64 := by
  have h1 : (univ.filter fun x : Fin (2 ^ 64) => (x : Nat) % 2 ^ v = 0).card = 2 ^ (64 - v) := by
    rw [fin_card (fun x => x % 2 ^ v = 0)]
    have := card_residue v (64 - v) 0 (Nat.two_pow_pos v)
    rwa [show v + (64 - v) = 64 by omega] at this
  have h2 : (univ.filter fun x : Fin (2 ^ 64) => ¬ (x : Nat) % 2 ^ v = 0).card = upTo levelOf v := by
    refine congrArg card (filter_congr fun x _ => ?_)
    rw [← level_le_iff _ v hv]
    unfold levelOf
    omega
  have h3 := card_filter_add_card_filter_not (s := (univ : Finset (Fin (2 ^ 64)))) (fun x => (x : Nat) % 2 ^ v = 0)
  rw [h1, h2, card_univ, Fintype.card_fin] at h3
  omega

theorem level_top : upTo levelOf 64 = 2 ^ 64 := by
  have h : ∀ x ∈ (univ : Finset (Fin (2 ^ 64))), levelOf x ≤ 64 := fun x _ => (C29_level_range (BitVec.ofNat 64 x)).2.1
  unfold upTo
  rw [filter_true_of_mem h, card_univ, Fintype.card_fin]

theorem level_words (v : Nat) : (univ.filter fun x : Fin (2 ^ 64) => levelOf x = v).card = wordsWith genBranchLevel v :=
  fin_card (fun x => genBranchLevel (BitVec.ofNat 64 x) = v)

theorem level_sum (k : Nat) : ∑ x : Fin (2 ^ 64), upTo levelOf (levelOf x) ^ k =
    ∑ v ∈ Icc 1 63, 2 ^ (63 + 1 - v) * upTo levelOf v ^ k + 2 * Fintype.card (Fin (2 ^ 64)) ^ k := by
  have h0 : ∀ x ∈ (univ : Finset (Fin (2 ^ 64))), levelOf x ∈ Icc 1 (63 + 1) := fun x _ => by
    rw [mem_Icc]
    exact ⟨(C29_level_range (BitVec.ofNat 64 x)).1, (C29_level_range (BitVec.ofNat 64 x)).2.1⟩
  rw [← sum_fiberwise_of_maps_to h0]
  have h1 : ∀ v ∈ Icc 1 (63 + 1), ∑ x ∈ univ.filter (fun x : Fin (2 ^ 64) => levelOf x = v), upTo levelOf (levelOf x) ^ k =
      wordsWith genBranchLevel v * upTo levelOf v ^ k := fun v _ => by
    rw [← level_words]
    exact sum_const_nat fun x hx => by rw [(mem_filter.1 hx).2]
  rw [sum_congr rfl h1, sum_Icc_succ_top (by omega)]
  have h2 : ∑ v ∈ Icc 1 63, wordsWith genBranchLevel v * upTo levelOf v ^ k = ∑ v ∈ Icc 1 63, 2 ^ (63 + 1 - v) * upTo levelOf v ^ k :=
    sum_congr rfl fun v hv => by
      rw [mem_Icc] at hv
      rw [C77_distribution v hv.1 hv.2, perfectNodes_eq 64 v hv.1 (by omega)]
  have h3 : wordsWith genBranchLevel (63 + 1) * upTo levelOf (63 + 1) ^ k = 2 * Fintype.card (Fin (2 ^ 64)) ^ k := by
    rw [show 63 + 1 = 64 from rfl, C77_top, level_top, perfectNodes_eq 64 64 (by decide) (by decide), Fintype.card_fin]
  rw [h2, h3]

/-- A list of `k ≤ 2 ^ m` random levels: in the mean at most `m + 1` of them see the start. -/
theorem level_mean {n : Nat} {J : List (Fin n)} (hn : J.Nodup) {m : Nat} (hm : m ≤ 63) (hJ : J.length ≤ 2 ^ m) :
    ∑ w : Fin n → Fin (2 ^ 64), seenLe [] (J.map fun b => levelOf (w b)) ≤ (2 ^ 64) ^ n * (m + 1) := by
  have hW : Fintype.card (Fin (2 ^ 64)) = 2 ^ (63 + 1) := Fintype.card_fin _
  have h := seen_mean levelOf hn (by rw [hW]; exact Nat.two_pow_pos _) (seen_bound (c := upTo levelOf) hW (fun v hv => by
    rw [mem_Icc] at hv
    rw [hW]
    exact level_upTo hv.2) level_sum hJ hm)
  rwa [hW] at h

end Iodyn
