import Verif.Proof.MeanDepth
/-
The mean of the square of the depth over all random levels.
-/
namespace Iodyn
open Finset

theorem square_power (d K : Nat) : (d : ℚ) ^ 2 * (3 / 2) ^ K ≤ K ^ 2 * (3 / 2) ^ K + (4 * K + 8) * (3 / 2) ^ d := by
  by_cases h : d ≤ K
  · have : (d : ℚ) ≤ K := by exact_mod_cast h
    have h1 : (0 : ℚ) < (3 / 2) ^ K := by positivity
    have h2 : (0 : ℚ) < (3 / 2) ^ d := by positivity
    have h3 : (d : ℚ) ^ 2 ≤ K ^ 2 := pow_le_pow_left₀ (by positivity) this 2
    have h4 : (0 : ℚ) ≤ (4 * K + 8) * (3 / 2) ^ d := by positivity
    have := mul_le_mul_of_nonneg_right h3 h1.le
    linarith
  · obtain ⟨x, rfl⟩ : ∃ x, d = K + x := ⟨d - K, by omega⟩
    have h1 : (0 : ℚ) < (3 / 2) ^ K := by positivity
    have h2 : (x : ℚ) ≤ 2 * (3 / 2) ^ x ∧ (x : ℚ) ^ 2 + 3 * x + 8 ≤ 8 * (3 / 2) ^ x := by
      clear h
      induction x with
      | zero => norm_num
      | succ x ih =>
        have h3 : (1 : ℚ) ≤ (3 / 2) ^ x := one_le_pow₀ (by norm_num)
        have h4 : (x : ℚ) ≤ x ^ 2 := by exact_mod_cast Nat.le_self_pow (by decide) x
        rw [pow_succ (3 / 2 : ℚ)]
        push_cast
        constructor
        · linarith [ih.1]
        · nlinarith [ih.2]
    have h5 : (0 : ℚ) ≤ x := by positivity
    have h6 : (0 : ℚ) ≤ K := by positivity
    rw [pow_add (3 / 2 : ℚ)]
    push_cast
    have h7 : ((K : ℚ) + x) ^ 2 ≤ K ^ 2 + (4 * K + 8) * (3 / 2) ^ x := by nlinarith [h2.1, h2.2]
    calc _ ≤ ((K : ℚ) ^ 2 + (4 * K + 8) * (3 / 2) ^ x) * (3 / 2) ^ K := mul_le_mul_of_nonneg_right h7 h1.le
      _ = _ := by ring

/-- The mean of the square of the depth. -/
theorem deepest_square {n : Nat} {J : List (Fin n)} (hn : J.Nodup) (h63 : n ≤ 2 ^ 63) :
    ∑ w : Fin n → Fin (2 ^ 64), deepest (J.map fun b => levelOf (w b)) ^ 2 ≤ (2 ^ 64) ^ n * (sixLogs J.length ^ 2 + sixLogs J.length + 2) := by
  have h1 := deepest_power hn h63
  have h3 := logs_power J.length
  have h4 : (0 : ℚ) < (3 / 2) ^ sixLogs J.length := by positivity
  have h5 : (∑ w : Fin n → Fin (2 ^ 64), (deepest (J.map fun b => levelOf (w b)) : ℚ) ^ 2) * (3 / 2) ^ sixLogs J.length ≤
      (2 ^ 64) ^ n * (sixLogs J.length ^ 2 * (3 / 2) ^ sixLogs J.length) +
        (4 * sixLogs J.length + 8) * ∑ w : Fin n → Fin (2 ^ 64), (3 / 2 : ℚ) ^ deepest (J.map fun b => levelOf (w b)) := by
    rw [sum_mul, mul_sum]
    refine le_trans (sum_le_sum fun w _ => square_power _ (sixLogs J.length)) ?_
    rw [sum_add_distrib, sum_const, card_univ, nsmul_eq_mul, Fintype.card_pi]
    simp only [Fintype.card_fin, prod_const, card_univ]
    norm_num
  have h6 : (∑ w : Fin n → Fin (2 ^ 64), (deepest (J.map fun b => levelOf (w b)) : ℚ) ^ 2) ≤ (2 ^ 64) ^ n * (sixLogs J.length ^ 2 + sixLogs J.length + 2) := by
    refine le_of_mul_le_mul_right ?_ h4
    have h7 : (J.length + 2 : ℚ) ^ 3 * (2 ^ 64) ^ n ≤ (3 / 2) ^ sixLogs J.length * (2 ^ 64) ^ n := mul_le_mul_of_nonneg_right h3 (by positivity)
    have h8 : (0 : ℚ) ≤ (sixLogs J.length : ℚ) + 2 := by positivity
    have h9 := mul_le_mul_of_nonneg_left (le_trans h1 h7) h8
    calc _ ≤ _ := h5
      _ = (2 ^ 64) ^ n * (sixLogs J.length ^ 2 * (3 / 2) ^ sixLogs J.length) +
        ((sixLogs J.length : ℚ) + 2) * (4 * ∑ w : Fin n → Fin (2 ^ 64), (3 / 2 : ℚ) ^ deepest (J.map fun b => levelOf (w b))) := by ring
      _ ≤ (2 ^ 64) ^ n * (sixLogs J.length ^ 2 * (3 / 2) ^ sixLogs J.length) + ((sixLogs J.length : ℚ) + 2) * ((3 / 2) ^ sixLogs J.length * (2 ^ 64) ^ n) := by linarith
      _ = _ := by ring
  exact_mod_cast h6

end Iodyn
