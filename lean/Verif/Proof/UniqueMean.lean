import Verif.Proof.UniqueLocal
import Verif.Props.SkipCost
import Mathlib.Data.Finset.Sigma
import Mathlib.Tactic.Ring
import Mathlib.Algebra.BigOperators.Group.Finset.Sigma
/-
How many elements are touched by an edit, in the mean over all hash functions.
-/
namespace Iodyn.Incr.Uq
open Iodyn.Skip
variable {E : Type} {L : Nat} {hash : E → Word}

/-- The first `y` of a list shares at least as many bits with `z` as all before. -/
def Leads (L : Nat) (hash : E → Word) (z : E) (l : List E) (y : E) : Prop :=
  ∃ p q, l = p ++ y :: q ∧ ∀ x ∈ p, x ≠ y ∧ common L (hash x) (hash z) ≤ common L (hash y) (hash z)

theorem touched_each (zs : List E) (l : List E) : ∀ e : List E, touched L hash zs e l ≤ (zs.map fun z => touched L hash [z] e l).sum := by
  induction l with
  | nil => exact fun _ => Nat.zero_le _
  | cons y l ih =>
    intro e
    have h1 : ∀ us : List E, (if ∃ z ∈ us, ∀ x ∈ e, common L (hash x) (hash z) ≤ common L (hash y) (hash z) then 1 else 0) + (us.map fun z => touched L hash [z] (y :: e) l).sum ≤
        (us.map fun z => touched L hash [z] e (y :: l)).sum := by
      intro us
      induction us with
      | nil => simp
      | cons u us ihu =>
        simp only [List.map_cons, List.sum_cons]
        have h2 : touched L hash [u] e (y :: l) = (if ∀ x ∈ e, common L (hash x) (hash u) ≤ common L (hash y) (hash u) then 1 else 0) + touched L hash [u] (y :: e) l := by
          simp [touched]
        rw [h2]
        have h3 : (if ∃ z ∈ u :: us, ∀ x ∈ e, common L (hash x) (hash z) ≤ common L (hash y) (hash z) then 1 else 0) ≤
            (if ∀ x ∈ e, common L (hash x) (hash u) ≤ common L (hash y) (hash u) then 1 else 0) +
              (if ∃ z ∈ us, ∀ x ∈ e, common L (hash x) (hash z) ≤ common L (hash y) (hash z) then 1 else 0) := by
          by_cases ha : ∀ x ∈ e, common L (hash x) (hash u) ≤ common L (hash y) (hash u)
          · rw [if_pos ha]; split <;> omega
          · by_cases hb : ∃ z ∈ us, ∀ x ∈ e, common L (hash x) (hash z) ≤ common L (hash y) (hash z)
            · rw [if_pos hb]; split <;> omega
            · rw [if_neg]
              · exact Nat.zero_le _
              · rintro ⟨z, hz, h⟩
                rcases List.mem_cons.1 hz with rfl | hz
                · exact ha h
                · exact hb ⟨z, hz, h⟩
        omega
    rw [touched]
    exact Nat.le_trans (Nat.add_le_add_left (ih _) _) (h1 zs)

variable [DecidableEq E] [Fintype E]

open Classical in
theorem touched_leads (z : E) {r : Nat} {l : List E} (hr : ∀ y, l.count y ≤ r) : touched L hash [z] [] l ≤ r * (Finset.univ.filter (Leads L hash z l)).card := by
  have key : ∀ l : List E, touched L hash [z] [] l ≤ ∑ y : E, if Leads L hash z l y then l.count y else 0 := by
    intro l
    induction l using List.reverseRecOn with
    | nil => exact Nat.zero_le _
    | append_singleton l a ih =>
      rw [touched_append]
      have h1 : touched L hash [z] (l.reverse ++ []) [a] = if ∀ x ∈ l, common L (hash x) (hash z) ≤ common L (hash a) (hash z) then 1 else 0 := by
        simp [touched]
      rw [h1]
      have h2 : (if ∀ x ∈ l, common L (hash x) (hash z) ≤ common L (hash a) (hash z) then 1 else 0) =
          ∑ y : E, if y = a ∧ (∀ x ∈ l, common L (hash x) (hash z) ≤ common L (hash a) (hash z)) then 1 else 0 := by
        by_cases h : ∀ x ∈ l, common L (hash x) (hash z) ≤ common L (hash a) (hash z)
        · rw [if_pos h]
          simp only [and_iff_left h]
          rw [Finset.sum_ite_eq' Finset.univ a, if_pos (Finset.mem_univ _)]
        · rw [if_neg h]
          simp only [h, and_false, if_false, Finset.sum_const_zero]
      rw [h2]
      refine Nat.le_trans (Nat.add_le_add_right ih _) ?_
      rw [← Finset.sum_add_distrib]
      refine Finset.sum_le_sum fun y _ => ?_
      have grow : Leads L hash z l y → Leads L hash z (l ++ [a]) y := by
        rintro ⟨p, q, rfl, h⟩
        exact ⟨p, q ++ [a], by simp, h⟩
      rw [List.count_append]
      by_cases hy : y = a ∧ (∀ x ∈ l, common L (hash x) (hash z) ≤ common L (hash a) (hash z))
      · obtain ⟨rfl, h⟩ := hy
        have : Leads L hash z (l ++ [y]) y := by
          by_cases hm : y ∈ l
          · obtain ⟨p, q, rfl, hp⟩ := List.eq_append_cons_of_mem hm
            exact grow ⟨p, q, rfl, fun x hx => ⟨fun e => hp (e ▸ hx), h x (List.mem_append_left _ hx)⟩⟩
          · exact ⟨l, [], rfl, fun x hx => ⟨fun e => hm (e ▸ hx), h x hx⟩⟩
        rw [if_pos (show y = y ∧ ∀ x ∈ l, common L (hash x) (hash z) ≤ common L (hash y) (hash z) from ⟨rfl, h⟩), if_pos this]
        have e1 : [y].count y = 1 := by simp
        rw [e1]
        split <;> omega
      · rw [if_neg hy]
        split
        · rename_i h
          rw [if_pos (grow h)]
          omega
        · exact Nat.zero_le _
  refine Nat.le_trans (key l) ?_
  rw [← Finset.sum_filter]
  refine Nat.le_trans (Finset.sum_le_card_nsmul _ _ r fun y _ => hr y) ?_
  rw [smul_eq_mul, Nat.mul_comm]

/-- The hash function with one bit of one hash changed. -/
def flip (w : E → Fin (2 ^ 64)) (y : E) (k : Nat) : E → Fin (2 ^ 64) := Function.update w y (hashOf w y ^^^ BitVec.twoPow 64 k).toFin

omit [Fintype E] in
theorem flip_self (w : E → Fin (2 ^ 64)) (y : E) (k : Nat) : hashOf (flip w y k) y = hashOf w y ^^^ BitVec.twoPow 64 k := by
  unfold flip hashOf
  rw [Function.update_self]

omit [Fintype E] in
theorem flip_other (w : E → Fin (2 ^ 64)) {x y : E} (h : x ≠ y) (k : Nat) : hashOf (flip w y k) x = hashOf w x := by
  unfold flip hashOf
  rw [Function.update_of_ne h]

omit [Fintype E] in
theorem flip_common {w : E → Fin (2 ^ 64)} {y z : E} {k : Nat} (hk : k < L) (hL : L ≤ 63) (h : common L (hashOf w y) (hashOf w z) = k) (hyz : z ≠ y) :
    k < common L (hashOf (flip w y k) y) (hashOf (flip w y k) z) := by
  rw [flip_self, flip_other w hyz]
  have d := (common_eq hk _ _).1 h
  refine ((le_common L _ _).2 (k + 1)).2 ⟨hk, fun t ht => ?_⟩
  rw [BitVec.getLsbD_xor, BitVec.getLsbD_twoPow]
  by_cases e : k = t
  · subst e
    have := d.2
    have h64 : k < 64 := by omega
    simp only [h64, decide_true, Bool.and_self, Bool.xor_true]
    revert this
    cases (hashOf w y).getLsbD k <;> cases (hashOf w z).getLsbD k <;> simp
  · rw [decide_eq_false e, Bool.and_false, Bool.xor_false]
    exact d.1 t (by omega)

open Classical in
/-- In the mean at most one element leads with a given number of bits. -/
theorem leads_level (hL : L ≤ 63) (z : E) (l : List E) {k : Nat} (hk : k < L) :
    ∑ w : E → Fin (2 ^ 64), (Finset.univ.filter fun y => Leads L (hashOf w) z l y ∧ common L (hashOf w y) (hashOf w z) = k).card ≤ (2 ^ 64) ^ Fintype.card E := by
  have hcard : (Finset.univ : Finset (E → Fin (2 ^ 64))).card = (2 ^ 64) ^ Fintype.card E := by
    rw [Finset.card_univ, Fintype.card_fun, Fintype.card_fin]
  rw [← hcard, ← Finset.card_sigma]
  have ne : ∀ {w : E → Fin (2 ^ 64)} {y : E}, common L (hashOf w y) (hashOf w z) = k → z ≠ y := by
    rintro w y h rfl
    rw [common_self] at h
    omega
  have found : ∀ {w : E → Fin (2 ^ 64)} {y : E}, Leads L (hashOf w) z l y → common L (hashOf w y) (hashOf w z) = k →
      l.find? (fun x => decide (k < common L (hashOf (flip w y k) x) (hashOf (flip w y k) z))) = some y := by
    rintro w y ⟨p, q, rfl, h⟩ hc
    rw [find_skip fun x hx => ?_]
    · rw [List.find?_cons_of_pos]
      exact decide_eq_true (flip_common hk hL hc (ne hc))
    · rw [flip_other w (h x hx).1, flip_other w (ne hc)]
      have := (h x hx).2
      exact decide_eq_false (by omega)
  refine Finset.card_le_card_of_injOn (fun x => flip x.1 x.2 k) (fun _ _ => Finset.mem_univ _) ?_
  rintro ⟨w, y⟩ hx ⟨w', y'⟩ hx' he
  have hx := (Finset.mem_filter.1 (Finset.mem_sigma.1 (Finset.mem_coe.1 hx)).2).2
  have hx' := (Finset.mem_filter.1 (Finset.mem_sigma.1 (Finset.mem_coe.1 hx')).2).2
  simp only at hx hx' he
  have f1 := found hx.1 hx.2
  have f2 := found hx'.1 hx'.2
  rw [he, f2] at f1
  cases f1
  have : w = w' := funext fun x => by
    by_cases hxy : x = y
    · subst hxy
      have h1 : hashOf (flip w x k) x = hashOf (flip w' x k) x := by rw [he]
      rw [flip_self, flip_self] at h1
      have h := congrArg (fun u => u ^^^ BitVec.twoPow 64 k) h1
      simp only [BitVec.xor_assoc, BitVec.xor_self, BitVec.xor_zero] at h
      exact congrArg BitVec.toFin h
    · have h := congrArg BitVec.toFin ((flip_other w hxy k).symm.trans ((congrArg (fun u => hashOf u x) he).trans (flip_other w' hxy k)))
      exact h
  rw [this]

/-- In the mean few elements share many bits. -/
theorem share_many (hL : L ≤ 63) (z : E) (l : Finset E) {b : Nat} (hb : b ≤ L) :
    (∑ w : E → Fin (2 ^ 64), (l.filter fun y => b ≤ common L (hashOf w y) (hashOf w z)).card) * 2 ^ b ≤ (2 ^ 64) ^ Fintype.card E * (2 ^ b + l.card) := by
  have hcard : (Finset.univ : Finset (E → Fin (2 ^ 64))).card = (2 ^ 64) ^ Fintype.card E := by
    rw [Finset.card_univ, Fintype.card_fun, Fintype.card_fin]
  have each : ∀ y, y ≠ z → (Finset.univ.filter fun w : E → Fin (2 ^ 64) => b ≤ common L (hashOf w y) (hashOf w z)).card * 2 ^ b ≤ (2 ^ 64) ^ Fintype.card E := by
    intro y hy
    refine fixed_bits hy.symm (by omega) _ fun w hw w' hw' e => ?_
    have hw := (((le_common L _ _).2 b).1 (Finset.mem_filter.1 hw).2).2
    have hw' := (((le_common L _ _).2 b).1 (Finset.mem_filter.1 hw').2).2
    have e : hashOf w z = hashOf w' z := congrArg BitVec.ofFin e
    rw [e] at hw
    exact hw.trans hw'.symm
  have swap : (∑ w : E → Fin (2 ^ 64), (l.filter fun y => b ≤ common L (hashOf w y) (hashOf w z)).card) =
      ∑ y ∈ l, (Finset.univ.filter fun w : E → Fin (2 ^ 64) => b ≤ common L (hashOf w y) (hashOf w z)).card := by
    simp only [Finset.card_filter]
    exact Finset.sum_comm
  rw [swap]
  have top : ∀ y, (Finset.univ.filter fun w : E → Fin (2 ^ 64) => b ≤ common L (hashOf w y) (hashOf w z)).card ≤ (2 ^ 64) ^ Fintype.card E := fun y => by
    rw [← hcard]; exact Finset.card_le_univ _
  generalize (2 ^ 64) ^ Fintype.card E = N at each top
  have h1 : ∀ y ∈ l, (Finset.univ.filter fun w : E → Fin (2 ^ 64) => b ≤ common L (hashOf w y) (hashOf w z)).card * 2 ^ b ≤ N + if y = z then N * 2 ^ b else 0 := by
    intro y _
    by_cases e : y = z
    · rw [if_pos e]
      exact Nat.le_trans (Nat.mul_le_mul_right _ (top y)) (Nat.le_add_left _ _)
    · rw [if_neg e]; exact each y e
  rw [Finset.sum_mul]
  refine Nat.le_trans (Finset.sum_le_sum h1) ?_
  rw [Finset.sum_add_distrib, Finset.sum_const, smul_eq_mul, Finset.sum_ite_eq' l z, Nat.mul_add, Nat.mul_comm l.card]
  split <;> omega

open Classical in
/-- The mean of the number of elements that lead. -/
theorem leads_mean (hL : L ≤ 63) (z : E) (l : List E) :
    ∑ w : E → Fin (2 ^ 64), (Finset.univ.filter (Leads L (hashOf w) z l)).card ≤
      (2 ^ 64) ^ Fintype.card E * (Nat.clog 2 l.toFinset.card + 2 + l.toFinset.card / 2 ^ L) := by
  have cut : ∀ b, b ≤ L → (∑ w : E → Fin (2 ^ 64), (Finset.univ.filter (Leads L (hashOf w) z l)).card) * 2 ^ b ≤
      (2 ^ 64) ^ Fintype.card E * ((b + 1) * 2 ^ b + l.toFinset.card) := by
    intro b hb
    have h1 : ∀ w : E → Fin (2 ^ 64), (Finset.univ.filter (Leads L (hashOf w) z l)).card ≤
        (∑ k ∈ Finset.range b, (Finset.univ.filter fun y => Leads L (hashOf w) z l y ∧ common L (hashOf w y) (hashOf w z) = k).card) +
          (l.toFinset.filter fun y => b ≤ common L (hashOf w y) (hashOf w z)).card := by
      intro w
      have : Finset.univ.filter (Leads L (hashOf w) z l) ⊆
          ((Finset.range b).biUnion fun k => Finset.univ.filter fun y => Leads L (hashOf w) z l y ∧ common L (hashOf w y) (hashOf w z) = k) ∪
            l.toFinset.filter fun y => b ≤ common L (hashOf w y) (hashOf w z) := by
        intro y hy
        have hy := (Finset.mem_filter.1 hy).2
        rw [Finset.mem_union]
        by_cases hb : b ≤ common L (hashOf w y) (hashOf w z)
        · refine .inr (Finset.mem_filter.2 ⟨?_, hb⟩)
          obtain ⟨p, q, rfl, -⟩ := hy
          simp
        · refine .inl (Finset.mem_biUnion.2 ⟨_, Finset.mem_range.2 (Nat.lt_of_not_le hb), Finset.mem_filter.2 ⟨Finset.mem_univ _, hy, rfl⟩⟩)
      exact Nat.le_trans (Finset.card_le_card this) (Nat.le_trans (Finset.card_union_le _ _) (Nat.add_le_add_right Finset.card_biUnion_le _))
    have h2 := Finset.sum_le_sum fun w (_ : w ∈ (Finset.univ : Finset (E → Fin (2 ^ 64)))) => h1 w
    rw [Finset.sum_add_distrib, Finset.sum_comm] at h2
    have h3 : ∑ k ∈ Finset.range b, ∑ w : E → Fin (2 ^ 64), (Finset.univ.filter fun y => Leads L (hashOf w) z l y ∧ common L (hashOf w y) (hashOf w z) = k).card ≤
        b * (2 ^ 64) ^ Fintype.card E := by
      refine Nat.le_trans (Finset.sum_le_card_nsmul _ _ _ fun k hk => leads_level hL z l (Nat.lt_of_lt_of_le (Finset.mem_range.1 hk) hb)) ?_
      rw [smul_eq_mul, Finset.card_range]
    have h4 := share_many hL z l.toFinset hb
    refine Nat.le_trans (Nat.mul_le_mul_right _ h2) ?_
    rw [Nat.add_mul]
    refine Nat.le_trans (Nat.add_le_add (Nat.mul_le_mul_right _ h3) h4) (Nat.le_of_eq ?_)
    generalize (2 ^ 64) ^ Fintype.card E = N
    ring
  generalize (∑ w : E → Fin (2 ^ 64), (Finset.univ.filter (Leads L (hashOf w) z l)).card) = A at cut ⊢
  generalize (2 ^ 64) ^ Fintype.card E = N at cut ⊢
  generalize l.toFinset.card = m at cut ⊢
  by_cases hc : Nat.clog 2 m ≤ L
  · have h := cut _ hc
    have hm : m ≤ 2 ^ Nat.clog 2 m := Nat.le_pow_clog (by decide) m
    have h5 : A * 2 ^ Nat.clog 2 m ≤ N * (Nat.clog 2 m + 2) * 2 ^ Nat.clog 2 m := by
      refine Nat.le_trans h ?_
      rw [Nat.mul_assoc]
      refine Nat.mul_le_mul_left _ ?_
      have : (Nat.clog 2 m + 2) * 2 ^ Nat.clog 2 m = (Nat.clog 2 m + 1) * 2 ^ Nat.clog 2 m + 2 ^ Nat.clog 2 m := by ring
      omega
    have h6 := Nat.le_of_mul_le_mul_right h5 (Nat.pow_pos (by decide))
    exact Nat.le_trans h6 (Nat.mul_le_mul_left _ (Nat.le_add_right _ _))
  · have h := cut L (Nat.le_refl _)
    have hm : m ≤ (m / 2 ^ L + 1) * 2 ^ L := by
      rw [Nat.mul_comm]
      exact Nat.le_of_lt (Nat.lt_mul_div_succ m (Nat.pow_pos (by decide)))
    have h5 : A * 2 ^ L ≤ N * (L + 1 + (m / 2 ^ L + 1)) * 2 ^ L := by
      refine Nat.le_trans h ?_
      rw [Nat.mul_assoc]
      refine Nat.mul_le_mul_left _ ?_
      rw [Nat.add_mul (L + 1)]
      omega
    have h6 := Nat.le_of_mul_le_mul_right h5 (Nat.pow_pos (by decide))
    refine Nat.le_trans h6 (Nat.mul_le_mul_left _ ?_)
    omega

/-- The mean of the number of touched elements. -/
theorem touched_mean (hL : L ≤ 63) (zs : List E) {l : List E} {r : Nat} (hr : ∀ y, l.count y ≤ r) :
    ∑ w : E → Fin (2 ^ 64), touched L (hashOf w) zs [] l ≤ (2 ^ 64) ^ Fintype.card E * (zs.length * (r * (Nat.clog 2 l.toFinset.card + 2 + l.toFinset.card / 2 ^ L))) := by
  classical
  refine Nat.le_trans (Finset.sum_le_sum fun w _ => touched_each zs l []) ?_
  induction zs with
  | nil => simp
  | cons z zs ih =>
    simp only [List.map_cons, List.sum_cons, List.length_cons]
    rw [Finset.sum_add_distrib, Nat.add_mul, Nat.mul_add, Nat.one_mul, Nat.add_comm]
    refine Nat.add_le_add ih ?_
    refine Nat.le_trans (Finset.sum_le_sum fun w _ => touched_leads z hr) ?_
    rw [← Finset.mul_sum, Nat.mul_left_comm]
    exact Nat.mul_le_mul_left _ (leads_mean hL z l)

end Iodyn.Incr.Uq
