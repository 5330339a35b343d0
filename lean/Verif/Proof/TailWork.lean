import Verif.Spec.SessionTail
import Verif.Proof.MeanDepth
import Verif.Props.MeanHarness
/-
How seldom the way to the place of an edit is long.
-/
namespace Iodyn
open Finset
variable {E : Type}

theorem four_power (m : Nat) : ((m : ℚ) + 2) ^ 2 ≤ (3 / 2) ^ fourLogs m := by
  have h1 : ((m : ℚ) + 2) ≤ 2 ^ Nat.clog 2 (m + 2) := by exact_mod_cast Nat.le_pow_clog (by decide) (m + 2)
  calc ((m : ℚ) + 2) ^ 2 ≤ (2 ^ Nat.clog 2 (m + 2)) ^ 2 := pow_le_pow_left₀ (by positivity) h1 2
    _ = 4 ^ Nat.clog 2 (m + 2) := by rw [← pow_mul, Nat.mul_comm, pow_mul]; norm_num
    _ ≤ ((3 / 2) ^ 4) ^ Nat.clog 2 (m + 2) := pow_le_pow_left₀ (by norm_num) (by norm_num) _
    _ = _ := by rw [← pow_mul]; rfl

theorem fourLogs_mono {a b : Nat} (h : a ≤ b) : fourLogs a ≤ fourLogs b := Nat.mul_le_mul_left _ (Nat.clog_mono_right _ (by omega))

/-- The mean of a power of the way to a place. -/
theorem path_power {n : Nat} (h63 : n ≤ 2 ^ 63) {l : List (Item E)} (hs : (levelsOf l).Nodup) (hn : ∀ k ∈ levelsOf l, k < n) {i : Nat}
    (hi : i ≤ (elemsOf l).length) :
    4 * ∑ w : Fin n → Fin (2 ^ 64), (3 / 2 : ℚ) ^ pathAt i (l.map (Item.at (drawn w))) ≤ ((levelsOf l).length + 2) ^ 2 * (2 ^ 64) ^ n := by
  have e := congrArg levelsOf (cutAt_append l i hi)
  rw [levelsOf_append, levelsOf_reverse] at e
  have hp : (levelsOf (cutAt i l).1 ++ levelsOf (cutAt i l).2).Perm (levelsOf l) := by
    rw [← e]
    exact (List.reverse_perm _).symm.append_right _
  have hmem : ∀ k ∈ levelsOf (cutAt i l).1 ++ levelsOf (cutAt i l).2, k < n := fun k hk => hn k (hp.mem_iff.1 hk)
  have hnd := hp.nodup_iff.2 hs
  have hlen := hp.length_eq
  rw [List.length_append] at hlen
  have hpath : ∀ w : Fin n → Fin (2 ^ 64), pathAt i (l.map (Item.at (drawn w))) =
      seenLe [] ((levelsOf (cutAt i l).1).map (drawn w)) + seenLt [] ((levelsOf (cutAt i l).2).map (drawn w)) := fun w => by
    unfold pathAt
    rw [at_cut, at_levels, at_levels]
  simp only [hpath]
  generalize levelsOf (cutAt i l).1 = a at *
  generalize levelsOf (cutAt i l).2 = b at *
  obtain ⟨A, rfl⟩ : ∃ J : List (Fin n), J.map Fin.val = a := ⟨a.attach.map fun k => ⟨k.1, hmem k.1 (List.mem_append_left _ k.2)⟩, by simp⟩
  obtain ⟨B, rfl⟩ : ∃ J : List (Fin n), J.map Fin.val = b := ⟨b.attach.map fun k => ⟨k.1, hmem k.1 (List.mem_append_right _ k.2)⟩, by simp⟩
  rw [← List.map_append] at hnd
  have h := cut_power (hnd.of_map _) h63
  have hd : ∀ (w : Fin n → Fin (2 ^ 64)) (J : List (Fin n)), (J.map Fin.val).map (drawn w) = J.map fun b => levelOf (w b) := fun w J => by
    rw [List.map_map]
    refine List.map_congr_left fun k _ => ?_
    show drawn w k.val = levelOf (w k)
    unfold drawn
    rw [dif_pos k.isLt]
    rfl
  simp only [hd]
  rw [List.length_map, List.length_map] at hlen
  have h4 : ((levelsOf l).length : ℚ) = A.length + B.length := by rw [← hlen]; push_cast; ring
  rw [h4]
  have h5 : (4 : ℚ) * ((1 + A.length) * (1 + B.length)) ≤ (A.length + B.length + 2) ^ 2 := by nlinarith [sq_nonneg ((A.length : ℚ) - B.length)]
  calc _ ≤ 4 * ((1 + (A.length : ℚ)) * (1 + B.length) * (2 ^ 64) ^ n) := mul_le_mul_of_nonneg_left h (by norm_num)
    _ = 4 * ((1 + (A.length : ℚ)) * (1 + B.length)) * (2 ^ 64) ^ n := by ring
    _ ≤ _ := mul_le_mul_of_nonneg_right h5 (by positivity)

/-- Long ways are unlikely. -/
theorem path_tail {n : Nat} (h63 : n ≤ 2 ^ 63) {l : List (Item E)} (hs : (levelsOf l).Nodup) (hn : ∀ k ∈ levelsOf l, k < n) {i : Nat}
    (hi : i ≤ (elemsOf l).length) {m : Nat} (hm : (levelsOf l).length ≤ m) (j : Nat) :
    4 * 3 ^ j * (univ.filter fun w : Fin n → Fin (2 ^ 64) => fourLogs m + j ≤ pathAt i (l.map (Item.at (drawn w)))).card ≤ 2 ^ j * (2 ^ 64) ^ n := by
  have h1 := path_power h63 hs hn hi
  have h2 := power_card (fun w : Fin n → Fin (2 ^ 64) => pathAt i (l.map (Item.at (drawn w)))) (fourLogs m + j)
  have h3 : (((levelsOf l).length : ℚ) + 2) ^ 2 ≤ (3 / 2) ^ fourLogs m :=
    le_trans (four_power _) (pow_le_pow_right₀ (by norm_num) (fourLogs_mono hm))
  have h4 : (0 : ℚ) < (3 / 2) ^ fourLogs m := by positivity
  generalize (univ.filter fun w : Fin n → Fin (2 ^ 64) => fourLogs m + j ≤ pathAt i (l.map (Item.at (drawn w)))).card = c at h2 ⊢
  have h5 : (4 : ℚ) * (3 / 2) ^ j * c ≤ (2 ^ 64) ^ n := by
    refine le_of_mul_le_mul_left ?_ h4
    calc _ = 4 * ((c : ℚ) * (3 / 2) ^ (fourLogs m + j)) := by rw [pow_add]; ring
      _ ≤ 4 * ∑ w : Fin n → Fin (2 ^ 64), (3 / 2 : ℚ) ^ pathAt i (l.map (Item.at (drawn w))) := mul_le_mul_of_nonneg_left h2 (by norm_num)
      _ ≤ _ := h1
      _ ≤ _ := mul_le_mul_of_nonneg_right h3 (by positivity)
  have h6 : (4 : ℚ) * 3 ^ j * c ≤ 2 ^ j * (2 ^ 64) ^ n := by
    calc (4 : ℚ) * 3 ^ j * c = 2 ^ j * (4 * (3 / 2) ^ j * c) := by rw [div_pow]; field_simp
      _ ≤ _ := mul_le_mul_of_nonneg_left h5 (by positivity)
  exact_mod_cast h6

end Iodyn

namespace Iodyn.Incr.Sketch
open Iodyn.Heap Iodyn.Eval Finset
variable {E G : Type} {C : Coord G E} {dg : Nat} {o : Edit}

/-- In a session it is unlikely that the way to any of the edits is long. -/
theorem plans_tail {n : Nat} (h63 : n ≤ 2 ^ 63) (j : Nat) {a : Nat} : ∀ (m : Nat) (q : Sketch E G), elemsOf q.items ≠ [] →
    (levelsOf q.items ++ batchSlots (plans C dg o m q)).Nodup → (∀ k ∈ levelsOf q.items ++ batchSlots (plans C dg o m q), k < n) →
    (marksOf q.items).length + m * (o.size / dg + 1) ≤ a →
    4 * 3 ^ j * (univ.filter fun w : Fin n → Fin (2 ^ 64) => ∃ k ∈ pathBatches (drawn w) q.items (plans C dg o m q), fourLogs a + j + (o.size / dg + 1) ≤ k).card ≤
      m * (2 ^ j * (2 ^ 64) ^ n)
  | 0, q, _, _, _, _ => by simp [plans, pathBatches]
  | m + 1, q, hne, hs, hn, ha => by
    have hi := index_le (C := C) (o := o) q hne
    have h1 := next_marks (C := C) (dg := dg) (o := o) q hne
    have h2 := ops_points (C := C) (dg := dg) (o := o) q
    have he := edit_levels hi (q.ops C dg o)
    rw [Nat.succ_mul] at ha
    have hb : batchSlots (plans C dg o (m + 1) q) = LOp.slots (q.ops C dg o) ++ batchSlots (plans C dg o m (q.next C dg o)) := by
      simp [plans, batchSlots]
    rw [hb] at hs hn
    have hc := nodup_slots hs
    simp only [List.count_append] at hc
    have ih := plans_tail h63 j (a := a) m (q.next C dg o) (next_full q hne)
      (slots_nodup fun x => by have := hc x; have := he x; simp only [List.count_append, next] at *; omega)
      (fun k hk => hn k (List.count_pos_iff.1 (by
        have := List.count_pos_iff.2 hk; have := he k; simp only [List.count_append, next] at *; omega))) (by omega)
    have hp := path_tail h63 (l := q.items) (i := q.index C o) (m := a) (List.Nodup.of_append_left hs) (fun k hk => hn k (List.mem_append_left _ hk)) hi
      (by simp only [levelsOf, List.length_map]; omega) j
    refine Nat.le_trans (Nat.mul_le_mul_left _ (Nat.le_trans (card_le_card fun w hw => ?_) (card_union_le
      (univ.filter fun w : Fin n → Fin (2 ^ 64) => fourLogs a + j ≤ pathAt (q.index C o) (q.items.map (Item.at (drawn w))))
      (univ.filter fun w : Fin n → Fin (2 ^ 64) => ∃ k ∈ pathBatches (drawn w) (q.next C dg o).items (plans C dg o m (q.next C dg o)),
        fourLogs a + j + (o.size / dg + 1) ≤ k)))) ?_
    · obtain ⟨k, hk, hle⟩ := (mem_filter.1 hw).2
      simp only [plans, pathBatches, List.mem_cons] at hk
      rcases hk with rfl | hk
      · refine mem_union_left _ (mem_filter.2 ⟨mem_univ _, ?_⟩)
        simp only [pathEdits] at hle
        omega
      · exact mem_union_right _ (mem_filter.2 ⟨mem_univ _, k, hk, hle⟩)
    · rw [Nat.mul_add, Nat.succ_mul m, Nat.add_comm (m * _)]
      exact Nat.add_le_add hp ih

end Iodyn.Incr.Sketch
