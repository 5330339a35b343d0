import Verif.Proof.MeanDepth
import Verif.Props.MeanWork
/-
C88: the depth of the trees of sequences over all random levels.
-/
namespace Iodyn
open Finset
variable {E : Type} {f : Nat → Nat}

/-- An edit at any place of a sequence that is not empty. -/
theorem edit_any_next (hf : ∀ k, 1 ≤ f k) {t : RazTree E Count} {items : List (Item E)} (hr : t.Reachable .edit) (he : t.items = items.map (Item.at f)) {i : Nat}
    {ops : List (LOp E)} (hne : elemsOf items ≠ []) (hi : i ≤ (elemsOf items).length) (hm : i < usizeMax) :
    ∃ t', t.edit i (ops.map (LOp.at f)) = .ok t' ∧ t'.Reachable .edit ∧ t'.items = (editList i ops items).map (Item.at f) := by
  have hw : WF t.tree := (Reach.t hr).inv.wf.resolve_left fun ht => hne (by
    rw [← at_elems f items, ← he, RazTree.items, ht]
    rfl)
  obtain ⟨z, e1, e2, e3⟩ := focus_cut hw ((Reach.t hr).tidy rfl).1 (i := i) (by rw [RazTree.elems, he, at_elems]; exact hi) hm
  obtain ⟨k1, -, -⟩ := focus_ok (.inr hw) e1
  have hsides : (z.left, z.right) = sidesAt f (cutAt i items) := by rw [e2, e3, he, at_cut]; rfl
  have hlift := at_lifts f hf ops
  obtain ⟨z', f1, f2, f3⟩ := lops_sides k1 hlift
  obtain ⟨t', g1, g2, g3⟩ := unfocus_closed f2
  have ht : t.edit i (ops.map (LOp.at f)) = .ok t' := bind_ok.2 ⟨some z, e1, bind_ok.2 ⟨z, rfl, bind_ok.2 ⟨z', f1, g1⟩⟩⟩
  exact ⟨t', ht, Incr.reach_edit hr hlift ht, by rw [g3, f3, hsides, at_onSides, at_closed]; rfl⟩

theorem edits_any_end (hf : ∀ k, 1 ≤ f k) : ∀ (l : List (Nat × List (LOp E))) {t : RazTree E Count} {items : List (Item E)}, t.Reachable .edit →
    t.items = items.map (Item.at f) → within items l = true →
    ∃ t' k, t.edits (editsAt f l) = .ok (t', k) ∧ t'.Reachable .edit ∧ t'.items = (editLists items l).map (Item.at f)
  | [], t, items, hr, he, _ => ⟨t, 0, rfl, hr, he⟩
  | (i, ops) :: l, t, items, hr, he, hl => by
    simp only [within, Bool.and_eq_true, decide_eq_true_eq, Bool.not_eq_true', List.isEmpty_eq_false_iff] at hl
    obtain ⟨t1, e1, e2, e3⟩ := edit_any_next hf hr he (ops := ops) hl.1.1.1 hl.1.1.2 hl.1.2
    obtain ⟨t2, k, f1, f2, f3⟩ := edits_any_end hf l e2 e3 hl.2
    exact ⟨t2, _, bind_ok.2 ⟨t1, e1, bind_ok.2 ⟨(t2, k), f1, rfl⟩⟩, f2, f3⟩

/-- Making a sequence. -/
theorem make_any (hf : ∀ k, 1 ≤ f k) (ops : List (LOp E)) : ∃ z t, (Raz.new : Raz E Count).lops (ops.map (LOp.at f)) = .ok z ∧ z.unfocus = .ok t ∧
    t.Reachable .edit ∧ t.items = (closed (onSides ([], []) ops)).map (Item.at f) := by
  have hlift := at_lifts f hf ops
  have hsides : ((Raz.new : Raz E Count).left, (Raz.new : Raz E Count).right) = sidesAt f ([], []) := rfl
  obtain ⟨z, f1, f2, f3⟩ := lops_sides (z := (Raz.new : Raz E Count)) ZInv.empty hlift
  obtain ⟨t, g1, g2, g3⟩ := unfocus_closed f2
  exact ⟨z, t, f1, g1, .unfocus (Incr.reach_lops .new hlift f1) g1, by rw [g3, f3, hsides, at_onSides, at_closed]⟩

/-- The slots of a sequence after edits are among those before and those of the edits. -/
theorem edits_levels : ∀ (l : List (Nat × List (LOp E))) {items : List (Item E)}, within items l = true → ∀ x,
    (levelsOf (editLists items l)).count x ≤ (levelsOf items).count x + (restSlots l).count x
  | [], items, _, x => by simp [editLists, restSlots]
  | (i, ops) :: l, items, hl, x => by
    simp only [within, Bool.and_eq_true, decide_eq_true_eq] at hl
    have h1 := edits_levels l hl.2 x
    have h2 := edit_levels hl.1.1.2 ops x
    simp only [editLists, restSlots, List.flatMap_cons, List.count_append] at *
    omega

/-- The levels of a sequence with slots. -/
theorem slot_levels {items : List (Item E)} {n : Nat} (hd : (levelsOf items).Nodup) (hn : ∀ k ∈ levelsOf items, k < n) :
    ∃ J : List (Fin n), J.Nodup ∧ J.length = (marksOf items).length ∧
      ∀ w : Fin n → Fin (2 ^ 64), levelsOf (items.map (Item.at (drawn w))) = J.map fun b => levelOf (w b) := by
  obtain ⟨J, hJ⟩ : ∃ J : List (Fin n), J.map Fin.val = levelsOf items := ⟨(levelsOf items).attach.map fun k => ⟨k.1, hn k.1 k.2⟩, by simp⟩
  refine ⟨J, (hJ ▸ hd).of_map _, ?_, fun w => ?_⟩
  · have := congrArg List.length hJ
    simpa [levelsOf] using this
  · rw [at_levels, ← hJ, List.map_map]
    refine List.map_congr_left fun k _ => ?_
    show drawn w k.val = levelOf (w k)
    unfold drawn
    rw [dif_pos k.isLt]
    rfl

/-- The slots of the final sequence. -/
theorem final_slots {ops : List (LOp E)} {l : List (Nat × List (LOp E))} (hl : within (closed (onSides ([], []) ops)) l = true) {n : Nat}
    (hs : (LOp.slots ops ++ restSlots l).Nodup) (hk : ∀ k ∈ LOp.slots ops ++ restSlots l, k < n) :
    ∃ J : List (Fin n), J.Nodup ∧ J.length = (marksOf (editLists (closed (onSides ([], []) ops)) l)).length ∧
      ∀ w : Fin n → Fin (2 ^ 64), levelsOf ((editLists (closed (onSides ([], []) ops)) l).map (Item.at (drawn w))) = J.map fun b => levelOf (w b) := by
  have hc : ∀ x, (levelsOf (editLists (closed (onSides ([], []) ops)) l)).count x ≤ (LOp.slots ops ++ restSlots l).count x := fun x => by
    have h1 := onSides_levels ops ([], []) x
    have h2 := closed_levels (onSides ([], []) ops) x
    have h0 : (levelsOf ([] : List (Item E))).count x = 0 := rfl
    have h3 := edits_levels l hl x
    rw [List.count_append]
    simp only [h0] at h1
    omega
  refine slot_levels (slots_nodup fun x => ?_) fun k hk' => hk k (List.count_pos_iff.1 ?_)
  · have := hc x
    have := nodup_slots hs x
    omega
  · have := hc k
    have := List.count_pos_iff.2 hk'
    omega

/-! ### The theorems -/

/-- **C88, the depth of a tree** is the greatest number of archive points that see a place between two archive points: on the left of the place those with no
higher one between, on the right those with none as high between. -/
theorem C88_depth {M : Type} [RazMeta E M] [LawfulMeta E M] {t : RazTree E M} (h : t.Reachable .edit) : t.tree.depth = deepest (levelsOf t.items) := by
  rcases (Reach.t h).inv.wf with ht | hw
  · rw [RazTree.items, ht]
    simp [Tree.items, Tree.depth, deepest, sight, levelsOf, marksOf, seenLe, seenLt]
  · exact depth_deepest hw ((Reach.t h).canon rfl)

/-- **C88, the mean depth.** A sequence is made and then edited, at any places and across archive points. Each archive point gets its level from its own random
number. Whatever the random numbers, no call panics and the elements are those of the list. The depth of the tree at the end, in the mean over all random
numbers, is at most `6 * log (m + 2) + 1 / 2` (with the logarithm to the base 2, rounded up), where `m` is the number of its archive points. And it is unlikely
that it is much deeper: at most `(2 / 3) ^ j / 4` of all assignments of random numbers make it at least `j` deeper than `6 * log (m + 2)`. -/
theorem C88_mean_depth {ops : List (LOp E)} {l : List (Nat × List (LOp E))} (hl : within (closed (onSides ([], []) ops)) l = true) {n : Nat} (h63 : n ≤ 2 ^ 63)
    (hs : (LOp.slots ops ++ restSlots l).Nodup) (hk : ∀ k ∈ LOp.slots ops ++ restSlots l, k < n) :
    ∃ d : (Fin n → Fin (2 ^ 64)) → Nat, (∀ w, ∃ z t t' k, (Raz.new : Raz E Count).lops (ops.map (LOp.at (drawn w))) = .ok z ∧ z.unfocus = .ok t ∧
        t.edits (editsAt (drawn w) l) = .ok (t', k) ∧ t'.elems = elemsOf (editLists (closed (onSides ([], []) ops)) l) ∧ t'.tree.depth = d w) ∧
      2 * ∑ w, d w ≤ (2 ^ 64) ^ n * (2 * sixLogs (marksOf (editLists (closed (onSides ([], []) ops)) l)).length + 1) ∧
      ∀ j, 4 * 3 ^ j * (univ.filter fun w => sixLogs (marksOf (editLists (closed (onSides ([], []) ops)) l)).length + j ≤ d w).card ≤ 2 ^ j * (2 ^ 64) ^ n := by
  obtain ⟨J, j1, j2, j3⟩ := final_slots hl hs hk
  refine ⟨fun w => deepest (J.map fun b => levelOf (w b)), fun w => ?_, ?_, fun j => ?_⟩
  · obtain ⟨z, t, f1, f2, f3, f4⟩ := make_any (drawn_one w) ops
    obtain ⟨t', k, g1, g2, g3⟩ := edits_any_end (drawn_one w) l f3 f4 hl
    exact ⟨z, t, t', k, f1, f2, g1, by rw [RazTree.elems, g3, at_elems], by rw [C88_depth g2, g3, j3]⟩
  · rw [← j2]
    exact deepest_mean j1 h63
  · rw [← j2]
    exact deepest_tail j1 h63 j

/-- The way to a place is one of those that count for the depth. -/
theorem path_deepest {l : List (Item E)} {i : Nat} (hi : i ≤ (elemsOf l).length) : pathAt i l ≤ deepest (levelsOf l) := by
  have e := congrArg levelsOf (cutAt_append l i hi)
  rw [levelsOf_append, levelsOf_reverse] at e
  have h1 : (levelsOf (cutAt i l).1).length ≤ (levelsOf l).length := by
    have := congrArg List.length e
    simp only [List.length_append, List.length_reverse] at this
    omega
  have h2 := sight_le h1
  refine Nat.le_trans (Nat.le_of_eq ?_) h2
  unfold pathAt sight
  rw [← e]
  have h3 : (levelsOf (cutAt i l).1).length = (levelsOf (cutAt i l).1).reverse.length := by simp
  rw [h3, List.take_left, List.drop_left, List.reverse_reverse]

/-- **C88, any place.** Even if the index is chosen with all random numbers known, `focus` passes, in the mean over them, at most
`6 * log (m + 2) + 1 / 2` archive points. -/
theorem C88_any_place {ops : List (LOp E)} {l : List (Nat × List (LOp E))} (hl : within (closed (onSides ([], []) ops)) l = true) {n : Nat} (h63 : n ≤ 2 ^ 63)
    (hs : (LOp.slots ops ++ restSlots l).Nodup) (hk : ∀ k ∈ LOp.slots ops ++ restSlots l, k < n)
    (hne : elemsOf (editLists (closed (onSides ([], []) ops)) l) ≠ []) {i : (Fin n → Fin (2 ^ 64)) → Nat}
    (hi : ∀ w, i w ≤ (elemsOf (editLists (closed (onSides ([], []) ops)) l)).length) (hm : ∀ w, i w < usizeMax) :
    ∃ d : (Fin n → Fin (2 ^ 64)) → Nat, (∀ w, ∃ z t t' k z', (Raz.new : Raz E Count).lops (ops.map (LOp.at (drawn w))) = .ok z ∧ z.unfocus = .ok t ∧
        t.edits (editsAt (drawn w) l) = .ok (t', k) ∧ t'.focus (i w) = .ok (some z') ∧ z'.lForest.lForest.length + z'.rForest.rForest.length = d w) ∧
      2 * ∑ w, d w ≤ (2 ^ 64) ^ n * (2 * sixLogs (marksOf (editLists (closed (onSides ([], []) ops)) l)).length + 1) := by
  obtain ⟨J, j1, j2, j3⟩ := final_slots hl hs hk
  refine ⟨fun w => pathAt (i w) ((editLists (closed (onSides ([], []) ops)) l).map (Item.at (drawn w))), fun w => ?_, ?_⟩
  · obtain ⟨z, t, f1, f2, f3, f4⟩ := make_any (drawn_one w) ops
    obtain ⟨t', k, g1, g2, g3⟩ := edits_any_end (drawn_one w) l f3 f4 hl
    have he : t'.elems = elemsOf (editLists (closed (onSides ([], []) ops)) l) := by rw [RazTree.elems, g3, at_elems]
    obtain ⟨z', k1, -, -, k4⟩ := Incr.C84_path g2 (by rw [he]; exact hne) (by rw [he]; exact hi w) (hm w)
    exact ⟨z, t, t', k, z', f1, f2, g1, k1, by rw [k4, g3]⟩
  · rw [← j2]
    refine Nat.le_trans (Nat.mul_le_mul_left _ (sum_le_sum fun w _ => ?_)) (deepest_mean j1 h63)
    have := path_deepest (l := (editLists (closed (onSides ([], []) ops)) l).map (Item.at (drawn w))) (i := i w) (by rw [at_elems]; exact hi w)
    rw [j3] at this
    exact this

/-! ### Sequences that meet the conditions -/

/-- Edits of the sequence `exSlotted`: pops across two archive points, and a new one in slot 7. -/
def exWithin : List (Nat × List (LOp Nat)) := [(5, [.popL, .popL, .popL, .pushL 10]), (2, [.popL, .pushR 20, .archR 7 (some (.usize 8)), .pushR 30])]

/-- The conditions of `C88_mean_depth` and `C88_any_place`; the elements at the end; there are 6 archive points, so the mean depth is at most 18.5. -/
example : within (closed (onSides ([], []) Incr.exSlotted)) exWithin = true ∧ (LOp.slots Incr.exSlotted ++ restSlots exWithin).Nodup ∧
    (∀ k ∈ LOp.slots Incr.exSlotted ++ restSlots exWithin, k < 8) ∧
    elemsOf (editLists (closed (onSides ([], []) Incr.exSlotted)) exWithin) = [1, 30, 20, 10, 6, 7, 8] ∧
    (marksOf (editLists (closed (onSides ([], []) Incr.exSlotted)) exWithin)).length = 6 ∧ sixLogs 6 = 18 := by
  refine ⟨by decide +kernel, by decide +kernel, by decide +kernel, by decide +kernel, by decide +kernel, by decide +kernel⟩

/-- The depth with the random numbers 0, 1, 2, …, and what it is from the levels. -/
example : ((do let z ← (Raz.new : Raz Nat Count).lops (Incr.exSlotted.map (LOp.at (drawn (n := 8) fun k => ⟨k.1, by omega⟩))); let t ← z.unfocus
               let (t, _) ← t.edits (editsAt (drawn (n := 8) fun k => ⟨k.1, by omega⟩) exWithin)
               return (levelsOf t.items, t.tree.depth, deepest (levelsOf t.items))) : P (List Nat × Nat × Nat)) = .ok ([64, 1, 1, 3, 1, 2], 4, 4) := by
  decide +kernel

/-- A tree that meets the condition of `C88_depth`. -/
example : (exTree Count).Reachable .edit ∧ (exTree Count).tree.depth = 3 := ⟨exTree_reach Count .edit, by decide +kernel⟩

end Iodyn
