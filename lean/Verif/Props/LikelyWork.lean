import Verif.Proof.TailWork
/-
C109 after any batches of edits, the work of memoised computations is seldom much greater than logarithmic.
-/
namespace Iodyn
open Finset
variable {E : Type}

theorem edits_tail {n : Nat} (h63 : n ≤ 2 ^ 63) (j : Nat) : ∀ (l : List (Nat × List (LOp E))) {items : List (Item E)}, (levelsOf items ++ restSlots l).Nodup →
    (∀ k ∈ levelsOf items ++ restSlots l, k < n) → localList items l = true →
    4 * 3 ^ j * (univ.filter fun w : Fin n → Fin (2 ^ 64) => likely j items l < pathEdits (drawn w) items l).card ≤ l.length * (2 ^ j * (2 ^ 64) ^ n)
  | [], items, hs, hn, hl => by simp [pathEdits, likely]
  | (i, ops) :: l, items, hs, hn, hl => by
    simp only [localList, Bool.and_eq_true, decide_eq_true_eq] at hl
    obtain ⟨⟨⟨hi, -⟩, -⟩, hl⟩ := hl
    have he := edit_levels hi ops
    have hc := nodup_slots hs
    simp only [restSlots, List.flatMap_cons, List.count_append] at hc
    have hs' : (levelsOf (editList i ops items) ++ restSlots l).Nodup := slots_nodup fun x => by
      have := hc x; have := he x; simp only [restSlots, List.count_append] at *; omega
    have hn' : ∀ k ∈ levelsOf (editList i ops items) ++ restSlots l, k < n := fun k hk => by
      refine hn k (List.count_pos_iff.1 ?_)
      have h1 := List.count_pos_iff.2 hk
      have := he k
      simp only [restSlots, List.flatMap_cons, List.count_append] at *
      omega
    have ih := edits_tail h63 j l hs' hn' hl
    have hp := path_tail h63 (m := (marksOf items).length) (List.Nodup.of_append_left hs) (fun k hk => hn k (List.mem_append_left _ hk)) hi (by simp [levelsOf]) j
    refine Nat.le_trans (Nat.mul_le_mul_left _ (Nat.le_trans (card_le_card fun w hw => ?_) (card_union_le
      (univ.filter fun w : Fin n → Fin (2 ^ 64) => fourLogs (marksOf items).length + j ≤ pathAt i (items.map (Item.at (drawn w))))
      (univ.filter fun w : Fin n → Fin (2 ^ 64) => likely j (editList i ops items) l < pathEdits (drawn w) (editList i ops items) l)))) ?_
    · have hlt := (mem_filter.1 hw).2
      simp only [likely, pathEdits] at hlt
      by_cases h : fourLogs (marksOf items).length + j ≤ pathAt i (items.map (Item.at (drawn w)))
      · exact mem_union_left _ (mem_filter.2 ⟨mem_univ _, h⟩)
      · exact mem_union_right _ (mem_filter.2 ⟨mem_univ _, by omega⟩)
    · rw [Nat.mul_add, List.length_cons, Nat.succ_mul l.length, Nat.add_comm (l.length * _)]
      exact Nat.add_le_add hp ih

theorem batches_tail {n : Nat} (h63 : n ≤ 2 ^ 63) (j : Nat) : ∀ (l : List (List (Nat × List (LOp E)))) {items : List (Item E)}, (levelsOf items ++ batchSlots l).Nodup →
    (∀ k ∈ levelsOf items ++ batchSlots l, k < n) → localLists items l = true →
    4 * 3 ^ j * (univ.filter fun w : Fin n → Fin (2 ^ 64) => ∃ q ∈ (pathBatches (drawn w) items l).zip (likelys j items l), q.2 < q.1).card ≤
      (l.map List.length).sum * (2 ^ j * (2 ^ 64) ^ n)
  | [], items, hs, hn, hl => by simp [pathBatches]
  | es :: l, items, hs, hn, hl => by
    simp only [localLists, Bool.and_eq_true] at hl
    have hb : batchSlots (es :: l) = restSlots es ++ batchSlots l := rfl
    rw [hb] at hs hn
    have hc := nodup_slots hs
    simp only [List.count_append] at hc
    have g1 : (levelsOf items ++ restSlots es).Nodup := slots_nodup fun x => by have := hc x; simp only [List.count_append]; omega
    have g2 : ∀ k ∈ levelsOf items ++ restSlots es, k < n := fun k hk => hn k (by simp only [List.mem_append] at hk ⊢; tauto)
    have h1 := edits_tail h63 j es g1 g2 hl.1
    have h2 := (edits_mean h63 es g1 g2 hl.1).2
    have ih := batches_tail h63 j l (items := editLists items es)
      (slots_nodup fun x => by have := hc x; have := h2 x; simp only [List.count_append] at *; omega)
      (fun k hk => hn k (List.count_pos_iff.1 (by have := List.count_pos_iff.2 hk; have := h2 k; simp only [List.count_append] at *; omega))) hl.2
    refine Nat.le_trans (Nat.mul_le_mul_left _ (Nat.le_trans (card_le_card fun w hw => ?_) (card_union_le
      (univ.filter fun w : Fin n → Fin (2 ^ 64) => likely j items es < pathEdits (drawn w) items es)
      (univ.filter fun w : Fin n → Fin (2 ^ 64) => ∃ q ∈ (pathBatches (drawn w) (editLists items es) l).zip (likelys j (editLists items es) l), q.2 < q.1)))) ?_
    · obtain ⟨q, hq, hlt⟩ := (mem_filter.1 hw).2
      simp only [pathBatches, likelys, List.zip_cons_cons, List.mem_cons] at hq
      rcases hq with rfl | hq
      · exact mem_union_left _ (mem_filter.2 ⟨mem_univ _, hlt⟩)
      · exact mem_union_right _ (mem_filter.2 ⟨mem_univ _, q, hq, hlt⟩)
    · rw [Nat.mul_add, List.map_cons, List.sum_cons, Nat.add_mul]
      exact Nat.add_le_add h1 ih

/-- **C109, the way to the cursor.** The archive points of a sequence get their levels from random numbers. Whatever the sequence and the index, at most
`(2 / 3) ^ j / 4` of all assignments of random numbers make `focus` pass `4 * log (m + 2) + j` archive points or more, where `m` is the number of all. -/
theorem C109_path {ops : List (LOp E)} {n : Nat} (h63 : n ≤ 2 ^ 63) (hs : (LOp.slots ops).Nodup) (hk : ∀ k ∈ LOp.slots ops, k < n)
    (hne : elemsOf (closed (onSides ([], []) ops)) ≠ []) {i : Nat} (hi : i ≤ (elemsOf (closed (onSides ([], []) ops))).length) (hm : i < usizeMax) :
    ∃ d : (Fin n → Fin (2 ^ 64)) → Nat, (∀ w, ∃ z t z', (Raz.new : Raz E Count).lops (ops.map (LOp.at (drawn w))) = .ok z ∧ z.unfocus = .ok t ∧
        t.focus i = .ok (some z') ∧ z'.lForest.lForest.length + z'.rForest.rForest.length = d w) ∧
      ∀ j, 4 * 3 ^ j * (univ.filter fun w => fourLogs (marksOf (closed (onSides ([], []) ops))).length + j ≤ d w).card ≤ 2 ^ j * (2 ^ 64) ^ n := by
  refine ⟨fun w => pathAt i ((closed (onSides ([], []) ops)).map (Item.at (drawn w))), fun w => ?_, fun j => ?_⟩
  · have hlift := at_lifts (drawn w) (drawn_one w) ops
    have hsides : ((Raz.new : Raz E Count).left, (Raz.new : Raz E Count).right) = sidesAt (drawn w) ([], []) := rfl
    obtain ⟨z, f1, f2, f3⟩ := lops_sides (z := (Raz.new : Raz E Count)) ZInv.empty hlift
    obtain ⟨t, g1, g2, g3⟩ := unfocus_closed f2
    have hr : t.Reachable .edit := .unfocus (Incr.reach_lops .new hlift f1) g1
    have ht : t.items = (closed (onSides ([], []) ops)).map (Item.at (drawn w)) := by rw [g3, f3, hsides, at_onSides, at_closed]
    have he : t.elems = elemsOf (closed (onSides ([], []) ops)) := by rw [RazTree.elems, ht, at_elems]
    obtain ⟨z', k1, -, -, k4⟩ := Incr.C84_path hr (by rw [he]; exact hne) (by rw [he]; exact hi) hm
    exact ⟨z, t, z', f1, g1, k1, by rw [k4, ht]⟩
  · have hc := fun x => onSides_levels ops ([], []) x
    have hc' := fun x => closed_levels (onSides ([], []) ops) x
    have h0 : ∀ x, (levelsOf ([] : List (Item E))).count x = 0 := fun x => rfl
    simp only [h0] at hc
    exact path_tail h63 (slots_nodup fun x => by have := hc x; have := hc' x; have := nodup_slots hs x; omega)
      (fun k hk' => hk k (List.count_pos_iff.1 (by have := hc k; have := hc' k; have := List.count_pos_iff.2 hk'; omega))) hi (by simp [levelsOf]) j

end Iodyn

namespace Iodyn.Incr
open Iodyn.Heap
variable {E F N A B Sp R : Type} [DecidableEq E]

omit [DecidableEq E] in
theorem dear_path {ks bs : List Nat} {outs : List (A × Nat × Sp)} (h : List.Forall₂ (fun (k : Nat) (o : A × Nat × Sp) => o.2.1 ≤ 2 * k + 1) ks outs)
    (hd : ∃ q ∈ outs.zip bs, 2 * q.2 + 1 < q.1.2.1) : ∃ q ∈ ks.zip bs, q.2 < q.1 := by
  induction h generalizing bs with
  | nil => obtain ⟨q, hq, -⟩ := hd; simp at hq
  | cons h1 _ ih =>
    obtain ⟨q, hq, hlt⟩ := hd
    cases bs with
    | nil => simp at hq
    | cons b bs =>
      simp only [List.zip_cons_cons, List.mem_cons] at hq
      rcases hq with rfl | hq
      · exact ⟨_, List.mem_cons_self, by simp only at hlt ⊢; omega⟩
      · obtain ⟨q', h2, h3⟩ := ih ⟨q, hq, hlt⟩
        exact ⟨q', List.mem_cons_of_mem _ h2, h3⟩

theorem likely_reruns {run : HTree Count → Sp → HR E Count (A × Nat × Sp)} {val : RazTree E Count → P B} {Rel : B → A → Sp → Prop}
    {Hist : Sp → List (Tree (Tr × TreeData E Count)) → Prop} (hR : Reuses run val Rel Hist) {new : Sp} (hnew : Hist new []) {Ans : List E → A → Sp → Prop}
    (hv : ∀ t : RazTree E Count, t.Reachable .edit → ∃ b, val t = .ok b)
    (hA : ∀ (t : RazTree E Count) (b : B), t.Reachable .edit → val t = .ok b → ∀ a s, Rel b a s → Ans t.elems a s) {ops : List (LOp E)}
    {l : List (List (Nat × List (LOp E)))} (hn : (LOp.cells ops ++ batchCells l).Nodup) (hl : localAll ops l = true) (hti : ∀ op ∈ ops, op.Titles)
    (hti' : ∀ es ∈ l, ∀ q ∈ es, ∀ op ∈ q.2, op.Titles) {n : Nat} (h63 : n ≤ 2 ^ 63) (hs : (LOp.slots ops ++ batchSlots l).Nodup)
    (hk : ∀ k ∈ LOp.slots ops ++ batchSlots l, k < n) (σ : RMem E Count) :
    ∃ (a : (Fin n → Fin (2 ^ 64)) → A) (work : (Fin n → Fin (2 ^ 64)) → Nat) (s : (Fin n → Fin (2 ^ 64)) → Sp)
      (outs : (Fin n → Fin (2 ^ 64)) → List (A × Nat × Sp)),
      (∀ w, (∃ f0, ∀ m, f0 ≤ m → (hrerunSession (M := Count) run new (ops.map (LOp.at (drawn w))) (l.map (editsAt (drawn w))) m σ).map (·.1) =
          .ok (a w, work w, s w, outs w)) ∧
        Ans (elemsOf (closed (onSides ([], []) ops))) (a w) (s w) ∧
        List.Forall₂ (fun (its : List (Item E)) (o : A × Nat × Sp) => Ans (elemsOf its) o.1 o.2.2) (stages (closed (onSides ([], []) ops)) l) (outs w)) ∧
      ∀ j : Nat, 4 * 3 ^ j * (Finset.univ.filter fun w => ∃ q ∈ (outs w).zip (likelys j (closed (onSides ([], []) ops)) l), 2 * q.2 + 1 < q.1.2.1).card ≤
        (l.map List.length).sum * (2 ^ j * (2 ^ 64) ^ n) := by
  have h1 : ∀ w : Fin n → Fin (2 ^ 64), ∃ q : A × Nat × Sp × List (A × Nat × Sp),
      (∃ f0, ∀ m, f0 ≤ m → (hrerunSession (M := Count) run new (ops.map (LOp.at (drawn w))) (l.map (editsAt (drawn w))) m σ).map (·.1) = .ok q) ∧
      (Ans (elemsOf (closed (onSides ([], []) ops))) q.1 q.2.2.1 ∧
        List.Forall₂ (fun (its : List (Item E)) (o : A × Nat × Sp) => Ans (elemsOf its) o.1 o.2.2) (stages (closed (onSides ([], []) ops)) l) q.2.2.2) ∧
      List.Forall₂ (fun (k : Nat) (o : A × Nat × Sp) => o.2.1 ≤ 2 * k + 1) (pathBatches (drawn w) (closed (onSides ([], []) ops)) l) q.2.2.2 := by
    intro w
    obtain ⟨b, size, rest, hr, ⟨t, t1, t2, t3⟩, hrest⟩ := session_ends (drawn_one w) hv hl
    obtain ⟨a, work, s, outs, f0, g1, g2, g3, g4⟩ := stands_session (drawn_one w) hR hnew hn hl hti hti' hr σ
    exact ⟨(a, work, s, outs), ⟨f0, g1⟩, ⟨t2 ▸ hA t b t1 t3 _ _ g2, answers hA hrest g3⟩, g4⟩
  obtain ⟨q, hq⟩ := Classical.axiom_of_choice h1
  refine ⟨fun w => (q w).1, fun w => (q w).2.1, fun w => (q w).2.2.1, fun w => (q w).2.2.2, fun w => ⟨(hq w).1, (hq w).2.1⟩, fun j => ?_⟩
  simp only [localAll, Bool.and_eq_true] at hl
  have hc := fun x => onSides_levels ops ([], []) x
  have hc' := fun x => closed_levels (onSides ([], []) ops) x
  have hcount := nodup_slots hs
  have h0 : ∀ x, (levelsOf ([] : List (Item E))).count x = 0 := fun x => rfl
  simp only [h0] at hc
  refine Nat.le_trans (Nat.mul_le_mul_left _ (Finset.card_le_card fun w hw => ?_)) (batches_tail h63 j l (items := closed (onSides ([], []) ops)) (slots_nodup fun x => by
    have := hc x; have := hc' x; have := hcount x; simp only [List.count_append] at *; omega) (fun k hk' => hk k (List.count_pos_iff.1 (by
    have := hc k; have := hc' k; have := List.count_pos_iff.2 hk'; simp only [List.count_append] at *; omega))) hl.2)
  exact Finset.mem_filter.2 ⟨Finset.mem_univ _, dear_path (hq w).2.2 (Finset.mem_filter.1 hw).2⟩

/-- **C109, folds.** As in C84: a sequence is made and folded, then come batches of local edits, the fold after each batch. Of all assignments of random numbers, at most
`e * (2 / 3) ^ j / 4`, where `e` is the number of edits, make any fold after a batch run its function more than `2 * k + 1` times, where `k` sums up, for each edit of the
batch, four times the logarithm of the number of archive points and 2 (rounded up), `j` and the number of archive points added. -/
theorem C109_fold [DecidableEq R] {c : Fun E R} (hassoc : ∀ x y z, c.bin (c.bin x y) z = c.bin x (c.bin y z)) {p : Name} {ops : List (LOp E)}
    {l : List (List (Nat × List (LOp E)))} (hn : (LOp.cells ops ++ batchCells l).Nodup) (hl : localAll ops l = true) (hti : ∀ op ∈ ops, op.Titles)
    (hti' : ∀ es ∈ l, ∀ q ∈ es, ∀ op ∈ q.2, op.Titles) {n : Nat} (h63 : n ≤ 2 ^ 63) (hs : (LOp.slots ops ++ batchSlots l).Nodup)
    (hk : ∀ k ∈ LOp.slots ops ++ batchSlots l, k < n) (σ : RMem E Count) :
    ∃ (a : (Fin n → Fin (2 ^ 64)) → Option R) (work : (Fin n → Fin (2 ^ 64)) → Nat) (s : (Fin n → Fin (2 ^ 64)) → RTable E Count R)
      (outs : (Fin n → Fin (2 ^ 64)) → List (Option R × Nat × RTable E Count R)),
      (∀ w, (∃ f0, ∀ m, f0 ≤ m → (hrerunSession (M := Count) (refold c.fns p) Table.empty (ops.map (LOp.at (drawn w))) (l.map (editsAt (drawn w))) m σ).map (·.1) =
          .ok (a w, work w, s w, outs w)) ∧
        a w = fold1 c.bin ((elemsOf (closed (onSides ([], []) ops))).map c.init) ∧
        List.Forall₂ (fun (its : List (Item E)) (o : Option R × Nat × RTable E Count R) => o.1 = fold1 c.bin ((elemsOf its).map c.init))
          (stages (closed (onSides ([], []) ops)) l) (outs w)) ∧
      ∀ j : Nat, 4 * 3 ^ j * (Finset.univ.filter fun w => ∃ q ∈ (outs w).zip (likelys j (closed (onSides ([], []) ops)) l), 2 * q.2 + 1 < q.1.2.1).card ≤
        (l.map List.length).sum * (2 ^ j * (2 ^ 64) ^ n) := by
  have key : ∀ t : RazTree E Count, t.Reachable .edit → t.tree.foldUpMeta (c.fns (M := Count)).up = .ok (fold1 c.bin (t.elems.map c.init)) := fun t hr =>
    C10_fold_up_edited_partial (Reach.mono (by simp [Usage.edit]) (by simp [Usage.edit]) hr) c.init c.bin hassoc
  refine likely_reruns (fold_reuses c.fns p) ⟨.start, fun _ => rfl⟩ (Ans := fun xs a _ => a = fold1 c.bin (xs.map c.init)) (fun t hr => ⟨_, key t hr⟩) ?_ hn hl hti hti'
    h63 hs hk σ
  rintro t b hr hb a s rfl
  simp only [key t hr, Except.ok.injEq] at hb
  exact hb.symm

/-- **C109, maps.** -/
theorem C109_map [RazMeta F N] [DecidableEq F] [DecidableEq N] {f : E → F} {ops : List (LOp E)} {l : List (List (Nat × List (LOp E)))}
    (hn : (LOp.cells ops ++ batchCells l).Nodup) (hl : localAll ops l = true) (hti : ∀ op ∈ ops, op.Titles)
    (hti' : ∀ es ∈ l, ∀ q ∈ es, ∀ op ∈ q.2, op.Titles) {n : Nat} (h63 : n ≤ 2 ^ 63) (hs : (LOp.slots ops ++ batchSlots l).Nodup)
    (hk : ∀ k ∈ LOp.slots ops ++ batchSlots l, k < n) (σ : RMem E Count) :
    ∃ (a : (Fin n → Fin (2 ^ 64)) → HTree N) (work : (Fin n → Fin (2 ^ 64)) → Nat) (s : (Fin n → Fin (2 ^ 64)) → RSpace E Count F N)
      (outs : (Fin n → Fin (2 ^ 64)) → List (HTree N × Nat × RSpace E Count F N)),
      (∀ w, (∃ f0, ∀ m, f0 ≤ m → (hrerunSession (M := Count) (countedMap f) Space.empty (ops.map (LOp.at (drawn w))) (l.map (editsAt (drawn w))) m σ).map (·.1) =
          .ok (a w, work w, s w, outs w)) ∧
        (∃ t : RazTree F N, Holds (s w).mem (a w) t ∧ t.elems = (elemsOf (closed (onSides ([], []) ops))).map f) ∧
        List.Forall₂ (fun (its : List (Item E)) (o : HTree N × Nat × RSpace E Count F N) => ∃ t : RazTree F N, Holds o.2.2.mem o.1 t ∧ t.elems = (elemsOf its).map f)
          (stages (closed (onSides ([], []) ops)) l) (outs w)) ∧
      ∀ j : Nat, 4 * 3 ^ j * (Finset.univ.filter fun w => ∃ q ∈ (outs w).zip (likelys j (closed (onSides ([], []) ops)) l), 2 * q.2 + 1 < q.1.2.1).card ≤
        (l.map List.length).sum * (2 ^ j * (2 ^ 64) ^ n) := by
  refine likely_reruns (map_reuses f) .start (Ans := fun xs a (s : RSpace E Count F N) => ∃ t : RazTree F N, Holds s.mem a t ∧ t.elems = xs.map f)
    (fun t hr => (C15_map (N := N) hr f).imp fun _ h => h.1) ?_ hn hl hti hti' h63 hs hk σ
  intro t b hr hb a s h
  obtain ⟨t', h1, -, h3, -⟩ := C15_map (N := N) hr f
  simp only [h1, Except.ok.injEq] at hb
  subst hb
  exact ⟨t', h, h3⟩

/-- **C109, reverse and filter.** -/
theorem C109_rebuild [RazMeta E N] [DecidableEq N] {c : Rebuild E} {ops : List (LOp E)} {l : List (List (Nat × List (LOp E)))}
    (hn : (LOp.cells ops ++ batchCells l).Nodup) (hl : localAll ops l = true) (hti : ∀ op ∈ ops, op.Titles)
    (hti' : ∀ es ∈ l, ∀ q ∈ es, ∀ op ∈ q.2, op.Titles) {n : Nat} (h63 : n ≤ 2 ^ 63) (hs : (LOp.slots ops ++ batchSlots l).Nodup)
    (hk : ∀ k ∈ LOp.slots ops ++ batchSlots l, k < n) (σ : RMem E Count) :
    ∃ (a : (Fin n → Fin (2 ^ 64)) → Option (HTree N)) (work : (Fin n → Fin (2 ^ 64)) → Nat) (s : (Fin n → Fin (2 ^ 64)) → GSpace E Count N)
      (outs : (Fin n → Fin (2 ^ 64)) → List (Option (HTree N) × Nat × GSpace E Count N)),
      (∀ w, (∃ f0, ∀ m, f0 ≤ m → (hrerunSession (M := Count) (countedRebuild c) Space.empty (ops.map (LOp.at (drawn w))) (l.map (editsAt (drawn w))) m σ).map (·.1) =
          .ok (a w, work w, s w, outs w)) ∧
        (∃ x, ∃ t : RazTree E N, a w = some x ∧ Holds (s w).mem x t ∧ t.elems = c.list (elemsOf (closed (onSides ([], []) ops)))) ∧
        List.Forall₂ (fun (its : List (Item E)) (o : Option (HTree N) × Nat × GSpace E Count N) =>
            ∃ x, ∃ t : RazTree E N, o.1 = some x ∧ Holds o.2.2.mem x t ∧ t.elems = c.list (elemsOf its)) (stages (closed (onSides ([], []) ops)) l) (outs w)) ∧
      ∀ j : Nat, 4 * 3 ^ j * (Finset.univ.filter fun w => ∃ q ∈ (outs w).zip (likelys j (closed (onSides ([], []) ops)) l), 2 * q.2 + 1 < q.1.2.1).card ≤
        (l.map List.length).sum * (2 ^ j * (2 ^ 64) ^ n) := by
  refine likely_reruns (rebuild_reuses c) .start (Ans := fun xs a (s : GSpace E Count N) => ∃ x, ∃ t : RazTree E N, a = some x ∧ Holds s.mem x t ∧ t.elems = c.list xs)
    (fun t hr => Heap.rebuild_ok (N := N) c hr.any) ?_ hn hl hti hti' h63 hs hk σ
  rintro t b hr hb a s ⟨x, y, rfl, rfl, h⟩
  refine ⟨x, y, rfl, h, ?_⟩
  simpa [RAns.read] using scratch_elems c hr.any hb

/-! ### Cases that meet the conditions -/

set_option synthInstance.maxSize 1000 in
/-- The conditions of `C109_fold`, `C109_map` and `C109_rebuild`, with 8 slots, three edits in two batches; the numbers `k` for `j = 20`. -/
example : (LOp.cells exSlotted ++ batchCells exSlotBatches).Nodup ∧ localAll exSlotted exSlotBatches = true ∧ (∀ op ∈ exSlotted, op.Titles) ∧
    (∀ es ∈ exSlotBatches, ∀ q ∈ es, ∀ op ∈ q.2, op.Titles) ∧ (LOp.slots exSlotted ++ batchSlots exSlotBatches).Nodup ∧
    (∀ k ∈ LOp.slots exSlotted ++ batchSlots exSlotBatches, k < 8) ∧ (exSlotBatches.map List.length).sum = 3 ∧
    likelys 20 (closed (onSides ([], []) exSlotted)) exSlotBatches = [73, 36] := by
  refine ⟨by decide +kernel, by decide +kernel, ?_, ?_, by decide +kernel, by decide +kernel, by decide +kernel, by decide +kernel⟩
  · simp [exSlotted, LOp.Titles]
  · intro es h1 q h2
    simp only [exSlotBatches, List.mem_cons, List.not_mem_nil, or_false] at h1
    rcases h1 with rfl | rfl <;> simp only [List.mem_cons, List.not_mem_nil, or_false] at h2
    · rcases h2 with rfl | rfl <;> simp [LOp.Titles]
    · subst h2; simp [LOp.Titles]

/-- The conditions of `C109_path` hold for every index up to 8. -/
example : (LOp.slots exSlotted).Nodup ∧ (∀ k ∈ LOp.slots exSlotted, k < 7) ∧ elemsOf (closed (onSides ([], []) exSlotted)) = [1, 2, 3, 4, 5, 6, 7, 8] ∧
    fourLogs (marksOf (closed (onSides ([], []) exSlotted))).length = 16 := by
  refine ⟨by decide +kernel, by decide +kernel, by decide +kernel, by decide +kernel⟩

/-- What the theorems count is neither always false nor always true: work of 150 visits after the first batch would be dear, the work of the session of C84 is not. -/
example : (∃ q ∈ [((), 150, ()), ((), 7, ())].zip (likelys 20 (closed (onSides ([], []) exSlotted)) exSlotBatches), 2 * q.2 + 1 < q.1.2.1) ∧
    ¬ ∃ q ∈ [((), 8, ()), ((), 6, ())].zip (likelys 20 (closed (onSides ([], []) exSlotted)) exSlotBatches), 2 * q.2 + 1 < q.1.2.1 := by
  refine ⟨by decide +kernel, by decide +kernel⟩

end Iodyn.Incr
