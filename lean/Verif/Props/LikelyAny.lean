import Verif.Spec.LikelyAny
import Verif.Props.LikelyWork
import Verif.Props.MeanAny
import Verif.Props.Moves
/-
C110 after edits at any places, the work of memoised computations and the moves of cursors are seldom much greater than logarithmic.
-/
namespace Iodyn
open Finset
variable {E : Type}

theorem depth_tail {n : Nat} (h63 : n ≤ 2 ^ 63) {l : List (Item E)} (hs : (levelsOf l).Nodup) (hn : ∀ k ∈ levelsOf l, k < n) (j : Nat) :
    4 * 3 ^ j * (univ.filter fun w : Fin n → Fin (2 ^ 64) => sixLogs (marksOf l).length + j ≤ deepest (levelsOf (l.map (Item.at (drawn w))))).card ≤ 2 ^ j * (2 ^ 64) ^ n := by
  obtain ⟨J, j1, j2, j3⟩ := slot_levels hs hn
  have h := deepest_tail j1 h63 j
  rw [j2] at h
  simp only [j3]
  exact h

/-- In a batch of edits it is unlikely that any of the trees is deep. `cost` is what the edits cost with given levels, `lim` a bound for trees that are not deep. -/
theorem edits_deep {n : Nat} (h63 : n ≤ 2 ^ 63) (j : Nat) {cost : (Nat → Nat) → List (Item E) → List (Nat × List (LOp E)) → Nat}
    {lim : List (Item E) → List (Nat × List (LOp E)) → Nat} {fits : List (Item E) → List (Nat × List (LOp E)) → Bool}
    (h0 : ∀ f items, cost f items [] ≤ lim items [])
    (h1 : ∀ f items i ops l, fits items ((i, ops) :: l) = true → i ≤ (elemsOf items).length ∧ fits (editList i ops items) l = true ∧
      (deepest (levelsOf (items.map (Item.at f))) < sixLogs (marksOf items).length + j → cost f (editList i ops items) l ≤ lim (editList i ops items) l →
        cost f items ((i, ops) :: l) ≤ lim items ((i, ops) :: l))) :
    ∀ (l : List (Nat × List (LOp E))) {items : List (Item E)}, (levelsOf items ++ restSlots l).Nodup →
    (∀ k ∈ levelsOf items ++ restSlots l, k < n) → fits items l = true →
    4 * 3 ^ j * (univ.filter fun w : Fin n → Fin (2 ^ 64) => lim items l < cost (drawn w) items l).card ≤ l.length * (2 ^ j * (2 ^ 64) ^ n)
  | [], items, hs, hn, hl => by
    rw [filter_false_of_mem fun w _ => by have := h0 (drawn w) items; omega]
    simp
  | (i, ops) :: l, items, hs, hn, hl => by
    obtain ⟨hi, hl', -⟩ := h1 (fun _ => 0) items i ops l hl
    have he := edit_levels hi ops
    have hc := nodup_slots hs
    simp only [restSlots, List.flatMap_cons, List.count_append] at hc
    have hs' : (levelsOf (editList i ops items) ++ restSlots l).Nodup := slots_nodup fun x => by
      have := hc x; have := he x; simp only [restSlots, List.count_append] at *; omega
    have hn' : ∀ k ∈ levelsOf (editList i ops items) ++ restSlots l, k < n := fun k hk => by
      refine hn k (List.count_pos_iff.1 ?_)
      have h1 := List.count_pos_iff.2 hk
      have := he k
      simp only [restSlots, List.flatMap_cons, List.count_append] at *
      omega
    have ih := edits_deep h63 j h0 h1 l hs' hn' hl'
    have hp := depth_tail h63 (List.Nodup.of_append_left hs) (fun k hk => hn k (List.mem_append_left _ hk)) j
    refine Nat.le_trans (Nat.mul_le_mul_left _ (Nat.le_trans (card_le_card fun w hw => ?_) (card_union_le
      (univ.filter fun w : Fin n → Fin (2 ^ 64) => sixLogs (marksOf items).length + j ≤ deepest (levelsOf (items.map (Item.at (drawn w)))))
      (univ.filter fun w : Fin n → Fin (2 ^ 64) => lim (editList i ops items) l < cost (drawn w) (editList i ops items) l)))) ?_
    · have hlt := (mem_filter.1 hw).2
      by_cases h : sixLogs (marksOf items).length + j ≤ deepest (levelsOf (items.map (Item.at (drawn w))))
      · exact mem_union_left _ (mem_filter.2 ⟨mem_univ _, h⟩)
      · refine mem_union_right _ (mem_filter.2 ⟨mem_univ _, ?_⟩)
        by_contra h'
        have := (h1 (drawn w) items i ops l hl).2.2 (by omega) (by omega)
        omega
    · rw [Nat.mul_add, List.length_cons, Nat.succ_mul l.length, Nat.add_comm (l.length * _)]
      exact Nat.add_le_add hp ih

theorem edits_any_tail {n : Nat} (h63 : n ≤ 2 ^ 63) (j : Nat) (l : List (Nat × List (LOp E))) {items : List (Item E)} (hs : (levelsOf items ++ restSlots l).Nodup)
    (hn : ∀ k ∈ levelsOf items ++ restSlots l, k < n) (hl : fullList items l = true) :
    4 * 3 ^ j * (univ.filter fun w : Fin n → Fin (2 ^ 64) => likelyAny j items l < depthEdits (drawn w) items l).card ≤ l.length * (2 ^ j * (2 ^ 64) ^ n) := by
  refine edits_deep h63 j (cost := depthEdits) (lim := likelyAny j) (fits := fullList) (fun f items => by simp [depthEdits, likelyAny]) (fun f items i ops l h => ?_) l hs hn hl
  simp only [fullList, Bool.and_eq_true, decide_eq_true_eq] at h
  refine ⟨h.1.1.1, h.2, fun hd ih => ?_⟩
  have := Nat.mul_le_mul_left (1 + crossingsAt (cutAt i items) ops) (Nat.le_of_lt hd)
  simp only [depthEdits, likelyAny]
  omega

theorem moves_tail {n : Nat} (h63 : n ≤ 2 ^ 63) (j : Nat) (l : List (Nat × List (LOp E))) {items : List (Item E)} (hs : (levelsOf items ++ restSlots l).Nodup)
    (hn : ∀ k ∈ levelsOf items ++ restSlots l, k < n) (hl : within items l = true) :
    4 * 3 ^ j * (univ.filter fun w : Fin n → Fin (2 ^ 64) => likelyMoves j items l < movesAt (drawn w) items l).card ≤ l.length * (2 ^ j * (2 ^ 64) ^ n) := by
  refine edits_deep h63 j (cost := movesAt) (lim := likelyMoves j) (fits := within) (fun f items => by simp [movesAt, likelyMoves]) (fun f items i ops l h => ?_) l hs hn hl
  simp only [within, Bool.and_eq_true, decide_eq_true_eq] at h
  refine ⟨h.1.1.2, h.2, fun hd ih => ?_⟩
  have hp := path_deepest (l := items.map (Item.at f)) (i := i) (by rw [at_elems]; exact h.1.1.2)
  have := Nat.mul_le_mul_left (2 + crossingsAt (cutAt i items) ops * 4) (Nat.le_of_lt hd)
  simp only [movesAt, likelyMoves]
  rw [Nat.add_mul, Nat.mul_assoc] at this
  omega

theorem batches_any_tail {n : Nat} (h63 : n ≤ 2 ^ 63) (j : Nat) : ∀ (l : List (List (Nat × List (LOp E)))) {items : List (Item E)}, (levelsOf items ++ batchSlots l).Nodup →
    (∀ k ∈ levelsOf items ++ batchSlots l, k < n) → fullLists items l = true →
    4 * 3 ^ j * (univ.filter fun w : Fin n → Fin (2 ^ 64) => ∃ q ∈ (depthBatches (drawn w) items l).zip (likelyAnys j items l), q.2 < q.1).card ≤
      (l.map List.length).sum * (2 ^ j * (2 ^ 64) ^ n)
  | [], items, hs, hn, hl => by simp [depthBatches]
  | es :: l, items, hs, hn, hl => by
    simp only [fullLists, Bool.and_eq_true] at hl
    have hb : batchSlots (es :: l) = restSlots es ++ batchSlots l := rfl
    rw [hb] at hs hn
    have hc := nodup_slots hs
    simp only [List.count_append] at hc
    have g1 : (levelsOf items ++ restSlots es).Nodup := slots_nodup fun x => by have := hc x; simp only [List.count_append]; omega
    have g2 : ∀ k ∈ levelsOf items ++ restSlots es, k < n := fun k hk => hn k (by simp only [List.mem_append] at hk ⊢; tauto)
    have h1 := edits_any_tail h63 j es g1 g2 hl.1
    have h2 := (edits_depth_mean h63 es g1 g2 hl.1).2
    have ih := batches_any_tail h63 j l (items := editLists items es)
      (slots_nodup fun x => by have := hc x; have := h2 x; simp only [List.count_append] at *; omega)
      (fun k hk => hn k (List.count_pos_iff.1 (by have := List.count_pos_iff.2 hk; have := h2 k; simp only [List.count_append] at *; omega))) hl.2
    refine Nat.le_trans (Nat.mul_le_mul_left _ (Nat.le_trans (card_le_card fun w hw => ?_) (card_union_le
      (univ.filter fun w : Fin n → Fin (2 ^ 64) => likelyAny j items es < depthEdits (drawn w) items es)
      (univ.filter fun w : Fin n → Fin (2 ^ 64) => ∃ q ∈ (depthBatches (drawn w) (editLists items es) l).zip (likelyAnys j (editLists items es) l), q.2 < q.1)))) ?_
    · obtain ⟨q, hq, hlt⟩ := (mem_filter.1 hw).2
      simp only [depthBatches, likelyAnys, List.zip_cons_cons, List.mem_cons] at hq
      rcases hq with rfl | hq
      · exact mem_union_left _ (mem_filter.2 ⟨mem_univ _, hlt⟩)
      · exact mem_union_right _ (mem_filter.2 ⟨mem_univ _, q, hq, hlt⟩)
    · rw [Nat.mul_add, List.map_cons, List.sum_cons, Nat.add_mul]
      exact Nat.add_le_add h1 ih

/-- **C110, moves of cursors.** A sequence is made and then edited, at any places and across archive points, as in `C90_mean`. For every `j`, at most
`e * (2 / 3) ^ j / 4` of all assignments of random numbers, where `e` is the number of edits, make the session move cursors more often than once for each pop and eight
times for each archive point of the making, 8, and for each edit of a sequence with `m` archive points: `2 + 4 * c` times `6 * log (m + 2) + j` for the way to its
place and `c` crossings, one for each pop, eight for each new archive point and nine. -/
theorem C110_moves {ops : List (LOp E)} {l : List (Nat × List (LOp E))} (hl : within (closed (onSides ([], []) ops)) l = true) {n : Nat} (h63 : n ≤ 2 ^ 63)
    (hs : (LOp.slots ops ++ restSlots l).Nodup) (hk : ∀ k ∈ LOp.slots ops ++ restSlots l, k < n) :
    ∃ d : (Fin n → Fin (2 ^ 64)) → Nat, (∀ w, ∃ t' : RazTree E Count,
        Costs (RazTree.makeC (ops.map (LOp.at (drawn w))) >>= fun t => t.editsC (editsAt (drawn w) l)) t' (d w) ∧
        t'.elems = elemsOf (editLists (closed (onSides ([], []) ops)) l)) ∧
      ∀ j, 4 * 3 ^ j * (univ.filter fun w => LOp.pops ops + 8 * LOp.archs ops + 8 + likelyMoves j (closed (onSides ([], []) ops)) l < d w).card ≤
        l.length * (2 ^ j * (2 ^ 64) ^ n) := by
  have key : ∀ w : Fin n → Fin (2 ^ 64), ∃ k, (∃ t' : RazTree E Count, Costs (RazTree.makeC (ops.map (LOp.at (drawn w))) >>= fun t => t.editsC (editsAt (drawn w) l)) t' k ∧
      t'.elems = elemsOf (editLists (closed (onSides ([], []) ops)) l)) ∧ k ≤ LOp.pops ops + 8 * LOp.archs ops + 8 + movesAt (drawn w) (closed (onSides ([], []) ops)) l := by
    intro w
    obtain ⟨z, t, f1, f2, f3, f4⟩ := make_any (drawn_one w) ops
    obtain ⟨t1, k, g1, g2⟩ := C90_make (M := Count) (at_lifts (drawn w) (drawn_one w) ops)
    have := g1.same (C90_same t (0 : Nat) (ops.map (LOp.at (drawn w)))).2.1
    rw [f1] at this
    have : z.unfocus = .ok t1 := this
    rw [f2] at this
    cases this
    obtain ⟨t', j, h1, h2, h3⟩ := edits_moves (drawn_one w) l f3 f4 hl
    rw [at_pops, at_archs] at g2
    exact ⟨k + j, ⟨t', g1.bind h1, by rw [RazTree.elems, h3, at_elems]⟩, by omega⟩
  choose d h1 h2 using key
  refine ⟨d, h1, fun j => Nat.le_trans (Nat.mul_le_mul_left _ (card_le_card fun w hw => ?_)) (moves_tail h63 j l (items := closed (onSides ([], []) ops)) ?_ ?_ hl)⟩
  · refine mem_filter.2 ⟨mem_univ _, ?_⟩
    have := (mem_filter.1 hw).2
    have := h2 w
    omega
  · refine slots_nodup fun x => ?_
    have := nodup_slots hs x
    have := made_levels ops x
    simp only [List.count_append] at *
    omega
  · intro k hk'
    refine hk k (List.count_pos_iff.1 ?_)
    have := List.count_pos_iff.2 hk'
    have := made_levels ops k
    simp only [List.count_append] at *
    omega

end Iodyn

namespace Iodyn.Incr
open Iodyn.Heap
variable {E F N A B Sp R : Type} [DecidableEq E]

theorem likely_any {run : HTree Count → Sp → HR E Count (A × Nat × Sp)} {val : RazTree E Count → P B} {Rel : B → A → Sp → Prop}
    {Hist : Sp → List (Tree (Tr × TreeData E Count)) → Prop} (hR : Reuses run val Rel Hist) {new : Sp} (hnew : Hist new []) {Ans : List E → A → Sp → Prop}
    (hv : ∀ t : RazTree E Count, t.Reachable .edit → ∃ b, val t = .ok b)
    (hA : ∀ (t : RazTree E Count) (b : B), t.Reachable .edit → val t = .ok b → ∀ a s, Rel b a s → Ans t.elems a s) {ops : List (LOp E)}
    {l : List (List (Nat × List (LOp E)))} (hn : (LOp.cells ops ++ batchCells l).Nodup) (hl : fullAll ops l = true) (hti : ∀ op ∈ ops, op.Titles)
    (hti' : ∀ es ∈ l, ∀ q ∈ es, ∀ op ∈ q.2, op.Titles) {n : Nat} (h63 : n ≤ 2 ^ 63) (hs : (LOp.slots ops ++ batchSlots l).Nodup)
    (hk : ∀ k ∈ LOp.slots ops ++ batchSlots l, k < n) (σ : RMem E Count) :
    ∃ (a : (Fin n → Fin (2 ^ 64)) → A) (work : (Fin n → Fin (2 ^ 64)) → Nat) (s : (Fin n → Fin (2 ^ 64)) → Sp)
      (outs : (Fin n → Fin (2 ^ 64)) → List (A × Nat × Sp)),
      (∀ w, (∃ f0, ∀ m, f0 ≤ m → (hrerunSession (M := Count) run new (ops.map (LOp.at (drawn w))) (l.map (editsAt (drawn w))) m σ).map (·.1) =
          .ok (a w, work w, s w, outs w)) ∧
        Ans (elemsOf (closed (onSides ([], []) ops))) (a w) (s w) ∧
        List.Forall₂ (fun (its : List (Item E)) (o : A × Nat × Sp) => Ans (elemsOf its) o.1 o.2.2) (stages (closed (onSides ([], []) ops)) l) (outs w)) ∧
      ∀ j : Nat, 4 * 3 ^ j * (Finset.univ.filter fun w => ∃ q ∈ (outs w).zip (likelyAnys j (closed (onSides ([], []) ops)) l), 2 * q.2 + 1 < q.1.2.1).card ≤
        (l.map List.length).sum * (2 ^ j * (2 ^ 64) ^ n) := by
  have h1 : ∀ w : Fin n → Fin (2 ^ 64), ∃ q : A × Nat × Sp × List (A × Nat × Sp),
      (∃ f0, ∀ m, f0 ≤ m → (hrerunSession (M := Count) run new (ops.map (LOp.at (drawn w))) (l.map (editsAt (drawn w))) m σ).map (·.1) = .ok q) ∧
      (Ans (elemsOf (closed (onSides ([], []) ops))) q.1 q.2.2.1 ∧
        List.Forall₂ (fun (its : List (Item E)) (o : A × Nat × Sp) => Ans (elemsOf its) o.1 o.2.2) (stages (closed (onSides ([], []) ops)) l) q.2.2.2) ∧
      List.Forall₂ (fun (k : Nat) (o : A × Nat × Sp) => o.2.1 ≤ 2 * k + 1) (depthBatches (drawn w) (closed (onSides ([], []) ops)) l) q.2.2.2 := by
    intro w
    obtain ⟨b, size, rest, hr, hfull, ⟨t, t1, t2, t3⟩, hrest, hk⟩ := any_session (drawn_one w) hv hl
    have hcells : (LOp.cells (ops.map (LOp.at (drawn w))) ++ batchCells (l.map (editsAt (drawn w)))).Nodup := by
      have e : batchCells (l.map (editsAt (drawn w))) = batchCells l := by
        simp only [batchCells, editsAt, List.flatMap_map, at_cells]
      rw [at_cells, e]
      exact hn
    obtain ⟨a, work, s, outs, f0, g1, g2, -, g4⟩ := reruns_any hR hnew hcells hfull hr σ
    have hnamed := C83_named hfull (at_titles (drawn w) hti) (fun es hes q hq => by
      obtain ⟨es', h1, rfl⟩ := List.mem_map.1 hes
      obtain ⟨q', h2, rfl⟩ := List.mem_map.1 hq
      exact at_titles (drawn w) (hti' es' h1 q' h2)) hr
    exact ⟨(a, work, s, outs), ⟨f0, g1⟩, ⟨t2 ▸ hA t b t1 t3 _ _ g2, answers hA hrest (g4.imp fun _ _ h => h.1)⟩, hk ▸ works_within g4 hnamed⟩
  obtain ⟨q, hq⟩ := Classical.axiom_of_choice h1
  refine ⟨fun w => (q w).1, fun w => (q w).2.1, fun w => (q w).2.2.1, fun w => (q w).2.2.2, fun w => ⟨(hq w).1, (hq w).2.1⟩, fun j => ?_⟩
  simp only [fullAll, Bool.and_eq_true] at hl
  have hc := fun x => onSides_levels ops ([], []) x
  have hc' := fun x => closed_levels (onSides ([], []) ops) x
  have hcount := nodup_slots hs
  have h0 : ∀ x, (levelsOf ([] : List (Item E))).count x = 0 := fun x => rfl
  simp only [h0] at hc
  refine Nat.le_trans (Nat.mul_le_mul_left _ (Finset.card_le_card fun w hw => ?_)) (batches_any_tail h63 j l (items := closed (onSides ([], []) ops)) (slots_nodup fun x => by
    have := hc x; have := hc' x; have := hcount x; simp only [List.count_append] at *; omega) (fun k hk' => hk k (List.count_pos_iff.1 (by
    have := hc k; have := hc' k; have := List.count_pos_iff.2 hk'; simp only [List.count_append] at *; omega))) hl.2)
  exact Finset.mem_filter.2 ⟨Finset.mem_univ _, dear_path (hq w).2.2 (Finset.mem_filter.1 hw).2⟩

/-- **C110, folds.** As in C89: a sequence is made and folded, then come batches of any edits that never leave it empty, also across archive points, and the fold after
each batch. Of all assignments of random numbers, at most `e * (2 / 3) ^ j / 4`, where `e` is the number of edits, make any fold after a batch run its function more
than `2 * k + 1` times, where `k` sums up, for each edit of the batch, `6 * log (m + 2) + j` with `m` the number of archive points before, as often as the edit crosses
archive points and once more, and the number of archive points added. -/
theorem C110_fold [DecidableEq R] {c : Fun E R} (hassoc : ∀ x y z, c.bin (c.bin x y) z = c.bin x (c.bin y z)) {p : Name} {ops : List (LOp E)}
    {l : List (List (Nat × List (LOp E)))} (hn : (LOp.cells ops ++ batchCells l).Nodup) (hl : fullAll ops l = true) (hti : ∀ op ∈ ops, op.Titles)
    (hti' : ∀ es ∈ l, ∀ q ∈ es, ∀ op ∈ q.2, op.Titles) {n : Nat} (h63 : n ≤ 2 ^ 63) (hs : (LOp.slots ops ++ batchSlots l).Nodup)
    (hk : ∀ k ∈ LOp.slots ops ++ batchSlots l, k < n) (σ : RMem E Count) :
    ∃ (a : (Fin n → Fin (2 ^ 64)) → Option R) (work : (Fin n → Fin (2 ^ 64)) → Nat) (s : (Fin n → Fin (2 ^ 64)) → RTable E Count R)
      (outs : (Fin n → Fin (2 ^ 64)) → List (Option R × Nat × RTable E Count R)),
      (∀ w, (∃ f0, ∀ m, f0 ≤ m → (hrerunSession (M := Count) (refold c.fns p) Table.empty (ops.map (LOp.at (drawn w))) (l.map (editsAt (drawn w))) m σ).map (·.1) =
          .ok (a w, work w, s w, outs w)) ∧
        a w = fold1 c.bin ((elemsOf (closed (onSides ([], []) ops))).map c.init) ∧
        List.Forall₂ (fun (its : List (Item E)) (o : Option R × Nat × RTable E Count R) => o.1 = fold1 c.bin ((elemsOf its).map c.init))
          (stages (closed (onSides ([], []) ops)) l) (outs w)) ∧
      ∀ j : Nat, 4 * 3 ^ j * (Finset.univ.filter fun w => ∃ q ∈ (outs w).zip (likelyAnys j (closed (onSides ([], []) ops)) l), 2 * q.2 + 1 < q.1.2.1).card ≤
        (l.map List.length).sum * (2 ^ j * (2 ^ 64) ^ n) := by
  have key : ∀ t : RazTree E Count, t.Reachable .edit → t.tree.foldUpMeta (c.fns (M := Count)).up = .ok (fold1 c.bin (t.elems.map c.init)) := fun t hr =>
    C10_fold_up_edited_partial (Reach.mono (by simp [Usage.edit]) (by simp [Usage.edit]) hr) c.init c.bin hassoc
  refine likely_any (fold_reuses c.fns p) ⟨.start, fun _ => rfl⟩ (Ans := fun xs a _ => a = fold1 c.bin (xs.map c.init)) (fun t hr => ⟨_, key t hr⟩) ?_ hn hl hti hti'
    h63 hs hk σ
  rintro t b hr hb a s rfl
  simp only [key t hr, Except.ok.injEq] at hb
  exact hb.symm

/-- **C110, maps.** -/
theorem C110_map [RazMeta F N] [DecidableEq F] [DecidableEq N] {f : E → F} {ops : List (LOp E)} {l : List (List (Nat × List (LOp E)))}
    (hn : (LOp.cells ops ++ batchCells l).Nodup) (hl : fullAll ops l = true) (hti : ∀ op ∈ ops, op.Titles)
    (hti' : ∀ es ∈ l, ∀ q ∈ es, ∀ op ∈ q.2, op.Titles) {n : Nat} (h63 : n ≤ 2 ^ 63) (hs : (LOp.slots ops ++ batchSlots l).Nodup)
    (hk : ∀ k ∈ LOp.slots ops ++ batchSlots l, k < n) (σ : RMem E Count) :
    ∃ (a : (Fin n → Fin (2 ^ 64)) → HTree N) (work : (Fin n → Fin (2 ^ 64)) → Nat) (s : (Fin n → Fin (2 ^ 64)) → RSpace E Count F N)
      (outs : (Fin n → Fin (2 ^ 64)) → List (HTree N × Nat × RSpace E Count F N)),
      (∀ w, (∃ f0, ∀ m, f0 ≤ m → (hrerunSession (M := Count) (countedMap f) Space.empty (ops.map (LOp.at (drawn w))) (l.map (editsAt (drawn w))) m σ).map (·.1) =
          .ok (a w, work w, s w, outs w)) ∧
        (∃ t : RazTree F N, Holds (s w).mem (a w) t ∧ t.elems = (elemsOf (closed (onSides ([], []) ops))).map f) ∧
        List.Forall₂ (fun (its : List (Item E)) (o : HTree N × Nat × RSpace E Count F N) => ∃ t : RazTree F N, Holds o.2.2.mem o.1 t ∧ t.elems = (elemsOf its).map f)
          (stages (closed (onSides ([], []) ops)) l) (outs w)) ∧
      ∀ j : Nat, 4 * 3 ^ j * (Finset.univ.filter fun w => ∃ q ∈ (outs w).zip (likelyAnys j (closed (onSides ([], []) ops)) l), 2 * q.2 + 1 < q.1.2.1).card ≤
        (l.map List.length).sum * (2 ^ j * (2 ^ 64) ^ n) := by
  refine likely_any (map_reuses f) .start (Ans := fun xs a (s : RSpace E Count F N) => ∃ t : RazTree F N, Holds s.mem a t ∧ t.elems = xs.map f)
    (fun t hr => (C15_map (N := N) hr f).imp fun _ h => h.1) ?_ hn hl hti hti' h63 hs hk σ
  intro t b hr hb a s h
  obtain ⟨t', h1, -, h3, -⟩ := C15_map (N := N) hr f
  simp only [h1, Except.ok.injEq] at hb
  subst hb
  exact ⟨t', h, h3⟩

/-- **C110, reverse and filter.** -/
theorem C110_rebuild [RazMeta E N] [DecidableEq N] {c : Rebuild E} {ops : List (LOp E)} {l : List (List (Nat × List (LOp E)))}
    (hn : (LOp.cells ops ++ batchCells l).Nodup) (hl : fullAll ops l = true) (hti : ∀ op ∈ ops, op.Titles)
    (hti' : ∀ es ∈ l, ∀ q ∈ es, ∀ op ∈ q.2, op.Titles) {n : Nat} (h63 : n ≤ 2 ^ 63) (hs : (LOp.slots ops ++ batchSlots l).Nodup)
    (hk : ∀ k ∈ LOp.slots ops ++ batchSlots l, k < n) (σ : RMem E Count) :
    ∃ (a : (Fin n → Fin (2 ^ 64)) → Option (HTree N)) (work : (Fin n → Fin (2 ^ 64)) → Nat) (s : (Fin n → Fin (2 ^ 64)) → GSpace E Count N)
      (outs : (Fin n → Fin (2 ^ 64)) → List (Option (HTree N) × Nat × GSpace E Count N)),
      (∀ w, (∃ f0, ∀ m, f0 ≤ m → (hrerunSession (M := Count) (countedRebuild c) Space.empty (ops.map (LOp.at (drawn w))) (l.map (editsAt (drawn w))) m σ).map (·.1) =
          .ok (a w, work w, s w, outs w)) ∧
        (∃ x, ∃ t : RazTree E N, a w = some x ∧ Holds (s w).mem x t ∧ t.elems = c.list (elemsOf (closed (onSides ([], []) ops)))) ∧
        List.Forall₂ (fun (its : List (Item E)) (o : Option (HTree N) × Nat × GSpace E Count N) =>
            ∃ x, ∃ t : RazTree E N, o.1 = some x ∧ Holds o.2.2.mem x t ∧ t.elems = c.list (elemsOf its)) (stages (closed (onSides ([], []) ops)) l) (outs w)) ∧
      ∀ j : Nat, 4 * 3 ^ j * (Finset.univ.filter fun w => ∃ q ∈ (outs w).zip (likelyAnys j (closed (onSides ([], []) ops)) l), 2 * q.2 + 1 < q.1.2.1).card ≤
        (l.map List.length).sum * (2 ^ j * (2 ^ 64) ^ n) := by
  refine likely_any (rebuild_reuses c) .start (Ans := fun xs a (s : GSpace E Count N) => ∃ x, ∃ t : RazTree E N, a = some x ∧ Holds s.mem x t ∧ t.elems = c.list xs)
    (fun t hr => Heap.rebuild_ok (N := N) c hr.any) ?_ hn hl hti hti' h63 hs hk σ
  rintro t b hr hb a s ⟨x, y, rfl, rfl, h⟩
  refine ⟨x, y, rfl, h, ?_⟩
  simpa [RAns.read] using scratch_elems c hr.any hb

/-! ### Cases that meet the conditions -/

set_option synthInstance.maxSize 1000 in
/-- The conditions of `C110_fold`, `C110_map` and `C110_rebuild`, with 9 slots and three edits in two batches; the numbers `k` for `j = 20`. The session is not one
of C109. -/
example : (LOp.cells exSlotted ++ batchCells exCrossed).Nodup ∧ fullAll exSlotted exCrossed = true ∧ (∀ op ∈ exSlotted, op.Titles) ∧
    (∀ es ∈ exCrossed, ∀ q ∈ es, ∀ op ∈ q.2, op.Titles) ∧ (LOp.slots exSlotted ++ batchSlots exCrossed).Nodup ∧
    (∀ k ∈ LOp.slots exSlotted ++ batchSlots exCrossed, k < 9) ∧ localAll exSlotted exCrossed = false ∧ (exCrossed.map List.length).sum = 3 ∧
    likelyAnys 20 (closed (onSides ([], []) exSlotted)) exCrossed = [132, 192] := by
  refine ⟨by decide +kernel, by decide +kernel, ?_, ?_, by decide +kernel, by decide +kernel, by decide +kernel, by decide +kernel, by decide +kernel⟩
  · simp [exSlotted, LOp.Titles]
  · intro es h1 q h2
    simp only [exCrossed, List.mem_cons, List.not_mem_nil, or_false] at h1
    rcases h1 with rfl | rfl <;> simp only [List.mem_cons, List.not_mem_nil, or_false] at h2
    · subst h2; simp [LOp.Titles]
    · rcases h2 with rfl | rfl <;> simp [LOp.Titles]

/-- The conditions of `C110_moves` for a sequence with 7 archive points and edits across them, and the bound for `j = 20`. -/
example : within (closed (onSides ([], []) exSlotted)) exWithin = true ∧ (LOp.slots exSlotted ++ restSlots exWithin).Nodup ∧
    (∀ k ∈ LOp.slots exSlotted ++ restSlots exWithin, k < 8) ∧
    LOp.pops exSlotted + 8 * LOp.archs exSlotted + 8 + likelyMoves 20 (closed (onSides ([], []) exSlotted)) exWithin = 610 := by
  refine ⟨by decide +kernel, by decide +kernel, by decide +kernel, by decide +kernel⟩

end Iodyn.Incr
