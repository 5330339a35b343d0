import Verif.Spec.MeanAny
import Verif.Props.MeanDepth
/-
C89: the mean work of memoised computations between any edits, over all random levels.
-/
namespace Iodyn
variable {E : Type} {f : Nat → Nat}

/-! ### Crossings of lists -/

theorem at_atMark (l : List (Item E)) : atMark (l.map (Item.at f)) = atMark l := by
  cases l with
  | nil => rfl
  | cons i l => cases i <;> rfl

theorem at_crossings : ∀ (ops : List (LOp E)) (s : List (Item E) × List (Item E)), crossingsAt (sidesAt f s) (ops.map (LOp.at f)) = crossingsAt s ops
  | [], s => by simp only [List.map_nil, crossingsAt, sidesAt, at_hand]
  | op :: l, s => by
    simp only [List.map_cons, crossingsAt]
    rw [at_onSide, at_crossings l]
    congr 1
    cases op <;> simp only [LOp.at, LOp.crossesAt, sidesAt, at_atMark]

theorem crossings_sides {M : Type} [RazMeta E M] : ∀ {ops : List (LOp E)} {z : Raz E M}, ZInv z → (∀ op ∈ ops, op.Lifts) →
    z.crossings ops = crossingsAt (z.left, z.right) ops
  | [], z, _, _ => rfl
  | op :: l, z, h, hl => by
    obtain ⟨z1, a, b, c⟩ := lop_sides h (hl op List.mem_cons_self)
    unfold Raz.crossings crossingsAt
    simp only [a]
    rw [← c, crossings_sides b (fun o ho => hl o (List.mem_cons_of_mem _ ho))]
    rfl

/-! ### The mean -/

/-- What the edits of a batch cost with given levels. -/
def depthEdits (f : Nat → Nat) (items : List (Item E)) : List (Nat × List (LOp E)) → Nat
  | [] => 0
  | (i, ops) :: l => (1 + crossingsAt (cutAt i items) ops) * deepest (levelsOf (items.map (Item.at f))) + LOp.points ops + depthEdits f (editList i ops items) l

/-- The same for all batches. -/
def depthBatches (f : Nat → Nat) (items : List (Item E)) : List (List (Nat × List (LOp E))) → List Nat
  | [] => []
  | es :: l => depthEdits f items es :: depthBatches f (editLists items es) l

theorem depth_mean {n : Nat} (h63 : n ≤ 2 ^ 63) {l : List (Item E)} (hs : (levelsOf l).Nodup) (hn : ∀ k ∈ levelsOf l, k < n) :
    ∑ w : Fin n → Fin (2 ^ 64), deepest (levelsOf (l.map (Item.at (drawn w)))) ≤ (2 ^ 64) ^ n * (sixLogs (marksOf l).length + 1) := by
  obtain ⟨J, j1, j2, j3⟩ := slot_levels hs hn
  have h := deepest_mean j1 h63
  rw [j2] at h
  simp only [j3]
  refine Nat.le_of_mul_le_mul_left (Nat.le_trans h ?_) (by decide : 0 < 2)
  rw [Nat.mul_left_comm]
  exact Nat.mul_le_mul_left _ (by omega)

theorem edits_depth_mean {n : Nat} (h63 : n ≤ 2 ^ 63) : ∀ (l : List (Nat × List (LOp E))) {items : List (Item E)}, (levelsOf items ++ restSlots l).Nodup →
    (∀ k ∈ levelsOf items ++ restSlots l, k < n) → fullList items l = true →
    (∑ w : Fin n → Fin (2 ^ 64), depthEdits (drawn w) items l ≤ (2 ^ 64) ^ n * anyBound items l) ∧
      ∀ x, (levelsOf (editLists items l)).count x ≤ (levelsOf items ++ restSlots l).count x
  | [], items, hs, hn, hl => by simp [depthEdits, editLists, restSlots]
  | (i, ops) :: l, items, hs, hn, hl => by
    simp only [fullList, Bool.and_eq_true, decide_eq_true_eq] at hl
    obtain ⟨⟨⟨hi, -⟩, -⟩, hl⟩ := hl
    have he := edit_levels hi ops
    have hc := nodup_slots hs
    simp only [restSlots, List.flatMap_cons, List.count_append] at hc
    have hs' : (levelsOf (editList i ops items) ++ restSlots l).Nodup := slots_nodup fun x => by
      have := hc x; have := he x; simp only [restSlots, List.count_append] at *; omega
    have hn' : ∀ k ∈ levelsOf (editList i ops items) ++ restSlots l, k < n := fun k hk => by
      refine hn k (List.count_pos_iff.1 ?_)
      have h1 := List.count_pos_iff.2 hk
      have := he k
      simp only [restSlots, List.flatMap_cons, List.count_append] at *
      omega
    obtain ⟨ih1, ih2⟩ := edits_depth_mean h63 l hs' hn' hl
    have hp := depth_mean h63 (List.Nodup.of_append_left hs) (fun k hk => hn k (List.mem_append_left _ hk))
    refine ⟨?_, fun x => ?_⟩
    · simp only [depthEdits, anyBound]
      rw [Finset.sum_add_distrib, Finset.sum_add_distrib, Nat.mul_add, Nat.mul_add, ← Finset.mul_sum]
      refine Nat.add_le_add (Nat.add_le_add ?_ (Nat.le_of_eq ?_)) ih1
      · rw [Nat.mul_left_comm]
        exact Nat.mul_le_mul_left _ hp
      · rw [Finset.sum_const, Finset.card_univ, Fintype.card_fun, Fintype.card_fin, Fintype.card_fin]
        rfl
    · have := ih2 x
      have := he x
      simp only [editLists, restSlots, List.flatMap_cons, List.count_append] at *
      omega

theorem batches_depth_mean {n : Nat} (h63 : n ≤ 2 ^ 63) : ∀ (l : List (List (Nat × List (LOp E)))) {items : List (Item E)}, (levelsOf items ++ batchSlots l).Nodup →
    (∀ k ∈ levelsOf items ++ batchSlots l, k < n) → fullLists items l = true → ∀ j : Nat,
    (∑ w : Fin n → Fin (2 ^ 64), ((depthBatches (drawn w) items l)[j]?.elim 0 fun k => 2 * k + 1)) ≤
      (2 ^ 64) ^ n * ((anyBounds items l)[j]?.elim 0 fun k => 2 * k + 1)
  | [], items, hs, hn, hl, j => by simp [depthBatches, anyBounds]
  | es :: l, items, hs, hn, hl, j => by
    simp only [fullLists, Bool.and_eq_true] at hl
    have hb : batchSlots (es :: l) = restSlots es ++ batchSlots l := rfl
    rw [hb] at hs hn
    have hc := nodup_slots hs
    simp only [List.count_append] at hc
    obtain ⟨h1, h2⟩ := edits_depth_mean h63 es (items := items) (slots_nodup fun x => by have := hc x; simp only [List.count_append]; omega)
      (fun k hk => hn k (by simp only [List.mem_append] at hk ⊢; tauto)) hl.1
    cases j with
    | zero =>
      simp only [depthBatches, anyBounds, List.getElem?_cons_zero, Option.elim_some]
      rw [Finset.sum_add_distrib, ← Finset.mul_sum, Nat.mul_add, Nat.mul_left_comm]
      refine Nat.add_le_add (Nat.mul_le_mul_left _ h1) (Nat.le_of_eq ?_)
      rw [Finset.sum_const, Finset.card_univ, Fintype.card_fun, Fintype.card_fin, Fintype.card_fin]
      rfl
    | succ j =>
      simp only [depthBatches, anyBounds, List.getElem?_cons_succ]
      refine batches_depth_mean h63 l (slots_nodup fun x => ?_) (fun k hk => hn k (List.count_pos_iff.1 ?_)) hl.2 j
      · have := hc x; have := h2 x; simp only [List.count_append] at *; omega
      · have := List.count_pos_iff.2 hk; have := h2 k; simp only [List.count_append] at *; omega

end Iodyn

namespace Iodyn.Incr
open Iodyn.Heap
variable {E F N A B Sp R : Type} {f : Nat → Nat}

/-! ### Sessions -/

/-- An edit at any place, with what it costs. -/
theorem any_next (hf : ∀ k, 1 ≤ f k) {t : RazTree E Count} {items : List (Item E)} (hr : t.Reachable .edit) (he : t.items = items.map (Item.at f)) {i : Nat}
    {ops : List (LOp E)} (hne : elemsOf items ≠ []) (hi : i ≤ (elemsOf items).length) (hm : i < usizeMax) :
    ∃ z t', t.focus i = .ok (some z) ∧ z.crossings (ops.map (LOp.at f)) = crossingsAt (cutAt i items) ops ∧ t.edit i (ops.map (LOp.at f)) = .ok t' ∧
      t'.Reachable .edit ∧ t'.items = (editList i ops items).map (Item.at f) := by
  obtain ⟨t', e1, e2, e3⟩ := edit_any_next hf hr he (ops := ops) hne hi hm
  have hw : WF t.tree := (Reach.t hr).inv.wf.resolve_left fun ht => hne (by
    rw [← at_elems f items, ← he, RazTree.items, ht]
    rfl)
  obtain ⟨z, k1, k2, k3⟩ := focus_cut hw ((Reach.t hr).tidy rfl).1 (i := i) (by rw [RazTree.elems, he, at_elems]; exact hi) hm
  obtain ⟨k4, -, -⟩ := focus_ok (.inr hw) k1
  have hsides : (z.left, z.right) = sidesAt f (cutAt i items) := by rw [k2, k3, he, at_cut]; rfl
  exact ⟨z, t', k1, by rw [crossings_sides k4 (at_lifts f hf ops), hsides, at_crossings], e1, e2, e3⟩

theorem not_nil {t : RazTree E Count} {items : List (Item E)} (he : t.items = items.map (Item.at f)) (hne : elemsOf items ≠ []) : t.tree ≠ .nil := fun ht => hne (by
  rw [← at_elems f items, ← he, RazTree.items, ht]
  rfl)

theorem any_ends (hf : ∀ k, 1 ≤ f k) : ∀ (l : List (Nat × List (LOp E))) {t : RazTree E Count} {items : List (Item E)}, t.Reachable .edit →
    t.items = items.map (Item.at f) → elemsOf items ≠ [] → fullList items l = true →
    ∃ t', t.editsAny (editsAt f l) = .ok (t', depthEdits f items l) ∧ t'.Reachable .edit ∧ t'.items = (editLists items l).map (Item.at f) ∧
      elemsOf (editLists items l) ≠ [] ∧ t.NeverEmpty (editsAt f l)
  | [], t, items, hr, he, hne, _ => ⟨t, rfl, hr, he, hne, trivial⟩
  | (i, ops) :: l, t, items, hr, he, hne, hl => by
    simp only [fullList, Bool.and_eq_true, decide_eq_true_eq, Bool.not_eq_true', List.isEmpty_eq_false_iff] at hl
    obtain ⟨z, t1, e0, e1, e2, e3, e4⟩ := any_next hf hr he (ops := ops) hne hl.1.1.1 hl.1.1.2
    obtain ⟨t2, f1, f2, f3, f4, f5⟩ := any_ends hf l e3 e4 hl.1.2 hl.2
    refine ⟨t2, bind_ok.2 ⟨some z, e0, bind_ok.2 ⟨z, rfl, bind_ok.2 ⟨t1, e2, bind_ok.2 ⟨(t2, depthEdits f (editList i ops items) l), f1, ?_⟩⟩⟩⟩, f2, f3, f4,
      at_lifts f hf ops, fun t' ht => ?_⟩
    · simp only [e1, C88_depth hr, he, at_points]
      rfl
    · rw [e2] at ht
      cases ht
      exact ⟨not_nil e4 hl.1.2, f5⟩

theorem any_reruns (hf : ∀ k, 1 ≤ f k) {val : RazTree E Count → P B} (hv : ∀ t : RazTree E Count, t.Reachable .edit → ∃ b, val t = .ok b) :
    ∀ (l : List (List (Nat × List (LOp E)))) {t : RazTree E Count} {items : List (Item E)}, t.Reachable .edit → t.items = items.map (Item.at f) →
    elemsOf items ≠ [] → fullLists items l = true → ∃ rest, t.rerunsAny val (l.map (editsAt f)) = .ok rest ∧
      List.Forall₂ (fun (its : List (Item E)) (q : B × Nat × Nat) => ∃ t : RazTree E Count, t.Reachable .edit ∧ t.elems = elemsOf its ∧ val t = .ok q.1) (stages items l) rest ∧
      rest.map (fun q => q.2.1) = depthBatches f items l ∧ t.NeverEmptied (l.map (editsAt f))
  | [], t, items, hr, he, hne, _ => ⟨[], rfl, .nil, rfl, trivial⟩
  | es :: l, t, items, hr, he, hne, hl => by
    simp only [fullLists, Bool.and_eq_true] at hl
    obtain ⟨t1, e1, e2, e3, e4, e5⟩ := any_ends hf es hr he hne hl.1
    obtain ⟨b, hb⟩ := hv t1 e2
    obtain ⟨rest, f1, f2, f3, f4⟩ := any_reruns hf hv l e2 e3 e4 hl.2
    refine ⟨_, bind_ok.2 ⟨(t1, _), e1, bind_ok.2 ⟨b, hb, bind_ok.2 ⟨rest, f1, rfl⟩⟩⟩, .cons ⟨t1, e2, ?_, hb⟩ f2, ?_, e5, fun t' k ht => ?_⟩
    · rw [RazTree.elems, e3, at_elems]
    · simp only [List.map_cons, f3]
      rfl
    · rw [e1] at ht
      cases ht
      exact f4

theorem any_session (hf : ∀ k, 1 ≤ f k) {val : RazTree E Count → P B} (hv : ∀ t : RazTree E Count, t.Reachable .edit → ∃ b, val t = .ok b) {ops : List (LOp E)}
    {l : List (List (Nat × List (LOp E)))} (hl : fullAll ops l = true) : ∃ b size rest,
      rerunAnySession (M := Count) val (ops.map (LOp.at f)) (l.map (editsAt f)) = .ok (b, size, rest) ∧ FullReruns (M := Count) (ops.map (LOp.at f)) (l.map (editsAt f)) ∧
      (∃ t : RazTree E Count, t.Reachable .edit ∧ t.elems = elemsOf (closed (onSides ([], []) ops)) ∧ val t = .ok b) ∧
      List.Forall₂ (fun (its : List (Item E)) (q : B × Nat × Nat) => ∃ t : RazTree E Count, t.Reachable .edit ∧ t.elems = elemsOf its ∧ val t = .ok q.1)
        (stages (closed (onSides ([], []) ops)) l) rest ∧ rest.map (fun q => q.2.1) = depthBatches f (closed (onSides ([], []) ops)) l := by
  simp only [fullAll, Bool.and_eq_true, Bool.not_eq_true', List.isEmpty_eq_false_iff] at hl
  obtain ⟨z, t, f1, f2, f3, f4⟩ := make_any hf ops
  obtain ⟨b, hb⟩ := hv t f3
  obtain ⟨rest, g1, g2, g3, g4⟩ := any_reruns hf hv l f3 f4 hl.1 hl.2
  refine ⟨_, _, _, bind_ok.2 ⟨z, f1, bind_ok.2 ⟨t, f2, bind_ok.2 ⟨b, hb, bind_ok.2 ⟨rest, g1, rfl⟩⟩⟩⟩, ⟨at_lifts f hf ops, fun z' t' hz ht => ?_⟩,
    ⟨t, f3, by rw [RazTree.elems, f4, at_elems], hb⟩, g2, g3⟩
  rw [f1] at hz
  cases hz
  rw [f2] at ht
  cases ht
  exact ⟨not_nil f4 hl.1, g4⟩

variable [DecidableEq E]

omit [DecidableEq E] in
theorem works_within {Rel : B → A → Sp → Prop} {rest : List (B × Nat × Nat)} {outs : List (A × Nat × Sp)}
    (h : List.Forall₂ (fun (q : B × Nat × Nat) (o : A × Nat × Sp) => Rel q.1 o.1 o.2.2 ∧ o.2.1 ≤ (2 * q.2.1 + 1) * q.2.2) rest outs)
    (hg : ∀ q ∈ rest, (2 * q.2.1 + 1) * q.2.2 ≤ 2 * q.2.1 + 1) :
    List.Forall₂ (fun (k : Nat) (o : A × Nat × Sp) => o.2.1 ≤ 2 * k + 1) (rest.map fun q => q.2.1) outs := by
  induction h with
  | nil => exact .nil
  | cons h _ ih => exact .cons (Nat.le_trans h.2 (hg _ List.mem_cons_self)) (ih fun q hq => hg q (List.mem_cons_of_mem _ hq))

theorem mean_any {run : HTree Count → Sp → HR E Count (A × Nat × Sp)} {val : RazTree E Count → P B} {Rel : B → A → Sp → Prop}
    {Hist : Sp → List (Tree (Tr × TreeData E Count)) → Prop} (hR : Reuses run val Rel Hist) {new : Sp} (hnew : Hist new []) {Ans : List E → A → Sp → Prop}
    (hv : ∀ t : RazTree E Count, t.Reachable .edit → ∃ b, val t = .ok b)
    (hA : ∀ (t : RazTree E Count) (b : B), t.Reachable .edit → val t = .ok b → ∀ a s, Rel b a s → Ans t.elems a s) {ops : List (LOp E)}
    {l : List (List (Nat × List (LOp E)))} (hn : (LOp.cells ops ++ batchCells l).Nodup) (hl : fullAll ops l = true) (hti : ∀ op ∈ ops, op.Titles)
    (hti' : ∀ es ∈ l, ∀ q ∈ es, ∀ op ∈ q.2, op.Titles) {n : Nat} (h63 : n ≤ 2 ^ 63) (hs : (LOp.slots ops ++ batchSlots l).Nodup)
    (hk : ∀ k ∈ LOp.slots ops ++ batchSlots l, k < n) (σ : RMem E Count) :
    ∃ (a : (Fin n → Fin (2 ^ 64)) → A) (work : (Fin n → Fin (2 ^ 64)) → Nat) (s : (Fin n → Fin (2 ^ 64)) → Sp)
      (outs : (Fin n → Fin (2 ^ 64)) → List (A × Nat × Sp)),
      (∀ w, (∃ f0, ∀ m, f0 ≤ m → (hrerunSession (M := Count) run new (ops.map (LOp.at (drawn w))) (l.map (editsAt (drawn w))) m σ).map (·.1) =
          .ok (a w, work w, s w, outs w)) ∧
        Ans (elemsOf (closed (onSides ([], []) ops))) (a w) (s w) ∧
        List.Forall₂ (fun (its : List (Item E)) (o : A × Nat × Sp) => Ans (elemsOf its) o.1 o.2.2) (stages (closed (onSides ([], []) ops)) l) (outs w)) ∧
      ∀ j : Nat, ∑ w, ((outs w)[j]?.elim 0 fun o => o.2.1) ≤ (2 ^ 64) ^ n * ((anyBounds (closed (onSides ([], []) ops)) l)[j]?.elim 0 fun k => 2 * k + 1) := by
  have h1 : ∀ w : Fin n → Fin (2 ^ 64), ∃ q : A × Nat × Sp × List (A × Nat × Sp),
      (∃ f0, ∀ m, f0 ≤ m → (hrerunSession (M := Count) run new (ops.map (LOp.at (drawn w))) (l.map (editsAt (drawn w))) m σ).map (·.1) = .ok q) ∧
      (Ans (elemsOf (closed (onSides ([], []) ops))) q.1 q.2.2.1 ∧
        List.Forall₂ (fun (its : List (Item E)) (o : A × Nat × Sp) => Ans (elemsOf its) o.1 o.2.2) (stages (closed (onSides ([], []) ops)) l) q.2.2.2) ∧
      List.Forall₂ (fun (k : Nat) (o : A × Nat × Sp) => o.2.1 ≤ 2 * k + 1) (depthBatches (drawn w) (closed (onSides ([], []) ops)) l) q.2.2.2 := by
    intro w
    obtain ⟨b, size, rest, hr, hfull, ⟨t, t1, t2, t3⟩, hrest, hk⟩ := any_session (drawn_one w) hv hl
    have hcells : (LOp.cells (ops.map (LOp.at (drawn w))) ++ batchCells (l.map (editsAt (drawn w)))).Nodup := by
      have e : batchCells (l.map (editsAt (drawn w))) = batchCells l := by
        simp only [batchCells, restCells, editsAt, List.flatMap_map, at_cells]
      rw [at_cells, e]
      exact hn
    obtain ⟨a, work, s, outs, f0, g1, g2, -, g4⟩ := reruns_any hR hnew hcells hfull hr σ
    have hnamed := C83_named hfull (at_titles (drawn w) hti) (fun es hes q hq => by
      obtain ⟨es', h1, rfl⟩ := List.mem_map.1 hes
      obtain ⟨q', h2, rfl⟩ := List.mem_map.1 hq
      exact at_titles (drawn w) (hti' es' h1 q' h2)) hr
    exact ⟨(a, work, s, outs), ⟨f0, g1⟩, ⟨t2 ▸ hA t b t1 t3 _ _ g2, answers hA hrest (g4.imp fun _ _ h => h.1)⟩, hk ▸ works_within g4 hnamed⟩
  obtain ⟨q, hq⟩ := Classical.axiom_of_choice h1
  refine ⟨fun w => (q w).1, fun w => (q w).2.1, fun w => (q w).2.2.1, fun w => (q w).2.2.2, fun w => ⟨(hq w).1, (hq w).2.1⟩, fun j => ?_⟩
  simp only [fullAll, Bool.and_eq_true] at hl
  have hc := fun x => onSides_levels ops ([], []) x
  have hc' := fun x => closed_levels (onSides ([], []) ops) x
  have hcount := nodup_slots hs
  have h0 : ∀ x, (levelsOf ([] : List (Item E))).count x = 0 := fun x => rfl
  simp only [h0] at hc
  have hmean := batches_depth_mean h63 l (items := closed (onSides ([], []) ops)) (slots_nodup fun x => by
    have := hc x; have := hc' x; have := hcount x; simp only [List.count_append] at *; omega) (fun k hk' => hk k (List.count_pos_iff.1 (by
    have := hc k; have := hc' k; have := List.count_pos_iff.2 hk'; simp only [List.count_append] at *; omega))) hl.2 j
  exact Nat.le_trans (Finset.sum_le_sum fun w _ => elim_le (hq w).2.2 j) hmean

/-- **C89, folds.** Batches of any edits, also across archive points, with levels that are random: for all `n` random numbers `w` the session of memoised folds
over the store does not panic and gives the folds of the lists, and after the batch with index `j` the function is called in the mean at most `2 * k + 1` times:
`k` is a number from the lists alone, for each edit `6 * log (m + 2) + 1` with `m` the number of archive points before, as often as the edit crosses archive
points and once more, and the number of archive points it adds. -/
theorem C89_fold [DecidableEq R] {c : Fun E R} (hassoc : ∀ x y z, c.bin (c.bin x y) z = c.bin x (c.bin y z)) {p : Name} {ops : List (LOp E)}
    {l : List (List (Nat × List (LOp E)))} (hn : (LOp.cells ops ++ batchCells l).Nodup) (hl : fullAll ops l = true) (hti : ∀ op ∈ ops, op.Titles)
    (hti' : ∀ es ∈ l, ∀ q ∈ es, ∀ op ∈ q.2, op.Titles) {n : Nat} (h63 : n ≤ 2 ^ 63) (hs : (LOp.slots ops ++ batchSlots l).Nodup)
    (hk : ∀ k ∈ LOp.slots ops ++ batchSlots l, k < n) (σ : RMem E Count) :
    ∃ (a : (Fin n → Fin (2 ^ 64)) → Option R) (work : (Fin n → Fin (2 ^ 64)) → Nat) (s : (Fin n → Fin (2 ^ 64)) → RTable E Count R)
      (outs : (Fin n → Fin (2 ^ 64)) → List (Option R × Nat × RTable E Count R)),
      (∀ w, (∃ f0, ∀ m, f0 ≤ m → (hrerunSession (M := Count) (refold c.fns p) Table.empty (ops.map (LOp.at (drawn w))) (l.map (editsAt (drawn w))) m σ).map (·.1) =
          .ok (a w, work w, s w, outs w)) ∧
        a w = fold1 c.bin ((elemsOf (closed (onSides ([], []) ops))).map c.init) ∧
        List.Forall₂ (fun (its : List (Item E)) (o : Option R × Nat × RTable E Count R) => o.1 = fold1 c.bin ((elemsOf its).map c.init))
          (stages (closed (onSides ([], []) ops)) l) (outs w)) ∧
      ∀ j : Nat, ∑ w, ((outs w)[j]?.elim 0 fun o => o.2.1) ≤ (2 ^ 64) ^ n * ((anyBounds (closed (onSides ([], []) ops)) l)[j]?.elim 0 fun k => 2 * k + 1) := by
  have key : ∀ t : RazTree E Count, t.Reachable .edit → t.tree.foldUpMeta (c.fns (M := Count)).up = .ok (fold1 c.bin (t.elems.map c.init)) := fun t hr =>
    C10_fold_up_edited_partial (Reach.mono (by simp [Usage.edit]) (by simp [Usage.edit]) hr) c.init c.bin hassoc
  refine mean_any (fold_reuses c.fns p) ⟨.start, fun _ => rfl⟩ (Ans := fun xs a _ => a = fold1 c.bin (xs.map c.init)) (fun t hr => ⟨_, key t hr⟩) ?_ hn hl hti hti'
    h63 hs hk σ
  rintro t b hr hb a s rfl
  simp only [key t hr, Except.ok.injEq] at hb
  exact hb.symm

/-- **C89, maps.** The same for `RazTree::map`: behind the handles are sequences with the mapped elements. -/
theorem C89_map [RazMeta F N] [DecidableEq F] [DecidableEq N] {f : E → F} {ops : List (LOp E)} {l : List (List (Nat × List (LOp E)))}
    (hn : (LOp.cells ops ++ batchCells l).Nodup) (hl : fullAll ops l = true) (hti : ∀ op ∈ ops, op.Titles)
    (hti' : ∀ es ∈ l, ∀ q ∈ es, ∀ op ∈ q.2, op.Titles) {n : Nat} (h63 : n ≤ 2 ^ 63) (hs : (LOp.slots ops ++ batchSlots l).Nodup)
    (hk : ∀ k ∈ LOp.slots ops ++ batchSlots l, k < n) (σ : RMem E Count) :
    ∃ (a : (Fin n → Fin (2 ^ 64)) → HTree N) (work : (Fin n → Fin (2 ^ 64)) → Nat) (s : (Fin n → Fin (2 ^ 64)) → RSpace E Count F N)
      (outs : (Fin n → Fin (2 ^ 64)) → List (HTree N × Nat × RSpace E Count F N)),
      (∀ w, (∃ f0, ∀ m, f0 ≤ m → (hrerunSession (M := Count) (countedMap f) Space.empty (ops.map (LOp.at (drawn w))) (l.map (editsAt (drawn w))) m σ).map (·.1) =
          .ok (a w, work w, s w, outs w)) ∧
        (∃ t : RazTree F N, Holds (s w).mem (a w) t ∧ t.elems = (elemsOf (closed (onSides ([], []) ops))).map f) ∧
        List.Forall₂ (fun (its : List (Item E)) (o : HTree N × Nat × RSpace E Count F N) => ∃ t : RazTree F N, Holds o.2.2.mem o.1 t ∧ t.elems = (elemsOf its).map f)
          (stages (closed (onSides ([], []) ops)) l) (outs w)) ∧
      ∀ j : Nat, ∑ w, ((outs w)[j]?.elim 0 fun o => o.2.1) ≤ (2 ^ 64) ^ n * ((anyBounds (closed (onSides ([], []) ops)) l)[j]?.elim 0 fun k => 2 * k + 1) := by
  refine mean_any (map_reuses f) .start (Ans := fun xs a (s : RSpace E Count F N) => ∃ t : RazTree F N, Holds s.mem a t ∧ t.elems = xs.map f)
    (fun t hr => (C15_map (N := N) hr f).imp fun _ h => h.1) ?_ hn hl hti hti' h63 hs hk σ
  intro t b hr hb a s h
  obtain ⟨t', h1, -, h3, -⟩ := C15_map (N := N) hr f
  simp only [h1, Except.ok.injEq] at hb
  subst hb
  exact ⟨t', h, h3⟩

/-- **C89, reverse and filter.** The same for the two example programs. -/
theorem C89_rebuild [RazMeta E N] [DecidableEq N] {c : Rebuild E} {ops : List (LOp E)} {l : List (List (Nat × List (LOp E)))}
    (hn : (LOp.cells ops ++ batchCells l).Nodup) (hl : fullAll ops l = true) (hti : ∀ op ∈ ops, op.Titles)
    (hti' : ∀ es ∈ l, ∀ q ∈ es, ∀ op ∈ q.2, op.Titles) {n : Nat} (h63 : n ≤ 2 ^ 63) (hs : (LOp.slots ops ++ batchSlots l).Nodup)
    (hk : ∀ k ∈ LOp.slots ops ++ batchSlots l, k < n) (σ : RMem E Count) :
    ∃ (a : (Fin n → Fin (2 ^ 64)) → Option (HTree N)) (work : (Fin n → Fin (2 ^ 64)) → Nat) (s : (Fin n → Fin (2 ^ 64)) → GSpace E Count N)
      (outs : (Fin n → Fin (2 ^ 64)) → List (Option (HTree N) × Nat × GSpace E Count N)),
      (∀ w, (∃ f0, ∀ m, f0 ≤ m → (hrerunSession (M := Count) (countedRebuild c) Space.empty (ops.map (LOp.at (drawn w))) (l.map (editsAt (drawn w))) m σ).map (·.1) =
          .ok (a w, work w, s w, outs w)) ∧
        (∃ x, ∃ t : RazTree E N, a w = some x ∧ Holds (s w).mem x t ∧ t.elems = c.list (elemsOf (closed (onSides ([], []) ops)))) ∧
        List.Forall₂ (fun (its : List (Item E)) (o : Option (HTree N) × Nat × GSpace E Count N) =>
            ∃ x, ∃ t : RazTree E N, o.1 = some x ∧ Holds o.2.2.mem x t ∧ t.elems = c.list (elemsOf its)) (stages (closed (onSides ([], []) ops)) l) (outs w)) ∧
      ∀ j : Nat, ∑ w, ((outs w)[j]?.elim 0 fun o => o.2.1) ≤ (2 ^ 64) ^ n * ((anyBounds (closed (onSides ([], []) ops)) l)[j]?.elim 0 fun k => 2 * k + 1) := by
  refine mean_any (rebuild_reuses c) .start (Ans := fun xs a (s : GSpace E Count N) => ∃ x, ∃ t : RazTree E N, a = some x ∧ Holds s.mem x t ∧ t.elems = c.list xs)
    (fun t hr => Heap.rebuild_ok (N := N) c hr.any) ?_ hn hl hti hti' h63 hs hk σ
  rintro t b hr hb a s ⟨x, y, rfl, rfl, h⟩
  refine ⟨x, y, rfl, h, ?_⟩
  simpa [RAns.read] using scratch_elems c hr.any hb

/-! ### A session that meets the conditions -/

/-- Two batches of edits across archive points, with archive points in slots 7 and 8. -/
def exCrossed : List (List (Nat × List (LOp Nat))) :=
  [[(5, [.popL, .popL, .popL, .pushL 10])], [(2, [.popL]), (3, [.popR, .popR, .archL 7 (some (.usize 8)), .pushR 20, .archL 8 (some (.usize 9))])]]

set_option synthInstance.maxSize 1000 in
/-- The conditions of `C89_fold`, `C89_map` and `C89_rebuild`, with 9 slots; the lists, and the numbers `k`. The session is not one of C84. -/
example : (LOp.cells exSlotted ++ batchCells exCrossed).Nodup ∧ fullAll exSlotted exCrossed = true ∧ (∀ op ∈ exSlotted, op.Titles) ∧
    (∀ es ∈ exCrossed, ∀ q ∈ es, ∀ op ∈ q.2, op.Titles) ∧ (LOp.slots exSlotted ++ batchSlots exCrossed).Nodup ∧
    (∀ k ∈ LOp.slots exSlotted ++ batchSlots exCrossed, k < 9) ∧ localAll exSlotted exCrossed = false ∧
    (stages (closed (onSides ([], []) exSlotted)) exCrossed).map elemsOf = [[1, 2, 10, 6, 7, 8], [1, 10, 6, 20]] ∧
    anyBounds (closed (onSides ([], []) exSlotted)) exCrossed = [75, 97] := by
  refine ⟨by decide +kernel, by decide +kernel, ?_, ?_, by decide +kernel, by decide +kernel, by decide +kernel, by decide +kernel, by decide +kernel⟩
  · simp [exSlotted, LOp.Titles]
  · intro es h1 q h2
    simp only [exCrossed, List.mem_cons, List.not_mem_nil, or_false] at h1
    rcases h1 with rfl | rfl <;> simp only [List.mem_cons, List.not_mem_nil, or_false] at h2
    · subst h2; simp [LOp.Titles]
    · rcases h2 with rfl | rfl <;> simp [LOp.Titles]

/-- The work of the folds with the random numbers 0, 1, 2, …. -/
example : (hrerunSession (M := Count) (refold sumF.fns .unit) Table.empty (exSlotted.map (LOp.at (drawn (n := 9) fun k => ⟨k.1, by omega⟩)))
    (exCrossed.map (editsAt (drawn (n := 9) fun k => ⟨k.1, by omega⟩))) 99 Store.empty).map (fun x => (x.1.1, x.1.2.1, x.1.2.2.2.map fun o => (o.1, o.2.1))) =
    .ok (some 36, 15, [(some 34, 4), (some 37, 6)]) := by
  decide +kernel

end Iodyn.Incr
