import Verif.Proof.MeanSeen
import Verif.Proof.MeanList
import Verif.Props.HeapSession
/-
C84 the mean work of memoised computations between edits, over all random levels.
-/
namespace Iodyn

theorem onSide_tidy {E : Type} (op : LOp E) {s : List (Item E) × List (Item E)} (h : Tidy s.1 ∧ Tidy s.2) : Tidy (op.onSides s).1 ∧ Tidy (op.onSides s).2 := by
  cases op with
  | pushL x => exact h
  | pushR x => exact h
  | archL lev nm => exact ⟨archiveSide_tidy h.1 lev nm, h.2⟩
  | archR lev nm => exact ⟨h.1, archiveSide_tidy h.2 lev nm⟩
  | popL => exact ⟨popSide_tidy h.1, h.2⟩
  | popR => exact ⟨h.1, popSide_tidy h.2⟩

theorem onSides_tidy {E : Type} : ∀ (ops : List (LOp E)) {s : List (Item E) × List (Item E)}, Tidy s.1 ∧ Tidy s.2 → Tidy (onSides s ops).1 ∧ Tidy (onSides s ops).2
  | [], _, h => h
  | op :: l, _, h => onSides_tidy l (onSide_tidy op h)

theorem closed_tidy {E : Type} {s : List (Item E) × List (Item E)} (h : Tidy s.1 ∧ Tidy s.2) : TidySeq (closed s) := (glue_tidy h.1 h.2).settle

/-! ### Slots -/

theorem nodup_slots {a : List Nat} (h : a.Nodup) (x : Nat) : a.count x ≤ 1 := List.nodup_iff_count_le_one.1 h x
theorem slots_nodup {a : List Nat} (h : ∀ x, a.count x ≤ 1) : a.Nodup := List.nodup_iff_count_le_one.2 h

section
variable {E : Type}

theorem settle_levels (l : List (Item E)) : levelsOf (l.map Item.settle) = levelsOf l := by
  induction l with
  | nil => rfl
  | cons i l ih => cases i <;> simp_all [levelsOf, marksOf, Item.settle]

theorem levelsOf_cons (i : Item E) (l : List (Item E)) : levelsOf (i :: l) = levelsOf [i] ++ levelsOf l := levelsOf_append [i] l

theorem glue_levels (l r : List (Item E)) (x : Nat) : (levelsOf (glue l r)).count x ≤ (levelsOf l).count x + (levelsOf r).count x := by
  unfold glue
  split
  · exact Nat.zero_le _
  · split
    · rw [levelsOf_cons, List.count_append]; omega
    · exact Nat.le_add_left _ _
  · split
    · rw [levelsOf_cons, levelsOf_reverse, List.count_reverse, List.count_append]; omega
    · rw [levelsOf_reverse, List.count_reverse]; exact Nat.le_add_right _ _
  · rename_i i l j r
    have h1 := levelsOf_cons i l
    have h2 := levelsOf_cons j r
    split
    · split <;> simp only [h1, h2, levelsOf_append, levelsOf_reverse, List.count_append, List.count_reverse] <;> omega
    · simp only [h1, h2, levelsOf_append, levelsOf_reverse, List.count_append, List.count_reverse]; omega

theorem pop_levels (l : List (Item E)) (x : Nat) : (levelsOf (popSide l).2).count x ≤ (levelsOf l).count x := by
  unfold popSide
  split
  · exact Nat.le_refl _
  · rw [levelsOf_cons (.elem _), List.count_append]; exact Nat.le_add_left _ _
  · rename_i i e r _
    rw [levelsOf_cons i, levelsOf_cons (.elem e), List.count_append, List.count_append]
    show (levelsOf r).count x ≤ _
    omega
  · rename_i i r _ _
    rw [levelsOf_cons i, List.count_append]; exact Nat.le_add_left _ _

theorem archive_levels (k : Nat) (nm) (l : List (Item E)) (x : Nat) : (levelsOf (archiveSide k nm l)).count x ≤ [k].count x + (levelsOf l).count x := by
  unfold archiveSide
  split
  · rw [levelsOf_cons (.pend k nm), List.count_append]; rfl
  · exact Nat.le_add_left _ _

theorem onSides_levels : ∀ (ops : List (LOp E)) (s : List (Item E) × List (Item E)) (x : Nat),
    (levelsOf (onSides s ops).1).count x + (levelsOf (onSides s ops).2).count x ≤ (levelsOf s.1).count x + (levelsOf s.2).count x + (LOp.slots ops).count x
  | [], s, x => Nat.le_refl _
  | op :: l, s, x => by
    have h := onSides_levels l (op.onSides s) x
    simp only [onSides]
    cases op with
    | pushL e =>
      simp only [LOp.onSides, LOp.slots] at h ⊢
      rw [levelsOf_cons (.elem e), List.count_append] at h
      have : (levelsOf [Item.elem e]).count x = 0 := rfl
      omega
    | pushR e =>
      simp only [LOp.onSides, LOp.slots] at h ⊢
      rw [levelsOf_cons (.elem e), List.count_append] at h
      have : (levelsOf [Item.elem e]).count x = 0 := rfl
      omega
    | archL k nm =>
      have := archive_levels k nm s.1 x
      simp only [LOp.onSides, LOp.slots] at h ⊢
      rw [show k :: LOp.slots l = [k] ++ LOp.slots l from rfl, List.count_append]
      omega
    | archR k nm =>
      have := archive_levels k nm s.2 x
      simp only [LOp.onSides, LOp.slots] at h ⊢
      rw [show k :: LOp.slots l = [k] ++ LOp.slots l from rfl, List.count_append]
      omega
    | popL =>
      have := pop_levels s.1 x
      simp only [LOp.onSides, LOp.slots] at h ⊢
      omega
    | popR =>
      have := pop_levels s.2 x
      simp only [LOp.onSides, LOp.slots] at h ⊢
      omega

theorem closed_levels (s : List (Item E) × List (Item E)) (x : Nat) : (levelsOf (closed s)).count x ≤ (levelsOf s.1).count x + (levelsOf s.2).count x := by
  unfold closed
  rw [settle_levels]
  exact glue_levels _ _ x

theorem cut_levels {i : Nat} {l : List (Item E)} (h : i ≤ (elemsOf l).length) (x : Nat) :
    (levelsOf (cutAt i l).1).count x + (levelsOf (cutAt i l).2).count x = (levelsOf l).count x := by
  have := congrArg (fun l => (levelsOf l).count x) (cutAt_append l i h)
  simpa [levelsOf_append, levelsOf_reverse, List.count_append] using this

theorem edit_levels {i : Nat} {l : List (Item E)} (h : i ≤ (elemsOf l).length) (ops : List (LOp E)) (x : Nat) :
    (levelsOf (editList i ops l)).count x ≤ (levelsOf l).count x + (LOp.slots ops).count x := by
  have h1 := closed_levels (onSides (cutAt i l) ops) x
  have h2 := onSides_levels ops (cutAt i l) x
  have h3 := cut_levels h x
  unfold editList
  omega

/-! ### The mean of the path -/

theorem drawn_one {n : Nat} (w : Fin n → Fin (2 ^ 64)) (k : Nat) : 1 ≤ drawn w k := by
  unfold drawn
  split
  · exact (C29_level_range _).1
  · exact Nat.le_refl _

theorem slots_mean {n m : Nat} (hm : m ≤ 63) {s : List Nat} (hs : s.Nodup) (hn : ∀ k ∈ s, k < n) (hk : s.length ≤ 2 ^ m) :
    ∑ w : Fin n → Fin (2 ^ 64), seenLe [] (s.map (drawn w)) ≤ (2 ^ 64) ^ n * (m + 1) := by
  obtain ⟨J, rfl⟩ : ∃ J : List (Fin n), J.map Fin.val = s := ⟨s.attach.map fun k => ⟨k.1, hn k.1 k.2⟩, by simp⟩
  have h := level_mean (J := J) (hs.of_map _) hm (by simpa using hk)
  refine Nat.le_trans (Nat.le_of_eq (Finset.sum_congr rfl fun w _ => ?_)) h
  rw [List.map_map]
  refine congrArg _ (List.map_congr_left fun k _ => ?_)
  show drawn w k.val = levelOf (w k)
  unfold drawn
  rw [dif_pos k.isLt]
  rfl

theorem path_mean {n : Nat} (h63 : n ≤ 2 ^ 63) {l : List (Item E)} (hs : (levelsOf l).Nodup) (hn : ∀ k ∈ levelsOf l, k < n) {i : Nat}
    (hi : i ≤ (elemsOf l).length) :
    ∑ w : Fin n → Fin (2 ^ 64), pathAt i (l.map (Item.at (drawn w))) ≤ (2 ^ 64) ^ n * (2 * (Nat.clog 2 (marksOf l).length + 1)) := by
  have hlen : (levelsOf l).length = (marksOf l).length := by simp [levelsOf]
  have hle : (levelsOf l).length ≤ n := by
    have h1 : (levelsOf l) ⊆ List.range n := fun k hk => List.mem_range.2 (hn k hk)
    simpa using (List.subperm_of_subset hs h1).length_le
  have hm : Nat.clog 2 (marksOf l).length ≤ 63 := Nat.clog_le_of_le_pow (by omega)
  have hpow : (marksOf l).length ≤ 2 ^ Nat.clog 2 (marksOf l).length := Nat.le_pow_clog (by decide) _
  have hc := fun x => cut_levels hi x
  have h1 : (levelsOf (cutAt i l).1).Nodup := slots_nodup fun x => by have := hc x; have := nodup_slots hs x; omega
  have h2 : (levelsOf (cutAt i l).2).Nodup := slots_nodup fun x => by have := hc x; have := nodup_slots hs x; omega
  have e := congrArg (fun l => (levelsOf l).length) (cutAt_append l i hi)
  simp only [levelsOf_append, levelsOf_reverse, List.length_append, List.length_reverse] at e
  have hmem : ∀ k, k ∈ levelsOf (cutAt i l).1 ∨ k ∈ levelsOf (cutAt i l).2 → k < n := fun k hk => by
    refine hn k (List.count_pos_iff.1 ?_)
    rw [← hc k]
    rcases hk with hk | hk
    · have := List.count_pos_iff.2 hk; omega
    · have := List.count_pos_iff.2 hk; omega
  have m1 := slots_mean hm h1 (fun k hk => hmem k (.inl hk)) (by omega)
  have m2 := slots_mean hm h2 (fun k hk => hmem k (.inr hk)) (by omega)
  refine Nat.le_trans (Finset.sum_le_sum (g := fun w => seenLe [] ((levelsOf (cutAt i l).1).map (drawn w)) + seenLe [] ((levelsOf (cutAt i l).2).map (drawn w)))
    fun w _ => ?_) ?_
  · unfold pathAt
    rw [at_cut, at_levels, at_levels]
    exact Nat.add_le_add_left (seenLt_le _ _) _
  · rw [Finset.sum_add_distrib, show 2 * (Nat.clog 2 (marksOf l).length + 1) = (Nat.clog 2 (marksOf l).length + 1) + (Nat.clog 2 (marksOf l).length + 1) by omega,
      Nat.mul_add]
    exact Nat.add_le_add m1 m2

/-- What the edits of a batch cost with given levels: the paths to their places and the archive points that they add. -/
def pathEdits (f : Nat → Nat) (items : List (Item E)) : List (Nat × List (LOp E)) → Nat
  | [] => 0
  | (i, ops) :: l => pathAt i (items.map (Item.at f)) + LOp.points ops + pathEdits f (editList i ops items) l

/-- The same for all batches. -/
def pathBatches (f : Nat → Nat) (items : List (Item E)) : List (List (Nat × List (LOp E))) → List Nat
  | [] => []
  | es :: l => pathEdits f items es :: pathBatches f (editLists items es) l

/-- The slots of a batch. -/
def restSlots (l : List (Nat × List (LOp E))) : List Nat := l.flatMap fun q => LOp.slots q.2

theorem edits_mean {n : Nat} (h63 : n ≤ 2 ^ 63) : ∀ (l : List (Nat × List (LOp E))) {items : List (Item E)}, (levelsOf items ++ restSlots l).Nodup →
    (∀ k ∈ levelsOf items ++ restSlots l, k < n) → localList items l = true →
    (∑ w : Fin n → Fin (2 ^ 64), pathEdits (drawn w) items l ≤ (2 ^ 64) ^ n * logBound items l) ∧
      ∀ x, (levelsOf (editLists items l)).count x ≤ (levelsOf items ++ restSlots l).count x
  | [], items, hs, hn, hl => by simp [pathEdits, editLists, restSlots]
  | (i, ops) :: l, items, hs, hn, hl => by
    simp only [localList, Bool.and_eq_true, decide_eq_true_eq] at hl
    obtain ⟨⟨⟨hi, -⟩, -⟩, hl⟩ := hl
    have he := edit_levels hi ops
    have hc := nodup_slots hs
    simp only [restSlots, List.flatMap_cons, List.count_append] at hc
    have hs' : (levelsOf (editList i ops items) ++ restSlots l).Nodup := slots_nodup fun x => by
      have := hc x; have := he x; simp only [restSlots, List.count_append] at *; omega
    have hn' : ∀ k ∈ levelsOf (editList i ops items) ++ restSlots l, k < n := fun k hk => by
      refine hn k (List.count_pos_iff.1 ?_)
      have h1 := List.count_pos_iff.2 hk
      have := he k
      simp only [restSlots, List.flatMap_cons, List.count_append] at *
      omega
    obtain ⟨ih1, ih2⟩ := edits_mean h63 l hs' hn' hl
    have hp := path_mean h63 (List.Nodup.of_append_left hs) (fun k hk => hn k (List.mem_append_left _ hk)) hi
    refine ⟨?_, fun x => ?_⟩
    · simp only [pathEdits, logBound]
      rw [Finset.sum_add_distrib, Finset.sum_add_distrib, Nat.mul_add, Nat.mul_add]
      refine Nat.add_le_add (Nat.add_le_add hp (Nat.le_of_eq ?_)) ih1
      rw [Finset.sum_const, Finset.card_univ, Fintype.card_fun, Fintype.card_fin, Fintype.card_fin]
      rfl
    · have := ih2 x
      have := he x
      simp only [editLists, restSlots, List.flatMap_cons, List.count_append] at *
      omega

theorem batches_mean {n : Nat} (h63 : n ≤ 2 ^ 63) : ∀ (l : List (List (Nat × List (LOp E)))) {items : List (Item E)}, (levelsOf items ++ batchSlots l).Nodup →
    (∀ k ∈ levelsOf items ++ batchSlots l, k < n) → localLists items l = true → ∀ j : Nat,
    (∑ w : Fin n → Fin (2 ^ 64), ((pathBatches (drawn w) items l)[j]?.elim 0 fun k => 2 * k + 1)) ≤
      (2 ^ 64) ^ n * ((logBounds items l)[j]?.elim 0 fun k => 2 * k + 1)
  | [], items, hs, hn, hl, j => by simp [pathBatches, logBounds]
  | es :: l, items, hs, hn, hl, j => by
    simp only [localLists, Bool.and_eq_true] at hl
    have hb : batchSlots (es :: l) = restSlots es ++ batchSlots l := rfl
    rw [hb] at hs hn
    have hc := nodup_slots hs
    simp only [List.count_append] at hc
    obtain ⟨h1, h2⟩ := edits_mean h63 es (items := items) (slots_nodup fun x => by have := hc x; simp only [List.count_append]; omega)
      (fun k hk => hn k (by simp only [List.mem_append] at hk ⊢; tauto)) hl.1
    cases j with
    | zero =>
      simp only [pathBatches, logBounds, List.getElem?_cons_zero, Option.elim_some]
      rw [Finset.sum_add_distrib, ← Finset.mul_sum, Nat.mul_add, Nat.mul_left_comm]
      refine Nat.add_le_add (Nat.mul_le_mul_left _ h1) (Nat.le_of_eq ?_)
      rw [Finset.sum_const, Finset.card_univ, Fintype.card_fun, Fintype.card_fin, Fintype.card_fin]
      rfl
    | succ j =>
      simp only [pathBatches, logBounds, List.getElem?_cons_succ]
      refine batches_mean h63 l (slots_nodup fun x => ?_) (fun k hk => hn k (List.count_pos_iff.1 ?_)) hl.2 j
      · have := hc x; have := h2 x; simp only [List.count_append] at *; omega
      · have := List.count_pos_iff.2 hk; have := h2 k; simp only [List.count_append] at *; omega

end
end Iodyn

namespace Iodyn.Incr
open Iodyn.Heap
variable {E F N A B Sp R : Type} {f : Nat → Nat}

/-- A tree and the list that it stands for, with the levels given by `f`. -/
structure Stands (f : Nat → Nat) (t : RazTree E Count) (items : List (Item E)) : Prop where
  inv : TInv t
  canon : Canon t.tree
  full : t.tree ≠ .nil
  eq : t.items = items.map (Item.at f)
  tidy : TidySeq t.items

/-- An edit of a tree and of the list. -/
theorem stands_edit (hf : ∀ k, 1 ≤ f k) {t : RazTree E Count} {items : List (Item E)} (h : Stands f t items) {i : Nat} {ops : List (LOp E)}
    (hi : i ≤ (elemsOf items).length) (hm : i < usizeMax) (hl : localSides (cutAt i items) ops = true) :
    ∃ z t', t.focus i = .ok (some z) ∧ z.Local (ops.map (LOp.at f)) ∧ t.edit i (ops.map (LOp.at f)) = .ok t' ∧
      z.lForest.lForest.length + z.rForest.rForest.length = pathAt i (items.map (Item.at f)) ∧ TInv t' ∧
      t'.items = (editList i ops items).map (Item.at f) ∧ TidySeq t'.items := by
  have hwf : WF t.tree := h.inv.wf.resolve_left h.full
  obtain ⟨z, e1, e2, e3⟩ := focus_cut hwf h.tidy (i := i) (by rw [RazTree.elems, h.eq, at_elems]; exact hi) hm
  obtain ⟨k1, k2, -⟩ := focus_ok h.inv.wf e1
  have hsides : (z.left, z.right) = sidesAt f (cutAt i items) := by rw [e2, e3, h.eq, at_cut]; rfl
  have hlift := at_lifts f hf ops
  have hloc : z.Local (ops.map (LOp.at f)) := local_sides k1 hlift (by rw [hsides, at_local]; exact hl)
  obtain ⟨z', f1, f2, f3⟩ := lops_sides k1 hlift
  obtain ⟨t', g1, g2, g3⟩ := unfocus_closed f2
  have hti : t'.items = (editList i ops items).map (Item.at f) := by
    rw [g3, f3, hsides, at_onSides, at_closed]
    rfl
  refine ⟨z, t', e1, hloc, ?_, ?_, g2, hti, ?_⟩
  · exact bind_ok.2 ⟨some z, e1, bind_ok.2 ⟨z, rfl, bind_ok.2 ⟨z', f1, g1⟩⟩⟩
  · rw [focus_seen h.inv.wf h.canon e1, e2, e3, h.eq]
    rfl
  · rw [g3]
    have ht := h.tidy.split k2
    exact closed_tidy (by rw [f3]; exact onSides_tidy _ ht)

variable [DecidableEq E]

theorem stands_moves (hf : ∀ k, 1 ≤ f k) : ∀ (l : List (Nat × List (LOp E))) {σ : RMem E Count} {ht : HTree Count} {t : RazTree E Count} {items : List (Item E)},
    RepRT .dcg σ ht t → Stands f t items → (tN .dcg t.tree ++ restCells l).Nodup → localList items l = true → (∀ q ∈ l, ∀ op ∈ q.2, op.Titles) → TreeTitled t →
    ∃ t' k ht' σ', t.edits (editsAt f l) = .ok (t', k) ∧ Runs (ht.edits .dcg (editsAt f l)) σ ht' σ' ∧
      Moved σ ht t σ' ht' t' (restCells l) (pathEdits f items l) ∧ Stands f t' (editLists items l) ∧ TreeTitled t'
  | [], σ, ht, t, items, hr, hs, hn, hl, hti, htt => by
    refine ⟨t, 0, ht, σ, rfl, .pure, ⟨hr, hs.inv, hs.canon, hs.full, fun x => by simp [restCells], ?_⟩, hs, htt⟩
    intro v v' h1 h2 h3 h4
    rw [View.unique h1 h3]
    exact ⟨[], Nat.le_refl _, fun lv n d l r hw _ => hw⟩
  | (i, ops) :: l, σ, ht, t, items, hr, hs, hn, hl, hti, htt => by
    simp only [localList, Bool.and_eq_true, decide_eq_true_eq] at hl
    obtain ⟨⟨⟨hi, hm⟩, hl1⟩, hl⟩ := hl
    obtain ⟨z, t1, e1, e2, e3, e4, e5, e6, e7⟩ := stands_edit hf hs hi hm hl1
    have hcount := nodup_count hn
    simp only [restCells, List.flatMap_cons, List.count_append] at hcount
    obtain ⟨ht1, σ1, a1, a2, z', e1', S, a3⟩ := sim_runs (edit_path_sim hr hs.inv hs.canon (fun z0 hz0 => by
      rw [e1] at hz0; cases hz0; exact e2) (count_nodup fun x => by
      have := hcount x; simp only [at_cells, List.count_append]; omega)) e3
    have hzz : z = z' := by
      have := e1.symm.trans e1'
      simp only [Except.ok.injEq, Option.some.injEq] at this
      exact this
    subst hzz
    have hsub := a3.names
    rw [at_cells] at hsub
    have htt1 := titled_edit htt (at_titles f (hti _ List.mem_cons_self)) (at_lifts f hf ops) e3
    obtain ⟨t2, k, ht2, σ2, b0, b1, b2, b3, b4⟩ := stands_moves hf l a2 ⟨a3.inv, a3.canon, a3.full, e6, e7⟩ (count_nodup fun x => by
      have := hcount x
      have := hsub x
      simp only [List.count_append, restCells] at *
      omega) hl (fun q hq => hti q (List.mem_cons_of_mem _ hq)) htt1
    refine ⟨t2, _, ht2, σ2, bind_ok.2 ⟨t1, e3, bind_ok.2 ⟨(t2, k), b0, rfl⟩⟩, a1.bind b1, ⟨b2.rep, b2.inv, b2.canon, b2.full, fun x => ?_, ?_⟩, b3, b4⟩
    · have := hsub x
      have := b2.names x
      simp only [List.count_append, restCells, List.flatMap_cons] at *
      omega
    · intro v v2 h1 h2 h3 h4
      obtain ⟨v1, c1, c2, -⟩ := view_exists a2.tree
      obtain ⟨S', d1, d2⟩ := b2.shared c1 c2 h3 h4
      refine ⟨S ++ S', ?_, (edited_shared a3 hr a2 h1 h2 c1 c2).trans d2⟩
      have := a3.len
      rw [e4, at_points] at this
      simp only [List.length_append, pathEdits]
      omega

theorem stands_between (hf : ∀ k, 1 ≤ f k) {run : HTree Count → Sp → HR E Count (A × Nat × Sp)} {val : RazTree E Count → P B} {Rel : B → A → Sp → Prop}
    {Hist : Sp → List (Tree (Tr × TreeData E Count)) → Prop} (hR : Reuses run val Rel Hist) : ∀ (l : List (List (Nat × List (LOp E))))
    {σ : RMem E Count} {ht : HTree Count} {t : RazTree E Count} {items : List (Item E)} {s : Sp} {v : Tree (Tr × TreeData E Count)}
    {vs : List (Tree (Tr × TreeData E Count))} {rest}, Between Hist σ ht t s v vs (batchCells l) → Stands f t items → localLists items l = true →
    (∀ es ∈ l, ∀ q ∈ es, ∀ op ∈ q.2, op.Titles) → TreeTitled t → t.reruns val (l.map (editsAt f)) = .ok rest →
    ∃ outs σ', Runs (ht.reruns run s (l.map (editsAt f))) σ outs σ' ∧
      List.Forall₂ (fun (q : B × Nat × Nat) (o : A × Nat × Sp) => Rel q.1 o.1 o.2.2) rest outs ∧
      List.Forall₂ (fun (k : Nat) (o : A × Nat × Sp) => o.2.1 ≤ 2 * k + 1) (pathBatches f items l) outs := by
  intro l
  induction l with
  | nil =>
    intro σ ht t items s v vs rest g hs hl hti htt hr
    cases hr
    exact ⟨[], σ, .pure, .nil, .nil⟩
  | cons es l ih =>
    intro σ ht t items s v vs rest g hs hl hti htt hr
    simp only [localLists, Bool.and_eq_true] at hl
    have g' : Between Hist σ ht t s v vs (restCells es ++ batchCells l) := g
    have hc := nodup_count g'.nodup
    simp only [List.count_append] at hc
    obtain ⟨t', k, ht', σ', b0, b1, b2, b3, b4⟩ := stands_moves hf es g.rep hs (count_nodup fun x => by
      have := hc x; simp only [List.count_append]; omega) hl.1 (hti _ List.mem_cons_self) htt
    simp only [List.map_cons] at hr
    unfold RazTree.reruns at hr
    obtain ⟨⟨t2, k2⟩, e1, hr⟩ := bind_ok.1 hr
    rw [b0] at e1
    cases e1
    obtain ⟨b, e2, hr⟩ := bind_ok.1 hr
    obtain ⟨rest', e3, hfin⟩ := bind_ok.1 hr
    cases hfin
    obtain ⟨a, w, s', v', c1, c2, c3, c4⟩ := between_moved hR g' b2 e2
    obtain ⟨outs, σ'', c5, c6, c7⟩ := ih c4 b3 hl.2 (fun q hq => hti q (List.mem_cons_of_mem _ hq)) b4 e3
    refine ⟨(a, w, s') :: outs, σ'', b1.bind (c1.bind (c5.bind .pure)), .cons c2 c6, .cons ?_ c7⟩
    exact Nat.le_trans c3 (Nat.le_trans (Nat.mul_le_mul_left _ b4.gap) (Nat.le_of_eq (Nat.mul_one _)))

theorem stands_session (hf : ∀ k, 1 ≤ f k) {run : HTree Count → Sp → HR E Count (A × Nat × Sp)} {val : RazTree E Count → P B} {Rel : B → A → Sp → Prop}
    {Hist : Sp → List (Tree (Tr × TreeData E Count)) → Prop} (hR : Reuses run val Rel Hist) {new : Sp} (hnew : Hist new []) {ops : List (LOp E)}
    {l : List (List (Nat × List (LOp E)))} (hn : (LOp.cells ops ++ batchCells l).Nodup) (hl : localAll ops l = true) (hti : ∀ op ∈ ops, op.Titles)
    (hti' : ∀ es ∈ l, ∀ q ∈ es, ∀ op ∈ q.2, op.Titles) {b : B} {size : Nat} {rest : List (B × Nat × Nat)}
    (hr : rerunSession (M := Count) val (ops.map (LOp.at f)) (l.map (editsAt f)) = .ok (b, size, rest)) (σ : RMem E Count) :
    ∃ a work s outs f0, (∀ n, f0 ≤ n → (hrerunSession (M := Count) run new (ops.map (LOp.at f)) (l.map (editsAt f)) n σ).map (·.1) = .ok (a, work, s, outs)) ∧
      Rel b a s ∧ List.Forall₂ (fun (q : B × Nat × Nat) (o : A × Nat × Sp) => Rel q.1 o.1 o.2.2) rest outs ∧
      List.Forall₂ (fun (k : Nat) (o : A × Nat × Sp) => o.2.1 ≤ 2 * k + 1) (pathBatches f (closed (onSides ([], []) ops)) l) outs := by
  unfold rerunSession at hr
  obtain ⟨z, e1, hr⟩ := bind_ok.1 hr
  obtain ⟨t, e2, hr⟩ := bind_ok.1 hr
  obtain ⟨x, e3, hr⟩ := bind_ok.1 hr
  obtain ⟨rest', e4, hfin⟩ := bind_ok.1 hr
  cases hfin
  simp only [localAll, Bool.and_eq_true] at hl
  have hlift := at_lifts f hf ops
  have hsides : ((Raz.new : Raz E Count).left, (Raz.new : Raz E Count).right) = sidesAt f ([], []) := rfl
  have hloc : (Raz.new : Raz E Count).Local (ops.map (LOp.at f)) := local_sides ZInv.empty hlift (by rw [hsides, at_local]; exact hl.1)
  obtain ⟨z', f1, f2, f3⟩ := lops_sides (z := (Raz.new : Raz E Count)) ZInv.empty hlift
  rw [f1] at e1
  cases e1
  obtain ⟨t2, g1, g2, g3⟩ := unfocus_closed f2
  rw [g1] at e2
  cases e2
  have hti2 : t.items = (closed (onSides ([], []) ops)).map (Item.at f) := by rw [g3, f3, hsides, at_onSides, at_closed]
  have htidy : TidySeq t.items := by
    rw [g3, f3]
    exact closed_tidy (onSides_tidy _ ⟨trivial, trivial⟩)
  have hc := nodup_count hn
  simp only [List.count_append] at hc
  have start : LInvs (Raz.new : Raz E Count) (Raz.new : Raz E Count) [] 0 := ⟨ZInv.empty, ZC.empty, rfl, rfl, fun x => Nat.le_refl _, Nat.le_refl _⟩
  have hz : ∀ x, (cN .dcg (Raz.new : Raz E Count).lForest ++ cN .dcg (Raz.new : Raz E Count).rForest).count x = 0 := fun x => rfl
  have hnd : (cN .dcg (Raz.new : Raz E Count).lForest ++ cN .dcg (Raz.new : Raz E Count).rForest ++ LOp.cells (ops.map (LOp.at f))).Nodup := count_nodup fun x => by
    have := hc x
    rw [List.count_append, hz, at_cells]
    omega
  obtain ⟨hz', σ1, k1, k2, k3, k4, -⟩ := sim_runs (lops_sim (σ := σ) _ start hloc RepZ.empty hnd) f1
  obtain ⟨ht, σ2, k5, k6, k7, k8, k9, k10, -⟩ := sim_runs (close_sim k3 k4 k2 hnd) g1
  obtain ⟨v, a1, a2, a3⟩ := view_exists k6.tree
  have hn' : (tN .dcg t.tree ++ batchCells l).Nodup := count_nodup fun x => by
    have := hc x
    have h1 := k10 x
    rw [List.count_append, hz] at h1
    simp only [List.nil_append, at_cells] at h1
    rw [List.count_append]
    omega
  have hnv : (nodeNames v).Nodup := by rw [a3]; exact names_nodup (List.Nodup.of_append_left hn')
  have h0 : AllTitled (Raz.new : Raz E Count) := ⟨ZInv.empty, fun i hi => (by cases hi), fun i hi => (by cases hi)⟩
  have htt := titled_unfocus (titled_lops h0 (at_titles f hti) hlift f1) g1
  obtain ⟨a, w, s, c1, c2, c3, c4, -⟩ := hR.step hnew trivial a1 a2 k9 hnv e3
  obtain ⟨outs, σ3, g1, g2, g3⟩ := stands_between hf hR l ⟨k6, k7, k8, k9, a1, a2, c3, hn', fun w hw => by cases hw⟩ ⟨k7, k8, k9, hti2, htidy⟩ hl.2 hti' htt e4
  obtain ⟨f0, hrun⟩ : Runs (hrerunSession (M := Count) run new (ops.map (LOp.at f)) (l.map (editsAt f))) σ (a, w, s, outs) σ3 :=
    k1.bind (k5.bind (c1.bind (g1.bind .pure)))
  exact ⟨a, w, s, outs, f0, fun n hn => by rw [hrun n hn]; rfl, c2, g2, g3⟩

/-! ### All sessions end -/

omit [DecidableEq E] in
theorem reach_lops {M : Type} {u : Usage} [RazMeta E M] : ∀ {ops : List (LOp E)} {z z' : Raz E M}, z.Reachable u → (∀ op ∈ ops, op.Lifts) → z.lops ops = .ok z' → z'.Reachable u
  | [], z, z', h, _, ho => by cases ho; exact h
  | op :: l, z, z', h, hl, ho => by
    obtain ⟨z1, h1, ho⟩ := bind_ok.1 ho
    refine reach_lops ?_ (fun o ho => hl o (List.mem_cons_of_mem _ ho)) ho
    have hl1 := hl op List.mem_cons_self
    cases op with
    | pushL x => cases h1; exact .pushL x h
    | pushR x => cases h1; exact .pushR x h
    | archL lev nm => cases h1; exact .archL nm hl1 h
    | archR lev nm => cases h1; exact .archR nm hl1 h
    | popL =>
      obtain ⟨⟨z2, e⟩, h2, hfin⟩ := bind_ok.1 h1
      cases hfin
      exact .popL h h2
    | popR =>
      obtain ⟨⟨z2, e⟩, h2, hfin⟩ := bind_ok.1 h1
      cases hfin
      exact .popR h h2

omit [DecidableEq E] in
theorem reach_edit {M : Type} {u : Usage} [RazMeta E M] [LawfulMeta E M] {t t' : RazTree E M} (h : t.Reachable u) {i : RazMeta.Index E M} {ops : List (LOp E)}
    (hl : ∀ op ∈ ops, op.Lifts) (he : t.edit i ops = .ok t') : t'.Reachable u := by
  obtain ⟨o, e1, he⟩ := bind_ok.1 he
  obtain ⟨z, e2, he⟩ := bind_ok.1 he
  obtain ⟨z', e3, e4⟩ := bind_ok.1 he
  cases o with
  | none => cases e2
  | some z0 =>
    cases e2
    exact .unfocus (reach_lops (.focus h e1) hl e3) e4

omit [DecidableEq E] in
theorem full_of_local {s : List (Item E) × List (Item E)} (h : atHand s.1 = true ∨ atHand s.2 = true) (ht : Tidy s.1 ∧ Tidy s.2) : elemsOf (closed s) ≠ [] := by
  unfold closed
  rw [elemsOf_settle, glue_elems]
  intro hn
  simp only [List.append_eq_nil_iff, List.reverse_eq_nil_iff] at hn
  rcases h with h | h
  · rw [tidy_nil_of_elems ht.1 hn.1] at h
    cases h
  · rw [tidy_nil_of_elems ht.2 hn.2] at h
    cases h

omit [DecidableEq E] in
theorem local_end : ∀ {ops : List (LOp E)} {s : List (Item E) × List (Item E)}, localSides s ops = true → atHand (onSides s ops).1 = true ∨ atHand (onSides s ops).2 = true
  | [], s, h => by
    simp only [localSides, Bool.or_eq_true] at h
    exact h
  | op :: l, s, h => by
    simp only [localSides, Bool.and_eq_true] at h
    exact local_end (s := op.onSides s) h.2

omit [DecidableEq E] in
theorem stands_reach {t : RazTree E Count} {items : List (Item E)} (h : t.Reachable .edit) (he : t.items = items.map (Item.at f)) (hn : elemsOf t.items ≠ []) :
    Stands f t items := by
  refine ⟨(Reach.t h).inv, (Reach.t h).canon rfl, fun ht => hn ?_, he, ((Reach.t h).tidy rfl).1⟩
  rw [RazTree.items, ht]
  rfl

omit [DecidableEq E] in
theorem stands_next (hf : ∀ k, 1 ≤ f k) {t : RazTree E Count} {items : List (Item E)} (h : Stands f t items) (hr : t.Reachable .edit) {i : Nat} {ops : List (LOp E)}
    (hi : i ≤ (elemsOf items).length) (hm : i < usizeMax) (hl : localSides (cutAt i items) ops = true) :
    ∃ t', t.edit i (ops.map (LOp.at f)) = .ok t' ∧ t'.Reachable .edit ∧ Stands f t' (editList i ops items) := by
  obtain ⟨z, t', e1, e2, e3, e4, e5, e6, e7⟩ := stands_edit hf h hi hm hl
  have hr' := reach_edit hr (at_lifts f hf ops) e3
  refine ⟨t', e3, hr', stands_reach hr' e6 ?_⟩
  have hl' : localSides (sidesAt f (cutAt i items)) (ops.map (LOp.at f)) = true := by rw [at_local]; exact hl
  have ha := cutAt_append items i hi
  have ht : Tidy (sidesAt f (cutAt i items)).1 ∧ Tidy (sidesAt f (cutAt i items)).2 := by
    refine h.tidy.split ?_
    rw [h.eq]
    conv_rhs => rw [← ha]
    simp [sidesAt]
  have := full_of_local (local_end hl') (onSides_tidy (ops.map (LOp.at f)) ht)
  rw [at_onSides, at_closed] at this
  rw [e6]
  exact this

omit [DecidableEq E] in
theorem edits_end (hf : ∀ k, 1 ≤ f k) : ∀ (l : List (Nat × List (LOp E))) {t : RazTree E Count} {items : List (Item E)}, Stands f t items → t.Reachable .edit →
    localList items l = true → ∃ t' k, t.edits (editsAt f l) = .ok (t', k) ∧ t'.Reachable .edit ∧ Stands f t' (editLists items l)
  | [], t, items, h, hr, _ => ⟨t, 0, rfl, hr, h⟩
  | (i, ops) :: l, t, items, h, hr, hl => by
    simp only [localList, Bool.and_eq_true, decide_eq_true_eq] at hl
    obtain ⟨t1, e1, e2, e3⟩ := stands_next hf h hr hl.1.1.1 hl.1.1.2 hl.1.2
    obtain ⟨t2, k, f1, f2, f3⟩ := edits_end hf l e3 e2 hl.2
    exact ⟨t2, _, bind_ok.2 ⟨t1, e1, bind_ok.2 ⟨(t2, k), f1, rfl⟩⟩, f2, f3⟩

omit [DecidableEq E] in
theorem reruns_end (hf : ∀ k, 1 ≤ f k) {val : RazTree E Count → P B} (hv : ∀ t : RazTree E Count, t.Reachable .edit → ∃ b, val t = .ok b) :
    ∀ (l : List (List (Nat × List (LOp E)))) {t : RazTree E Count} {items : List (Item E)}, Stands f t items → t.Reachable .edit →
    localLists items l = true → ∃ rest, t.reruns val (l.map (editsAt f)) = .ok rest ∧
      List.Forall₂ (fun (its : List (Item E)) (q : B × Nat × Nat) => ∃ t : RazTree E Count, t.Reachable .edit ∧ t.elems = elemsOf its ∧ val t = .ok q.1) (stages items l) rest
  | [], t, items, h, hr, _ => ⟨[], rfl, .nil⟩
  | es :: l, t, items, h, hr, hl => by
    simp only [localLists, Bool.and_eq_true] at hl
    obtain ⟨t1, k, e1, e2, e3⟩ := edits_end hf es h hr hl.1
    obtain ⟨b, hb⟩ := hv t1 e2
    obtain ⟨rest, f1, f2⟩ := reruns_end hf hv l e3 e2 hl.2
    refine ⟨_, bind_ok.2 ⟨(t1, k), e1, bind_ok.2 ⟨b, hb, bind_ok.2 ⟨rest, f1, rfl⟩⟩⟩, .cons ⟨t1, e2, ?_, hb⟩ f2⟩
    rw [RazTree.elems, e3.eq, at_elems]

omit [DecidableEq E] in
theorem session_ends (hf : ∀ k, 1 ≤ f k) {val : RazTree E Count → P B} (hv : ∀ t : RazTree E Count, t.Reachable .edit → ∃ b, val t = .ok b) {ops : List (LOp E)}
    {l : List (List (Nat × List (LOp E)))} (hl : localAll ops l = true) : ∃ b size rest,
      rerunSession (M := Count) val (ops.map (LOp.at f)) (l.map (editsAt f)) = .ok (b, size, rest) ∧
      (∃ t : RazTree E Count, t.Reachable .edit ∧ t.elems = elemsOf (closed (onSides ([], []) ops)) ∧ val t = .ok b) ∧
      List.Forall₂ (fun (its : List (Item E)) (q : B × Nat × Nat) => ∃ t : RazTree E Count, t.Reachable .edit ∧ t.elems = elemsOf its ∧ val t = .ok q.1)
        (stages (closed (onSides ([], []) ops)) l) rest := by
  simp only [localAll, Bool.and_eq_true] at hl
  have hlift := at_lifts f hf ops
  have hsides : ((Raz.new : Raz E Count).left, (Raz.new : Raz E Count).right) = sidesAt f ([], []) := rfl
  obtain ⟨z, f1, f2, f3⟩ := lops_sides (z := (Raz.new : Raz E Count)) ZInv.empty hlift
  obtain ⟨t, g1, g2, g3⟩ := unfocus_closed f2
  have hr : t.Reachable .edit := .unfocus (reach_lops .new hlift f1) g1
  have ht : t.items = (closed (onSides ([], []) ops)).map (Item.at f) := by rw [g3, f3, hsides, at_onSides, at_closed]
  have hs : Stands f t (closed (onSides ([], []) ops)) := stands_reach hr ht (by
    rw [ht, at_elems]
    exact full_of_local (local_end hl.1) (onSides_tidy _ ⟨trivial, trivial⟩))
  obtain ⟨b, hb⟩ := hv t hr
  obtain ⟨rest, hrest, h2⟩ := reruns_end hf hv l hs hr hl.2
  exact ⟨_, _, _, bind_ok.2 ⟨z, f1, bind_ok.2 ⟨t, g1, bind_ok.2 ⟨b, hb, bind_ok.2 ⟨rest, hrest, rfl⟩⟩⟩⟩, ⟨t, hr, by rw [RazTree.elems, ht, at_elems], hb⟩, h2⟩

/-! ### The theorems -/

omit [DecidableEq E] in
theorem elim_le {ks : List Nat} {os : List (A × Nat × Sp)} (h : List.Forall₂ (fun (k : Nat) (o : A × Nat × Sp) => o.2.1 ≤ 2 * k + 1) ks os) (j : Nat) :
    (os[j]?.elim 0 fun o => o.2.1) ≤ (ks[j]?.elim 0 fun k => 2 * k + 1) := by
  induction h generalizing j with
  | nil => simp
  | cons h2 _ ih =>
    cases j with
    | zero => simpa using h2
    | succ j => simpa using ih j

theorem answers {Ans : List E → A → Sp → Prop} {val : RazTree E Count → P B} {Rel : B → A → Sp → Prop}
    (hA : ∀ (t : RazTree E Count) (b : B), t.Reachable .edit → val t = .ok b → ∀ a s, Rel b a s → Ans t.elems a s) {its : List (List (Item E))}
    {rest : List (B × Nat × Nat)} {outs : List (A × Nat × Sp)}
    (h1 : List.Forall₂ (fun (its : List (Item E)) (q : B × Nat × Nat) => ∃ t : RazTree E Count, t.Reachable .edit ∧ t.elems = elemsOf its ∧ val t = .ok q.1) its rest)
    (h2 : List.Forall₂ (fun (q : B × Nat × Nat) (o : A × Nat × Sp) => Rel q.1 o.1 o.2.2) rest outs) :
    List.Forall₂ (fun (its : List (Item E)) (o : A × Nat × Sp) => Ans (elemsOf its) o.1 o.2.2) its outs := by
  induction h1 generalizing outs with
  | nil => cases h2; exact .nil
  | cons h _ ih =>
    cases h2 with
    | cons k1 k2 =>
      obtain ⟨t, e1, e2, e3⟩ := h
      exact .cons (e2 ▸ hA t _ e1 e3 _ _ k1) (ih k2)

theorem mean_reruns {run : HTree Count → Sp → HR E Count (A × Nat × Sp)} {val : RazTree E Count → P B} {Rel : B → A → Sp → Prop}
    {Hist : Sp → List (Tree (Tr × TreeData E Count)) → Prop} (hR : Reuses run val Rel Hist) {new : Sp} (hnew : Hist new []) {Ans : List E → A → Sp → Prop}
    (hv : ∀ t : RazTree E Count, t.Reachable .edit → ∃ b, val t = .ok b)
    (hA : ∀ (t : RazTree E Count) (b : B), t.Reachable .edit → val t = .ok b → ∀ a s, Rel b a s → Ans t.elems a s) {ops : List (LOp E)}
    {l : List (List (Nat × List (LOp E)))} (hn : (LOp.cells ops ++ batchCells l).Nodup) (hl : localAll ops l = true) (hti : ∀ op ∈ ops, op.Titles)
    (hti' : ∀ es ∈ l, ∀ q ∈ es, ∀ op ∈ q.2, op.Titles) {n : Nat} (h63 : n ≤ 2 ^ 63) (hs : (LOp.slots ops ++ batchSlots l).Nodup)
    (hk : ∀ k ∈ LOp.slots ops ++ batchSlots l, k < n) (σ : RMem E Count) :
    ∃ (a : (Fin n → Fin (2 ^ 64)) → A) (work : (Fin n → Fin (2 ^ 64)) → Nat) (s : (Fin n → Fin (2 ^ 64)) → Sp)
      (outs : (Fin n → Fin (2 ^ 64)) → List (A × Nat × Sp)),
      (∀ w, (∃ f0, ∀ m, f0 ≤ m → (hrerunSession (M := Count) run new (ops.map (LOp.at (drawn w))) (l.map (editsAt (drawn w))) m σ).map (·.1) =
          .ok (a w, work w, s w, outs w)) ∧
        Ans (elemsOf (closed (onSides ([], []) ops))) (a w) (s w) ∧
        List.Forall₂ (fun (its : List (Item E)) (o : A × Nat × Sp) => Ans (elemsOf its) o.1 o.2.2) (stages (closed (onSides ([], []) ops)) l) (outs w)) ∧
      ∀ j : Nat, ∑ w, ((outs w)[j]?.elim 0 fun o => o.2.1) ≤ (2 ^ 64) ^ n * ((logBounds (closed (onSides ([], []) ops)) l)[j]?.elim 0 fun k => 2 * k + 1) := by
  have h1 : ∀ w : Fin n → Fin (2 ^ 64), ∃ q : A × Nat × Sp × List (A × Nat × Sp),
      (∃ f0, ∀ m, f0 ≤ m → (hrerunSession (M := Count) run new (ops.map (LOp.at (drawn w))) (l.map (editsAt (drawn w))) m σ).map (·.1) = .ok q) ∧
      (Ans (elemsOf (closed (onSides ([], []) ops))) q.1 q.2.2.1 ∧
        List.Forall₂ (fun (its : List (Item E)) (o : A × Nat × Sp) => Ans (elemsOf its) o.1 o.2.2) (stages (closed (onSides ([], []) ops)) l) q.2.2.2) ∧
      List.Forall₂ (fun (k : Nat) (o : A × Nat × Sp) => o.2.1 ≤ 2 * k + 1) (pathBatches (drawn w) (closed (onSides ([], []) ops)) l) q.2.2.2 := by
    intro w
    obtain ⟨b, size, rest, hr, ⟨t, t1, t2, t3⟩, hrest⟩ := session_ends (drawn_one w) hv hl
    obtain ⟨a, work, s, outs, f0, g1, g2, g3, g4⟩ := stands_session (drawn_one w) hR hnew hn hl hti hti' hr σ
    exact ⟨(a, work, s, outs), ⟨f0, g1⟩, ⟨t2 ▸ hA t b t1 t3 _ _ g2, answers hA hrest g3⟩, g4⟩
  obtain ⟨q, hq⟩ := Classical.axiom_of_choice h1
  refine ⟨fun w => (q w).1, fun w => (q w).2.1, fun w => (q w).2.2.1, fun w => (q w).2.2.2, fun w => ⟨(hq w).1, (hq w).2.1⟩, fun j => ?_⟩
  simp only [localAll, Bool.and_eq_true] at hl
  have hc := fun x => onSides_levels ops ([], []) x
  have hc' := fun x => closed_levels (onSides ([], []) ops) x
  have hcount := nodup_slots hs
  have h0 : ∀ x, (levelsOf ([] : List (Item E))).count x = 0 := fun x => rfl
  simp only [h0] at hc
  have hmean := batches_mean h63 l (items := closed (onSides ([], []) ops)) (slots_nodup fun x => by
    have := hc x; have := hc' x; have := hcount x; simp only [List.count_append] at *; omega) (fun k hk' => hk k (List.count_pos_iff.1 (by
    have := hc k; have := hc' k; have := List.count_pos_iff.2 hk'; simp only [List.count_append] at *; omega))) hl.2 j
  exact Nat.le_trans (Finset.sum_le_sum fun w _ => elim_le (hq w).2.2 j) hmean

omit [DecidableEq E] in
/-- **C84, the way to the cursor.** Focusing at index `i` passes exactly those archive points between which and the cursor there is no higher one (on the
right: none as high). -/
theorem C84_path {t : RazTree E Count} (h : t.Reachable .edit) (hne : t.elems ≠ []) {i : Nat} (hi : i ≤ t.elems.length) (hm : i < usizeMax) :
    ∃ z, t.focus i = .ok (some z) ∧ z.left = (cutAt i t.items).1 ∧ z.right = (cutAt i t.items).2 ∧
      z.lForest.lForest.length + z.rForest.rForest.length = pathAt i t.items := by
  have hw : WF t.tree := (Reach.t h).inv.wf.resolve_left fun ht => hne (by rw [RazTree.elems, RazTree.items, ht]; rfl)
  obtain ⟨z, h1, h2, h3⟩ := focus_cut hw ((Reach.t h).tidy rfl).1 hi hm
  refine ⟨z, h1, h2, h3, ?_⟩
  rw [focus_seen (.inr hw) ((Reach.t h).canon rfl) h1, h2, h3]
  rfl

omit [DecidableEq E] in
/-- **C84, the mean way.** The archive points of a sequence get their levels from random numbers. Whatever the sequence and the index, the number of archive
points that `focus` passes, in the mean over all random numbers, is at most twice the logarithm of their number (rounded up) and 2. -/
theorem C84_mean_path {ops : List (LOp E)} {n : Nat} (h63 : n ≤ 2 ^ 63) (hs : (LOp.slots ops).Nodup) (hk : ∀ k ∈ LOp.slots ops, k < n)
    (hne : elemsOf (closed (onSides ([], []) ops)) ≠ []) {i : Nat} (hi : i ≤ (elemsOf (closed (onSides ([], []) ops))).length) (hm : i < usizeMax) :
    ∃ d : (Fin n → Fin (2 ^ 64)) → Nat, (∀ w, ∃ z t z', (Raz.new : Raz E Count).lops (ops.map (LOp.at (drawn w))) = .ok z ∧ z.unfocus = .ok t ∧
        t.focus i = .ok (some z') ∧ z'.lForest.lForest.length + z'.rForest.rForest.length = d w) ∧
      ∑ w, d w ≤ (2 ^ 64) ^ n * (2 * (Nat.clog 2 (marksOf (closed (onSides ([], []) ops))).length + 1)) := by
  refine ⟨fun w => pathAt i ((closed (onSides ([], []) ops)).map (Item.at (drawn w))), fun w => ?_, ?_⟩
  · have hlift := at_lifts (drawn w) (drawn_one w) ops
    have hsides : ((Raz.new : Raz E Count).left, (Raz.new : Raz E Count).right) = sidesAt (drawn w) ([], []) := rfl
    obtain ⟨z, f1, f2, f3⟩ := lops_sides (z := (Raz.new : Raz E Count)) ZInv.empty hlift
    obtain ⟨t, g1, g2, g3⟩ := unfocus_closed f2
    have hr : t.Reachable .edit := .unfocus (reach_lops .new hlift f1) g1
    have ht : t.items = (closed (onSides ([], []) ops)).map (Item.at (drawn w)) := by rw [g3, f3, hsides, at_onSides, at_closed]
    have he : t.elems = elemsOf (closed (onSides ([], []) ops)) := by rw [RazTree.elems, ht, at_elems]
    obtain ⟨z', k1, -, -, k4⟩ := C84_path hr (by rw [he]; exact hne) (by rw [he]; exact hi) hm
    exact ⟨z, t, z', f1, g1, k1, by rw [k4, ht]⟩
  · have hc := fun x => onSides_levels ops ([], []) x
    have hc' := fun x => closed_levels (onSides ([], []) ops) x
    have h0 : ∀ x, (levelsOf ([] : List (Item E))).count x = 0 := fun x => rfl
    simp only [h0] at hc
    exact path_mean h63 (slots_nodup fun x => by have := hc x; have := hc' x; have := nodup_slots hs x; omega)
      (fun k hk' => hk k (List.count_pos_iff.1 (by have := hc k; have := hc' k; have := List.count_pos_iff.2 hk'; omega))) hi

/-- **C84, folds.** A sequence is made and folded with an associative operation; then come batches of local edits, the fold after each batch. All cells get
different names, all archive points have names, and each gets its level from its own random number. Whatever the random numbers, the results are the folds of
the lists. After each batch the fold runs its function, in the mean over all random numbers, at most `2 * k + 1` times, where `k` sums
up, for each edit, twice the logarithm of the number of archive points (rounded up) and 2 and the number of archive points added. -/
theorem C84_fold [DecidableEq R] {c : Fun E R} (hassoc : ∀ x y z, c.bin (c.bin x y) z = c.bin x (c.bin y z)) {p : Name} {ops : List (LOp E)}
    {l : List (List (Nat × List (LOp E)))} (hn : (LOp.cells ops ++ batchCells l).Nodup) (hl : localAll ops l = true) (hti : ∀ op ∈ ops, op.Titles)
    (hti' : ∀ es ∈ l, ∀ q ∈ es, ∀ op ∈ q.2, op.Titles) {n : Nat} (h63 : n ≤ 2 ^ 63) (hs : (LOp.slots ops ++ batchSlots l).Nodup)
    (hk : ∀ k ∈ LOp.slots ops ++ batchSlots l, k < n) (σ : RMem E Count) :
    ∃ (a : (Fin n → Fin (2 ^ 64)) → Option R) (work : (Fin n → Fin (2 ^ 64)) → Nat) (s : (Fin n → Fin (2 ^ 64)) → RTable E Count R)
      (outs : (Fin n → Fin (2 ^ 64)) → List (Option R × Nat × RTable E Count R)),
      (∀ w, (∃ f0, ∀ m, f0 ≤ m → (hrerunSession (M := Count) (refold c.fns p) Table.empty (ops.map (LOp.at (drawn w))) (l.map (editsAt (drawn w))) m σ).map (·.1) =
          .ok (a w, work w, s w, outs w)) ∧
        a w = fold1 c.bin ((elemsOf (closed (onSides ([], []) ops))).map c.init) ∧
        List.Forall₂ (fun (its : List (Item E)) (o : Option R × Nat × RTable E Count R) => o.1 = fold1 c.bin ((elemsOf its).map c.init))
          (stages (closed (onSides ([], []) ops)) l) (outs w)) ∧
      ∀ j : Nat, ∑ w, ((outs w)[j]?.elim 0 fun o => o.2.1) ≤ (2 ^ 64) ^ n * ((logBounds (closed (onSides ([], []) ops)) l)[j]?.elim 0 fun k => 2 * k + 1) := by
  have key : ∀ t : RazTree E Count, t.Reachable .edit → t.tree.foldUpMeta (c.fns (M := Count)).up = .ok (fold1 c.bin (t.elems.map c.init)) := fun t hr =>
    C10_fold_up_edited_partial (Reach.mono (by simp [Usage.edit]) (by simp [Usage.edit]) hr) c.init c.bin hassoc
  refine mean_reruns (fold_reuses c.fns p) ⟨.start, fun _ => rfl⟩ (Ans := fun xs a _ => a = fold1 c.bin (xs.map c.init)) (fun t hr => ⟨_, key t hr⟩) ?_ hn hl hti hti'
    h63 hs hk σ
  rintro t b hr hb a s rfl
  simp only [key t hr, Except.ok.injEq] at hb
  exact hb.symm

/-- **C84, maps.** The same for `RazTree::map`: behind the handles are sequences with the mapped elements. -/
theorem C84_map [RazMeta F N] [DecidableEq F] [DecidableEq N] {f : E → F} {ops : List (LOp E)} {l : List (List (Nat × List (LOp E)))}
    (hn : (LOp.cells ops ++ batchCells l).Nodup) (hl : localAll ops l = true) (hti : ∀ op ∈ ops, op.Titles)
    (hti' : ∀ es ∈ l, ∀ q ∈ es, ∀ op ∈ q.2, op.Titles) {n : Nat} (h63 : n ≤ 2 ^ 63) (hs : (LOp.slots ops ++ batchSlots l).Nodup)
    (hk : ∀ k ∈ LOp.slots ops ++ batchSlots l, k < n) (σ : RMem E Count) :
    ∃ (a : (Fin n → Fin (2 ^ 64)) → HTree N) (work : (Fin n → Fin (2 ^ 64)) → Nat) (s : (Fin n → Fin (2 ^ 64)) → RSpace E Count F N)
      (outs : (Fin n → Fin (2 ^ 64)) → List (HTree N × Nat × RSpace E Count F N)),
      (∀ w, (∃ f0, ∀ m, f0 ≤ m → (hrerunSession (M := Count) (countedMap f) Space.empty (ops.map (LOp.at (drawn w))) (l.map (editsAt (drawn w))) m σ).map (·.1) =
          .ok (a w, work w, s w, outs w)) ∧
        (∃ t : RazTree F N, Holds (s w).mem (a w) t ∧ t.elems = (elemsOf (closed (onSides ([], []) ops))).map f) ∧
        List.Forall₂ (fun (its : List (Item E)) (o : HTree N × Nat × RSpace E Count F N) => ∃ t : RazTree F N, Holds o.2.2.mem o.1 t ∧ t.elems = (elemsOf its).map f)
          (stages (closed (onSides ([], []) ops)) l) (outs w)) ∧
      ∀ j : Nat, ∑ w, ((outs w)[j]?.elim 0 fun o => o.2.1) ≤ (2 ^ 64) ^ n * ((logBounds (closed (onSides ([], []) ops)) l)[j]?.elim 0 fun k => 2 * k + 1) := by
  refine mean_reruns (map_reuses f) .start (Ans := fun xs a (s : RSpace E Count F N) => ∃ t : RazTree F N, Holds s.mem a t ∧ t.elems = xs.map f)
    (fun t hr => (C15_map (N := N) hr f).imp fun _ h => h.1) ?_ hn hl hti hti' h63 hs hk σ
  intro t b hr hb a s h
  obtain ⟨t', h1, -, h3, -⟩ := C15_map (N := N) hr f
  simp only [h1, Except.ok.injEq] at hb
  subst hb
  exact ⟨t', h, h3⟩

/-- **C84, reverse and filter.** The same for the two example programs. -/
theorem C84_rebuild [RazMeta E N] [DecidableEq N] {c : Rebuild E} {ops : List (LOp E)} {l : List (List (Nat × List (LOp E)))}
    (hn : (LOp.cells ops ++ batchCells l).Nodup) (hl : localAll ops l = true) (hti : ∀ op ∈ ops, op.Titles)
    (hti' : ∀ es ∈ l, ∀ q ∈ es, ∀ op ∈ q.2, op.Titles) {n : Nat} (h63 : n ≤ 2 ^ 63) (hs : (LOp.slots ops ++ batchSlots l).Nodup)
    (hk : ∀ k ∈ LOp.slots ops ++ batchSlots l, k < n) (σ : RMem E Count) :
    ∃ (a : (Fin n → Fin (2 ^ 64)) → Option (HTree N)) (work : (Fin n → Fin (2 ^ 64)) → Nat) (s : (Fin n → Fin (2 ^ 64)) → GSpace E Count N)
      (outs : (Fin n → Fin (2 ^ 64)) → List (Option (HTree N) × Nat × GSpace E Count N)),
      (∀ w, (∃ f0, ∀ m, f0 ≤ m → (hrerunSession (M := Count) (countedRebuild c) Space.empty (ops.map (LOp.at (drawn w))) (l.map (editsAt (drawn w))) m σ).map (·.1) =
          .ok (a w, work w, s w, outs w)) ∧
        (∃ x, ∃ t : RazTree E N, a w = some x ∧ Holds (s w).mem x t ∧ t.elems = c.list (elemsOf (closed (onSides ([], []) ops)))) ∧
        List.Forall₂ (fun (its : List (Item E)) (o : Option (HTree N) × Nat × GSpace E Count N) =>
            ∃ x, ∃ t : RazTree E N, o.1 = some x ∧ Holds o.2.2.mem x t ∧ t.elems = c.list (elemsOf its)) (stages (closed (onSides ([], []) ops)) l) (outs w)) ∧
      ∀ j : Nat, ∑ w, ((outs w)[j]?.elim 0 fun o => o.2.1) ≤ (2 ^ 64) ^ n * ((logBounds (closed (onSides ([], []) ops)) l)[j]?.elim 0 fun k => 2 * k + 1) := by
  refine mean_reruns (rebuild_reuses c) .start (Ans := fun xs a (s : GSpace E Count N) => ∃ x, ∃ t : RazTree E N, a = some x ∧ Holds s.mem x t ∧ t.elems = c.list xs)
    (fun t hr => Heap.rebuild_ok (N := N) c hr.any) ?_ hn hl hti hti' h63 hs hk σ
  rintro t b hr hb a s ⟨x, y, rfl, rfl, h⟩
  refine ⟨x, y, rfl, h, ?_⟩
  simpa [RAns.read] using scratch_elems c hr.any hb

/-! ### A session that meets the conditions -/

/-- Eight elements with archive points; in place of levels they have the slots 0 to 6. -/
def exSlotted : List (LOp Nat) :=
  [.pushL 1, .archL 0 (some (.usize 1)), .pushL 2, .archL 1 (some (.usize 2)), .pushL 3, .archL 2 (some (.usize 3)), .pushL 4,
    .archL 3 (some (.usize 4)), .pushL 5, .archL 4 (some (.usize 5)), .pushL 6, .archL 5 (some (.usize 6)), .pushL 7,
    .archL 6 (some (.usize 7)), .pushL 8]

/-- Two batches of edits, with an archive point in slot 7. -/
def exSlotBatches : List (List (Nat × List (LOp Nat))) :=
  [[(1, [.popL, .pushL 10]), (4, [.pushL 20, .archL 7 (some (.usize 8)), .pushL 30])], [(7, [.pushR 40, .pushR 50, .popR])]]

set_option synthInstance.maxSize 1000 in
/-- The conditions of `C84_fold`, `C84_map` and `C84_rebuild`, with 8 slots; the lists, and the numbers `k`. -/
example : (LOp.cells exSlotted ++ batchCells exSlotBatches).Nodup ∧ localAll exSlotted exSlotBatches = true ∧ (∀ op ∈ exSlotted, op.Titles) ∧
    (∀ es ∈ exSlotBatches, ∀ q ∈ es, ∀ op ∈ q.2, op.Titles) ∧ (LOp.slots exSlotted ++ batchSlots exSlotBatches).Nodup ∧
    (∀ k ∈ LOp.slots exSlotted ++ batchSlots exSlotBatches, k < 8) ∧
    (stages (closed (onSides ([], []) exSlotted)) exSlotBatches).map elemsOf = [[10, 2, 3, 4, 20, 30, 5, 6, 7, 8], [10, 2, 3, 4, 20, 30, 5, 40, 6, 7, 8]] ∧
    logBounds (closed (onSides ([], []) exSlotted)) exSlotBatches = [17, 8] := by
  refine ⟨by decide +kernel, by decide +kernel, ?_, ?_, by decide +kernel, by decide +kernel, by decide +kernel, by decide +kernel⟩
  · simp [exSlotted, LOp.Titles]
  · intro es h1 q h2
    simp only [exSlotBatches, List.mem_cons, List.not_mem_nil, or_false] at h1
    rcases h1 with rfl | rfl <;> simp only [List.mem_cons, List.not_mem_nil, or_false] at h2
    · rcases h2 with rfl | rfl <;> simp [LOp.Titles]
    · subst h2; simp [LOp.Titles]

/-- The conditions of `C84_mean_path`. -/
example : (LOp.slots exSlotted).Nodup ∧ (∀ k ∈ LOp.slots exSlotted, k < 7) ∧ elemsOf (closed (onSides ([], []) exSlotted)) = [1, 2, 3, 4, 5, 6, 7, 8] ∧
    (marksOf (closed (onSides ([], []) exSlotted))).length = 7 := by
  refine ⟨by decide +kernel, by decide +kernel, by decide +kernel, by decide +kernel⟩

/-- With the random numbers 0, 1, 2, …: the levels of the slots; the sequence and the way to the fourth element. -/
example : (List.range 8).map (drawn (n := 8) fun k => ⟨k.1, by omega⟩) = [64, 1, 2, 1, 3, 1, 2, 1] ∧
    ((do let z ← (Raz.new : Raz Nat Count).lops (exSlotted.map (LOp.at (drawn (n := 8) fun k => ⟨k.1, by omega⟩))); let t ← z.unfocus
         let z ← unwrap (← t.focus (4 : Nat)); return (z.lForest.lForest.length, z.rForest.rForest.length, pathAt 4 t.items)) : P (Nat × Nat × Nat)) = .ok (2, 2, 4) := by
  refine ⟨by decide +kernel, by decide +kernel⟩

/-- The work of the folds with these random numbers. -/
example : (hrerunSession (M := Count) (refold sumF.fns .unit) Table.empty (exSlotted.map (LOp.at (drawn (n := 8) fun k => ⟨k.1, by omega⟩)))
    (exSlotBatches.map (editsAt (drawn (n := 8) fun k => ⟨k.1, by omega⟩))) 99 Store.empty).map (fun x => (x.1.2.1, x.1.2.2.2.map (·.2.1))) = .ok (15, [8, 6]) := by
  decide +kernel

/-- A tree that meets the conditions of `C84_path`. -/
example : (exTree Count).Reachable .edit ∧ (exTree Count).elems = [1, 2, 3, 4, 5, 6] := ⟨exTree_reach Count .edit, by decide +kernel⟩

end Iodyn.Incr
