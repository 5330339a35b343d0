import Verif.Spec.LikelyDeep
import Verif.Props.TokensTail
/-
C113 after local edits, `to_list` and `tokenize` are cheap for all but few random levels.
-/
namespace Iodyn.Incr
open Iodyn.Heap Iodyn.Eval Finset
open Eval.Adder (Token)
variable {E : Type}

theorem steps_tail {n : Nat} (h63 : n ≤ 2 ^ 63) (j : Nat) (l : List (Nat × List (LOp E))) {items : List (Item E)} (hs : (levelsOf items ++ restSlots l).Nodup)
    (hn : ∀ k ∈ levelsOf items ++ restSlots l, k < n) (hl : localList items l = true) :
    4 * 3 ^ j * (univ.filter fun w : Fin n → Fin (2 ^ 64) => likelyDeep j items l < stepsAt (drawn w) items l).card ≤ l.length * (2 ^ j * (2 ^ 64) ^ n) := by
  refine edits_deep h63 j (cost := stepsAt) (lim := likelyDeep j) (fits := localList) (fun f items => by simp [stepsAt, deepSum, pointsOf, likelyDeep]) ?_ l hs hn hl
  intro f items i ops l hf
  simp only [localList, Bool.and_eq_true, decide_eq_true_eq] at hf
  refine ⟨hf.1.1.1, hf.2, fun hd ih => ?_⟩
  simp only [stepsAt, deepSum, pointsOf, likelyDeep, id_eq] at ih ⊢
  omega

theorem batches_deep_tail {n : Nat} (h63 : n ≤ 2 ^ 63) (j : Nat) : ∀ (l : List (List (Nat × List (LOp E)))) {items : List (Item E)}, (levelsOf items ++ batchSlots l).Nodup →
    (∀ k ∈ levelsOf items ++ batchSlots l, k < n) → localLists items l = true →
    4 * 3 ^ j * (univ.filter fun w : Fin n → Fin (2 ^ 64) => ∃ q ∈ (stepsAts (drawn w) items l).zip (likelyDeeps j items l), q.2 < q.1).card ≤
      (l.map List.length).sum * (2 ^ j * (2 ^ 64) ^ n)
  | [], items, hs, hn, hl => by simp [stepsAts]
  | es :: l, items, hs, hn, hl => by
    simp only [localLists, Bool.and_eq_true] at hl
    have hb : batchSlots (es :: l) = restSlots es ++ batchSlots l := rfl
    rw [hb] at hs hn
    have hc := nodup_slots hs
    simp only [List.count_append] at hc
    have g1 : (levelsOf items ++ restSlots es).Nodup := slots_nodup fun x => by have := hc x; simp only [List.count_append]; omega
    have g2 : ∀ k ∈ levelsOf items ++ restSlots es, k < n := fun k hk => hn k (by simp only [List.mem_append] at hk ⊢; tauto)
    have h1 := steps_tail h63 j es g1 g2 hl.1
    have h2 := (edits_mean h63 es g1 g2 hl.1).2
    have ih := batches_deep_tail h63 j l (items := editLists items es)
      (slots_nodup fun x => by have := hc x; have := h2 x; simp only [List.count_append] at *; omega)
      (fun k hk => hn k (List.count_pos_iff.1 (by have := List.count_pos_iff.2 hk; have := h2 k; simp only [List.count_append] at *; omega))) hl.2
    refine Nat.le_trans (Nat.mul_le_mul_left _ (Nat.le_trans (card_le_card fun w hw => ?_) (card_union_le
      (univ.filter fun w : Fin n → Fin (2 ^ 64) => likelyDeep j items es < stepsAt (drawn w) items es)
      (univ.filter fun w : Fin n → Fin (2 ^ 64) => ∃ q ∈ (stepsAts (drawn w) (editLists items es) l).zip (likelyDeeps j (editLists items es) l), q.2 < q.1)))) ?_
    · obtain ⟨q, hq, hlt⟩ := (mem_filter.1 hw).2
      simp only [stepsAts, likelyDeeps, List.zip_cons_cons, List.mem_cons] at hq
      rcases hq with rfl | hq
      · exact mem_union_left _ (mem_filter.2 ⟨mem_univ _, hlt⟩)
      · exact mem_union_right _ (mem_filter.2 ⟨mem_univ _, q, hq, hlt⟩)
    · rw [Nat.mul_add, List.map_cons, List.sum_cons, Nat.add_mul]
      exact Nat.add_le_add h1 ih

/-- Work that is above its limit comes from steps that are. -/
theorem zip_over {A : Type} {outs : List A} {work : A → Nat} {ks ls : List Nat} {c : Nat}
    (hb : ∀ i : Nat, outs[i]?.elim 0 work ≤ ks[i]?.elim 0 fun k => c * k + 1) (h : ∃ q ∈ outs.zip ls, c * q.2 + 1 < work q.1) : ∃ q ∈ ks.zip ls, q.2 < q.1 := by
  obtain ⟨q, hq, hlt⟩ := h
  obtain ⟨i, hi, rfl⟩ := List.mem_iff_getElem.1 hq
  simp only [List.length_zip] at hi
  simp only [List.getElem_zip] at hlt
  have h1 := hb i
  rw [List.getElem?_eq_getElem (show i < outs.length by omega), Option.elim_some] at h1
  cases hk : ks[i]? with
  | none =>
    rw [hk] at h1
    simp only [Option.elim_none] at h1
    omega
  | some k =>
    rw [hk, Option.elim_some] at h1
    obtain ⟨hik, rfl⟩ := List.getElem?_eq_some_iff.1 hk
    refine ⟨(ks[i], ls[i]), List.mem_iff_getElem.2 ⟨i, by simp only [List.length_zip]; omega, by simp only [List.getElem_zip]⟩, ?_⟩
    exact Nat.lt_of_mul_lt_mul_left (a := c) (show c * ls[i] < c * ks[i] by omega)

/-- **C113, `to_list`.** As in `C98_list`: a sequence is made and turned into a list, and again after each batch of local edits. With all random levels the list is that of
the sequence. For every `j`, at most `e * (2 / 3) ^ j / 4` of all assignments of random numbers, where `e` is the number of edits, make any run after a batch evaluate more
than `4 * k + 1` calls, where `k` sums up `6 * log (m + 2) + j` for each edit, with `m` the number of archive points before, and the number of archive points added. -/
theorem C113_list [DecidableEq E] {ops : List (LOp E)} {l : List (List (Nat × List (LOp E)))} (hn : (LOp.cells ops ++ batchCells l).Nodup)
    (hst : .str "start" ∉ LOp.cells ops ++ batchCells l) (hl : localAll ops l = true) (hti : ∀ op ∈ ops, op.Titles)
    (hti' : ∀ es ∈ l, ∀ q ∈ es, ∀ op ∈ q.2, op.Titles) {n : Nat} (h63 : n ≤ 2 ^ 63) (hs : (LOp.slots ops ++ batchSlots l).Nodup)
    (hk : ∀ k ∈ LOp.slots ops ++ batchSlots l, k < n) (σ : RMem E Count) :
    ∃ (a : (Fin n → Fin (2 ^ 64)) → ASt E) (work : (Fin n → Fin (2 ^ 64)) → Nat) (s : (Fin n → Fin (2 ^ 64)) → LSpace E Count E Count (ASt E))
      (outs : (Fin n → Fin (2 ^ 64)) → List (ASt E × Nat × LSpace E Count E Count (ASt E))),
      (∀ w, (∃ f0, ∀ m, f0 ≤ m → (hrerunSession (M := Count) countedList Space.empty (ops.map (LOp.at (drawn w))) (l.map (editsAt (drawn w))) m σ).map (·.1) =
          .ok (a w, work w, s w, outs w)) ∧
        (∃ b, HoldsList (s w).mem (a w) b ∧ b.elems.reverse = elemsOf (closed (onSides ([], []) ops))) ∧
        List.Forall₂ (fun (its : List (Item E)) (o : ASt E × Nat × LSpace E Count E Count (ASt E)) => ∃ b, HoldsList o.2.2.mem o.1 b ∧ b.elems.reverse = elemsOf its)
          (stages (closed (onSides ([], []) ops)) l) (outs w)) ∧
      ∀ j : Nat, 4 * 3 ^ j * (univ.filter fun w => ∃ q ∈ (outs w).zip (likelyDeeps j (closed (onSides ([], []) ops)) l), 4 * q.2 + 1 < q.1.2.1).card ≤
        (l.map List.length).sum * (2 ^ j * (2 ^ 64) ^ n) := by
  have h1 := list_steps (n := n) hn hst hl hti hti' σ
  choose q hq using h1
  refine ⟨fun w => (q w).1, fun w => (q w).2.1, fun w => (q w).2.2.1, fun w => (q w).2.2.2, fun w => ⟨(hq w).1.1, (hq w).1.2.1, (hq w).1.2.2.2⟩, fun j => ?_⟩
  simp only [localAll, Bool.and_eq_true] at hl
  obtain ⟨s1, s2⟩ := start_slots hs hk
  refine Nat.le_trans (Nat.mul_le_mul_left _ (card_le_card fun w hw => ?_)) (batches_deep_tail h63 j l s1 s2 hl.2)
  exact mem_filter.2 ⟨mem_univ _, zip_over (work := fun o : ASt E × Nat × LSpace E Count E Count (ASt E) => o.2.1) (hq w).2 (mem_filter.1 hw).2⟩

/-- **C113, `tokenize`.** As in `C102_batches`: a text is made and split into tokens, and again after each batch of local edits, and the texts are legible and readable. With
all random levels the tokens are those of the text. For every `j`, at most `e * (2 / 3) ^ j / 4` of all assignments of random numbers, where `e` is the number of edits,
make any run after a batch evaluate more than `6 * k + 1` calls, with the same `k` as for `to_list`. -/
theorem C113_tokenize {ops : List (LOp Char)} {l : List (List (Nat × List (LOp Char)))} (hn : (LOp.cells ops ++ batchCells l).Nodup)
    (hst : .str "start" ∉ LOp.cells ops ++ batchCells l) (hl : localAll ops l = true) (hti : ∀ op ∈ ops, op.Titles)
    (hti' : ∀ es ∈ l, ∀ q ∈ es, ∀ op ∈ q.2, op.Titles) (hg : legibleText none false false (closed (onSides ([], []) ops)) = true)
    (hg' : legibleLists (closed (onSides ([], []) ops)) l = true)
    (hrd : ∀ its ∈ closed (onSides ([], []) ops) :: stages (closed (onSides ([], []) ops)) l, readable (elemsOf its) = true)
    {n : Nat} (h63 : n ≤ 2 ^ 63) (hs : (LOp.slots ops ++ batchSlots l).Nodup)
    (hk : ∀ k ∈ LOp.slots ops ++ batchSlots l, k < n) (σ : RMem Char Count) :
    ∃ (a : (Fin n → Fin (2 ^ 64)) → ASt Token × Option Nat) (work : (Fin n → Fin (2 ^ 64)) → Nat)
      (s : (Fin n → Fin (2 ^ 64)) → LSpace Char Count Token Count (ASt Token × Option Nat))
      (outs : (Fin n → Fin (2 ^ 64)) → List ((ASt Token × Option Nat) × Nat × LSpace Char Count Token Count (ASt Token × Option Nat))),
      (∀ w, (∃ f0, ∀ m, f0 ≤ m → (hrerunSession (M := Count) countedTok Space.empty (ops.map (LOp.at (drawn w))) (l.map (editsAt (drawn w))) m σ).map (·.1) =
          .ok (a w, work w, s w, outs w)) ∧
        Tokens (elemsOf (closed (onSides ([], []) ops))) (s w).mem (a w) ∧
        List.Forall₂ (fun (its : List (Item Char)) (o : (ASt Token × Option Nat) × Nat × LSpace Char Count Token Count (ASt Token × Option Nat)) =>
          Tokens (elemsOf its) o.2.2.mem o.1) (stages (closed (onSides ([], []) ops)) l) (outs w)) ∧
      ∀ j : Nat, 4 * 3 ^ j * (univ.filter fun w => ∃ q ∈ (outs w).zip (likelyDeeps j (closed (onSides ([], []) ops)) l), 6 * q.2 + 1 < q.1.2.1).card ≤
        (l.map List.length).sum * (2 ^ j * (2 ^ 64) ^ n) := by
  have h1 := tok_steps (n := n) hn hst hl hti hti' hg hg' hrd σ
  choose q hq using h1
  refine ⟨fun w => (q w).1, fun w => (q w).2.1, fun w => (q w).2.2.1, fun w => (q w).2.2.2, fun w => ⟨(hq w).1.1, (hq w).1.2.1, (hq w).1.2.2.2⟩, fun j => ?_⟩
  simp only [localAll, Bool.and_eq_true] at hl
  obtain ⟨s1, s2⟩ := start_slots hs hk
  refine Nat.le_trans (Nat.mul_le_mul_left _ (card_le_card fun w hw => ?_)) (batches_deep_tail h63 j l s1 s2 hl.2)
  exact mem_filter.2 ⟨mem_univ _, zip_over
    (work := fun o : (ASt Token × Option Nat) × Nat × LSpace Char Count Token Count (ASt Token × Option Nat) => o.2.1) (hq w).2 (mem_filter.1 hw).2⟩

/-! ### Sessions that meet the conditions -/

/-- For the session of `C98_list`, with 3 edits and 8 random numbers: all but one in 10 million assignments of random numbers keep `to_list` below the limits for `j = 40`,
which are for the runs after the two batches `[517, 257]`. -/
example (σ : RMem (Fin 64) Count) : (likelyDeeps 40 (closed (onSides ([], []) exUqSlots)) exUqSlotBatches).map (4 * · + 1) = [517, 257] ∧
    ∃ outs : (Fin 8 → Fin (2 ^ 64)) → List (ASt (Fin 64) × Nat × LSpace (Fin 64) Count (Fin 64) Count (ASt (Fin 64))),
      (∀ w, ∃ a work s f0, ∀ m, f0 ≤ m → (hrerunSession (M := Count) countedList Space.empty (exUqSlots.map (LOp.at (drawn w)))
        (exUqSlotBatches.map (editsAt (drawn w))) m σ).map (·.1) = .ok (a, work, s, outs w)) ∧
      10 ^ 7 * (univ.filter fun w => ∃ q ∈ (outs w).zip (likelyDeeps 40 (closed (onSides ([], []) exUqSlots)) exUqSlotBatches), 4 * q.2 + 1 < q.1.2.1).card ≤
        (2 ^ 64) ^ 8 := by
  refine ⟨by decide +kernel, ?_⟩
  obtain ⟨a, work, s, outs, h1, h2⟩ := C113_list (ops := exUqSlots) (l := exUqSlotBatches) (by decide +kernel) (by decide +kernel) (by decide +kernel)
    (by simp [exUqSlots, LOp.Titles]) (by
      intro es h1 q h2
      simp only [exUqSlotBatches, List.mem_cons, List.not_mem_nil, or_false] at h1
      rcases h1 with rfl | rfl <;> simp only [List.mem_cons, List.not_mem_nil, or_false] at h2
      · rcases h2 with rfl | rfl <;> simp [LOp.Titles]
      · subst h2; simp [LOp.Titles]) (n := 8) (by decide) (by decide +kernel) (by decide +kernel) σ
  refine ⟨outs, fun w => ⟨_, _, _, (h1 w).1⟩, ?_⟩
  have h3 := h2 40
  have e1 : (exUqSlotBatches.map List.length).sum = 3 := by decide +kernel
  rw [e1] at h3
  generalize (univ.filter fun w => ∃ q ∈ (outs w).zip (likelyDeeps 40 (closed (onSides ([], []) exUqSlots)) exUqSlotBatches), 4 * q.2 + 1 < q.1.2.1).card = c at h3 ⊢
  generalize (2 ^ 64) ^ 8 = N at h3 ⊢
  omega

/-- The same for `tokenize` and the session of `C102_batches`. -/
example (σ : RMem Char Count) : (likelyDeeps 40 (closed (onSides ([], []) exTokSlots)) exTokBatches).map (6 * · + 1) = [775, 385] ∧
    ∃ outs : (Fin 8 → Fin (2 ^ 64)) → List ((ASt Token × Option Nat) × Nat × LSpace Char Count Token Count (ASt Token × Option Nat)),
      (∀ w, ∃ a work s f0, ∀ m, f0 ≤ m → (hrerunSession (M := Count) countedTok Space.empty (exTokSlots.map (LOp.at (drawn w)))
        (exTokBatches.map (editsAt (drawn w))) m σ).map (·.1) = .ok (a, work, s, outs w)) ∧
      10 ^ 7 * (univ.filter fun w => ∃ q ∈ (outs w).zip (likelyDeeps 40 (closed (onSides ([], []) exTokSlots)) exTokBatches), 6 * q.2 + 1 < q.1.2.1).card ≤
        (2 ^ 64) ^ 8 := by
  refine ⟨by decide +kernel, ?_⟩
  obtain ⟨a, work, s, outs, h1, h2⟩ := C113_tokenize (ops := exTokSlots) (l := exTokBatches) (by decide +kernel) (by decide +kernel) (by decide +kernel)
    (by simp [exTokSlots, LOp.Titles]) (by
      intro es h1 q h2
      simp only [exTokBatches, List.mem_cons, List.not_mem_nil, or_false] at h1
      rcases h1 with rfl | rfl <;> simp only [List.mem_cons, List.not_mem_nil, or_false] at h2
      · rcases h2 with rfl | rfl <;> simp [LOp.Titles]
      · subst h2; simp [LOp.Titles]) (by decide +kernel) (by decide +kernel) (by decide +kernel) (n := 8) (by decide) (by decide +kernel) (by decide +kernel) σ
  refine ⟨outs, fun w => ⟨_, _, _, (h1 w).1⟩, ?_⟩
  have h3 := h2 40
  have e1 : (exTokBatches.map List.length).sum = 3 := by decide +kernel
  rw [e1] at h3
  generalize (univ.filter fun w => ∃ q ∈ (outs w).zip (likelyDeeps 40 (closed (onSides ([], []) exTokSlots)) exTokBatches), 6 * q.2 + 1 < q.1.2.1).card = c at h3 ⊢
  generalize (2 ^ 64) ^ 8 = N at h3 ⊢
  omega

end Iodyn.Incr
