import Verif.Proof.TailWork
import Verif.Props.SessionWork
/-
C108 in all but very few sessions every computation after a change is cheap.
-/
namespace Iodyn.Incr
open Iodyn.Heap Iodyn.Eval
variable {E F N A B Sp G : Type}

/-- The work after the changes is bounded by the ways to their places. -/
theorem later_paths [DecidableEq E] {run : HTree Count → Sp → HR E Count (A × Nat × Sp)} {val : RazTree E Count → P B} {Rel : B → A → Sp → Prop}
    {Hist : Sp → List (Tree (Tr × TreeData E Count)) → Prop} (hR : Reuses run val Rel Hist) {new : Sp} (hnew : Hist new [])
    (hv : ∀ t : RazTree E Count, t.Reachable .edit → ∃ b, val t = .ok b)
    {C : Coord G E} {p : Params} (hp : InRange p) (hg : p.namegauge = 1) (hs : 0 < p.size) (h0 : 0 < p.batch) {o : Edit} (ho : Possible p o) {coord : G} {n : Nat}
    (hn : drawsOf p ≤ n) {w : Fin n → Fin (2 ^ 64)} {outs : List (A × Nat × Sp)} {d : Nat}
    (h : Ends (sessionH C (reads w) p coord 0 (editH C (reads w) o) (keeping run) new) (.ok (outs, d))) :
    List.Forall₂ (fun (k : Nat) (o : A × Nat × Sp) => o.2.1 ≤ 2 * k + 1)
      (pathBatches (drawn w) (startSketch C p coord).items ((startSketch C p coord).plans C p.datagauge o p.changes)) outs.tail := by
  have hos : o.size = p.batch := by
    rcases ho with ⟨rfl, -⟩ | rfl <;> rfl
  have hm : p.size + p.changes * p.batch < usizeMax := by
    have := hp.counters
    rw [Nat.mul_add] at this
    omega
  obtain ⟨as, rng', k1, -⟩ := sessionV_total C (reads w) p coord 0 hp ho (scratch := withTree val) (Q := fun _ _ => True) (fun t hr => by
    obtain ⟨b, hb⟩ := hv t hr
    exact ⟨(t, b), bind_ok.2 ⟨b, hb, rfl⟩, trivial⟩)
  obtain ⟨outs', e1, -, e3, -⟩ := session_along hR hnew hg hs hos h0 hn hm k1
  have := h.unique e1
  simp only [Except.ok.injEq, Prod.mk.injEq] at this
  rw [this.1]
  exact e3

/-- From the ways to the work. -/
theorem later_tail [DecidableEq E] {run : HTree Count → Sp → HR E Count (A × Nat × Sp)} {val : RazTree E Count → P B} {Rel : B → A → Sp → Prop}
    {Hist : Sp → List (Tree (Tr × TreeData E Count)) → Prop} (hR : Reuses run val Rel Hist) {new : Sp} (hnew : Hist new [])
    (hv : ∀ t : RazTree E Count, t.Reachable .edit → ∃ b, val t = .ok b)
    {C : Coord G E} {p : Params} (hp : InRange p) (hg : p.namegauge = 1) (hs : 0 < p.size) (h0 : 0 < p.batch) {o : Edit} (ho : Possible p o) {coord : G} {n : Nat}
    (hn : drawsOf p ≤ n) (h63 : n ≤ 2 ^ 63) {outs : (Fin n → Fin (2 ^ 64)) → List (A × Nat × Sp)}
    (h : ∀ w, Ends (sessionH C (reads w) p coord 0 (editH C (reads w) o) (keeping run) new) (.ok (outs w, drawsOf p))) (j : Nat) :
    4 * 3 ^ j * (Finset.univ.filter fun w => ∃ a ∈ (outs w).tail, dear p j ≤ a.2.1).card ≤ p.changes * (2 ^ j * (2 ^ 64) ^ n) := by
  have hos : o.size = p.batch := by
    rcases ho with ⟨rfl, -⟩ | rfl <;> rfl
  have hlen := start_elems C p coord
  have hne : elemsOf (startSketch C p coord).items ≠ [] := fun h => by
    rw [h] at hlen
    simp at hlen
    omega
  have hsl := Sketch.plans_slots (C := C) (dg := p.datagauge) (o := o) p.changes (startSketch C p coord)
  have hr : ∀ x, (levelsOf (startSketch C p coord).items ++ batchSlots ((startSketch C p coord).plans C p.datagauge o p.changes)).count x ≤
      (List.range' 0 (p.size / p.datagauge + p.changes * (o.size / p.datagauge + 1))).count x := fun x => by
    have := start_levels C p coord x
    have := hsl.count_le x
    rw [List.count_append, ← List.range'_append_1, List.count_append, Nat.zero_add]
    simp only [startSketch] at *
    omega
  have hmk : (marksOf (startSketch C p coord).items).length ≤ p.size / p.datagauge := by
    have := Sketch.length_of_count (start_levels C p coord)
    simpa [levelsOf] using this
  have ht := Sketch.plans_tail (C := C) (dg := p.datagauge) (o := o) h63 j (a := drawsOf p) p.changes (startSketch C p coord) hne
    (slots_nodup fun x => Nat.le_trans (hr x) (nodup_slots List.nodup_range' x)) (fun k hk => by
      have h2 := List.count_pos_iff.1 (Nat.lt_of_lt_of_le (List.count_pos_iff.2 hk) (hr k))
      rw [List.mem_range'_1, hos] at h2
      unfold drawsOf at hn
      omega) (by rw [hos]; unfold drawsOf; omega)
  refine Nat.le_trans (Nat.mul_le_mul_left _ (Finset.card_le_card fun w hw => ?_)) ht
  obtain ⟨a, ha, hle⟩ := (Finset.mem_filter.1 hw).2
  refine Finset.mem_filter.2 ⟨Finset.mem_univ _, ?_⟩
  obtain ⟨i, hi, rfl⟩ := List.mem_iff_getElem.1 ha
  have hf := later_paths hR hnew hv hp hg hs h0 ho hn (h w)
  have hi' := hi
  rw [← hf.length_eq] at hi'
  refine ⟨_, List.getElem_mem hi', ?_⟩
  have := hf.get hi' hi
  simp only [List.get_eq_getElem] at this
  rw [hos]
  unfold dear at hle
  omega

/-! ### The theorems -/

/-- **C108, folds.** Of all sequences of random numbers, at most `changes * (2 / 3) ^ j / 4` make any of the folds after the changes visit
`2 * (4 * log (d + 2) + j + batch / datagauge + 1)` nodes or more, where `d` is the number of random numbers that the session takes. -/
theorem C108_fold [DecidableEq E] [DecidableEq B] {c : Fun E B} (hassoc : ∀ x y z, c.bin (c.bin x y) z = c.bin x (c.bin y z)) {q : Name} (C : Coord G E) {p : Params}
    (hp : InRange p) (hg : p.namegauge = 1) (hs : 0 < p.size) (h0 : 0 < p.batch) {o : Edit} (ho : Possible p o) (coord : G) {n : Nat} (hn : drawsOf p ≤ n)
    (h63 : n ≤ 2 ^ 63) :
    ∃ outs : (Fin n → Fin (2 ^ 64)) → List (Option B × Nat × RTable E Count B),
      (∀ w, Ends (sessionH C (reads w) p coord 0 (editH C (reads w) o) (keeping (refold c.fns q)) Table.empty) (.ok (outs w, drawsOf p)) ∧
        Matches C p coord o (fun xs a => a.1 = fold1 c.bin (xs.map c.init)) (outs w) ∧ firstWork (outs w) = 2 * ((p.size - 1) / p.datagauge) + 1) ∧
      ∀ j, 4 * 3 ^ j * (Finset.univ.filter fun w => ∃ a ∈ (outs w).tail, dear p j ≤ a.2.1).card ≤ p.changes * (2 ^ j * (2 ^ 64) ^ n) := by
  obtain ⟨outs, h1, -⟩ := C106_fold hassoc (q := q) C hp hg hs h0 ho coord hn h63
  exact ⟨outs, h1, later_tail (fold_reuses c.fns q) ⟨.start, fun _ => rfl⟩
    (fun t hr => ⟨_, C10_fold_up_edited_partial (Reach.mono (by simp [Usage.edit]) (by simp [Usage.edit]) hr) c.init c.bin hassoc⟩) hp hg hs h0 ho hn h63 fun w => (h1 w).1⟩

/-- **C108, maps.** -/
theorem C108_map [DecidableEq E] [RazMeta F N] [DecidableEq F] [DecidableEq N] {f : E → F} (C : Coord G E) {p : Params}
    (hp : InRange p) (hg : p.namegauge = 1) (hs : 0 < p.size) (h0 : 0 < p.batch) {o : Edit} (ho : Possible p o) (coord : G) {n : Nat} (hn : drawsOf p ≤ n)
    (h63 : n ≤ 2 ^ 63) :
    ∃ outs : (Fin n → Fin (2 ^ 64)) → List (HTree N × Nat × RSpace E Count F N),
      (∀ w, Ends (sessionH C (reads w) p coord 0 (editH C (reads w) o) (keeping (countedMap f)) Space.empty) (.ok (outs w, drawsOf p)) ∧
        Matches C p coord o (fun xs a => ∃ t : RazTree F N, Holds a.2.2.mem a.1 t ∧ t.elems = xs.map f) (outs w) ∧
        firstWork (outs w) = 2 * ((p.size - 1) / p.datagauge) + 1) ∧
      ∀ j, 4 * 3 ^ j * (Finset.univ.filter fun w => ∃ a ∈ (outs w).tail, dear p j ≤ a.2.1).card ≤ p.changes * (2 ^ j * (2 ^ 64) ^ n) := by
  obtain ⟨outs, h1, -⟩ := C106_map (N := N) (f := f) C hp hg hs h0 ho coord hn h63
  exact ⟨outs, h1, later_tail (map_reuses f) .start (fun t hr => (C15_map (N := N) hr f).imp fun _ h => h.1) hp hg hs h0 ho hn h63 fun w => (h1 w).1⟩

/-- **C108, reverse and filter.** -/
theorem C108_rebuild [DecidableEq E] [RazMeta E N] [DecidableEq N] {c : Rebuild E} (C : Coord G E) {p : Params}
    (hp : InRange p) (hg : p.namegauge = 1) (hs : 0 < p.size) (h0 : 0 < p.batch) {o : Edit} (ho : Possible p o) (coord : G) {n : Nat} (hn : drawsOf p ≤ n)
    (h63 : n ≤ 2 ^ 63) :
    ∃ outs : (Fin n → Fin (2 ^ 64)) → List (Option (HTree N) × Nat × GSpace E Count N),
      (∀ w, Ends (sessionH C (reads w) p coord 0 (editH C (reads w) o) (keeping (countedRebuild c)) Space.empty) (.ok (outs w, drawsOf p)) ∧
        Matches C p coord o (fun xs a => ∃ x, ∃ t : RazTree E N, a.1 = some x ∧ Holds a.2.2.mem x t ∧ t.elems = c.list xs) (outs w) ∧
        firstWork (outs w) = 2 * ((p.size - 1) / p.datagauge) + 1) ∧
      ∀ j, 4 * 3 ^ j * (Finset.univ.filter fun w => ∃ a ∈ (outs w).tail, dear p j ≤ a.2.1).card ≤ p.changes * (2 ^ j * (2 ^ 64) ^ n) := by
  obtain ⟨outs, h1, -⟩ := C106_rebuild (N := N) (c := c) C hp hg hs h0 ho coord hn h63
  exact ⟨outs, h1, later_tail (rebuild_reuses c) .start (fun t hr => Heap.rebuild_ok (N := N) c hr.any) hp hg hs h0 ho hn h63 fun w => (h1 w).1⟩

theorem sum_at_most {b : Nat} : ∀ (l : List (A × Nat × Sp)), (∀ a ∈ l, a.2.1 ≤ b) → (l.map (·.2.1)).sum ≤ l.length * b
  | [], _ => by simp
  | a :: l, h => by
    have h1 := h a List.mem_cons_self
    have h2 := sum_at_most l fun x hx => h x (List.mem_cons_of_mem _ hx)
    simp only [List.map_cons, List.sum_cons, List.length_cons, Nat.succ_mul]
    omega

/-- If all are cheap, then together they are cheaper than the first computation. -/
theorem dear_later {n b d k : Nat} {outs : (Fin n → Fin (2 ^ 64)) → List (A × Nat × Sp)} (hf : ∀ w, firstWork (outs w) = b) (hl : ∀ w, (outs w).length = k + 1)
    (hb : k * (d - 1) < b) :
    (Finset.univ.filter fun w => firstWork (outs w) ≤ laterWork (outs w)).card ≤ (Finset.univ.filter fun w => ∃ a ∈ (outs w).tail, d ≤ a.2.1).card :=
  Finset.card_le_card fun w hw => by
    have hle := (Finset.mem_filter.1 hw).2
    refine Finset.mem_filter.2 ⟨Finset.mem_univ _, ?_⟩
    by_contra hno
    have hsum := sum_at_most (b := d - 1) (outs w).tail fun a ha => by
      by_contra hgt
      exact hno ⟨a, ha, by omega⟩
    rw [List.length_tail, hl, Nat.add_sub_cancel] at hsum
    rw [hf] at hle
    unfold laterWork at hle
    omega

/-- **C108, crossover.rs without arguments.** For all but one in `10 ^ 43` of the sequences of random numbers, the folds after all 30 insertions together visit fewer
nodes than the first fold. -/
theorem C108_crossing [DecidableEq E] [DecidableEq B] {c : Fun E B} (hassoc : ∀ x y z, c.bin (c.bin x y) z = c.bin x (c.bin y z)) {q : Name} (C : Coord G E) (coord : G) :
    ∃ outs : (Fin 10030 → Fin (2 ^ 64)) → List (Option B × Nat × RTable E Count B),
      (∀ w, Ends (sessionH C (reads w) crossing coord 0 (editH C (reads w) (.insert 1)) (keeping (refold c.fns q)) Table.empty) (.ok (outs w, 10030))) ∧
      10 ^ 43 * (Finset.univ.filter fun w => firstWork (outs w) ≤ laterWork (outs w)).card ≤ (2 ^ 64) ^ 10030 := by
  obtain ⟨outs, h1, h2⟩ := C108_fold hassoc (q := q) C crossing_range rfl (by decide) (by decide) (o := .insert 1) (.inl ⟨rfl, .inl (by decide)⟩) coord (n := 10030)
    (by decide) (by decide)
  refine ⟨outs, fun w => (h1 w).1, ?_⟩
  have h3 := h2 250
  have hd : dear crossing 250 = 614 := by decide +kernel
  have hsub := dear_later (b := 19999) (d := dear crossing 250) (fun w => (h1 w).2.2) (fun w => (h1 w).2.1.1) (by rw [hd]; decide)
  have h4 := Nat.le_trans (Nat.mul_le_mul_left (4 * 3 ^ 250) hsub) h3
  have hch : crossing.changes = 30 := rfl
  rw [hch] at h4
  generalize (Finset.univ.filter fun w => firstWork (outs w) ≤ laterWork (outs w)).card = c at *
  generalize (2 ^ 64) ^ 10030 = T at *
  have hk : 10 ^ 43 * (30 * 2 ^ 250) ≤ 4 * 3 ^ 250 := by decide +kernel
  refine Nat.le_of_mul_le_mul_left (c := 30 * 2 ^ 250) ?_ (Nat.mul_pos (by decide) (Nat.pow_pos (by decide)))
  calc 30 * 2 ^ 250 * (10 ^ 43 * c) = 10 ^ 43 * (30 * 2 ^ 250) * c := by ring
    _ ≤ 4 * 3 ^ 250 * c := Nat.mul_le_mul_right _ hk
    _ ≤ 30 * (2 ^ 250 * T) := h4
    _ = _ := by ring

/-! ### Cases that meet the conditions -/

/-- The session of 40 elements: in at most 2 of 1000 cases any of the four folds after the edits visits 76 nodes or more. -/
example : ∃ outs : (Fin 28 → Fin (2 ^ 64)) → List (Option Nat × Nat × RTable Nat Count Nat),
    (∀ w, Ends (sessionH exCoord (reads w) exLong 0 0 (editH exCoord (reads w) (.insert 2)) (keeping (refold sumF.fns (.str "sum"))) Table.empty)
        (.ok (outs w, 28)) ∧ firstWork (outs w) = 39) ∧
    500 * (Finset.univ.filter fun w => ∃ a ∈ (outs w).tail, 76 ≤ a.2.1).card ≤ (2 ^ 64) ^ 28 := by
  obtain ⟨outs, h1, h2⟩ := C108_fold (c := sumF) (q := .str "sum") (by intro x y z; exact Nat.add_assoc x y z) exCoord (p := exLong)
    ⟨by decide, by decide, by decide, by decide⟩ rfl (by decide) (by decide) (o := .insert 2) (.inl ⟨rfl, .inl (by decide)⟩) 0 (n := 28) (by decide) (by decide)
  refine ⟨outs, fun w => ⟨(h1 w).1, (h1 w).2.2⟩, ?_⟩
  have h3 := h2 16
  rw [show dear exLong 16 = 76 by decide +kernel, show exLong.changes = 4 from rfl] at h3
  generalize (2 ^ 64) ^ 28 = T at *
  omega

/-- Mapping and reversing the same sequence. -/
example : (∃ outs : (Fin 28 → Fin (2 ^ 64)) → List (HTree Count × Nat × RSpace Nat Count Nat Count),
      (∀ w, firstWork (outs w) = 39) ∧ 4 * 3 ^ 16 * (Finset.univ.filter fun w => ∃ a ∈ (outs w).tail, dear exLong 16 ≤ a.2.1).card ≤ 4 * (2 ^ 16 * (2 ^ 64) ^ 28)) ∧
    ∃ outs : (Fin 28 → Fin (2 ^ 64)) → List (Option (HTree Count) × Nat × GSpace Nat Count Count),
      (∀ w, firstWork (outs w) = 39) ∧ 4 * 3 ^ 16 * (Finset.univ.filter fun w => ∃ a ∈ (outs w).tail, dear exLong 16 ≤ a.2.1).card ≤ 4 * (2 ^ 16 * (2 ^ 64) ^ 28) := by
  obtain ⟨outs, h1, h2⟩ := C108_map (N := Count) (f := fun x : Nat => x + 1) exCoord (p := exLong)
    ⟨by decide, by decide, by decide, by decide⟩ rfl (by decide) (by decide) (o := .append 2) (.inr rfl) 0 (n := 28) (by decide) (by decide)
  obtain ⟨outs', h1', h2'⟩ := C108_rebuild (N := Count) (c := Rebuild.reverse (E := Nat)) exCoord (p := exLong)
    ⟨by decide, by decide, by decide, by decide⟩ rfl (by decide) (by decide) (o := .append 2) (.inr rfl) 0 (n := 28) (by decide) (by decide)
  exact ⟨⟨outs, fun w => (h1 w).2.2, h2 16⟩, outs', fun w => (h1' w).2.2, h2' 16⟩

/-- Sums, as for crossover.rs. -/
example : ∃ outs : (Fin 10030 → Fin (2 ^ 64)) → List (Option Nat × Nat × RTable Nat Count Nat),
    10 ^ 43 * (Finset.univ.filter fun w => firstWork (outs w) ≤ laterWork (outs w)).card ≤ (2 ^ 64) ^ 10030 := by
  obtain ⟨outs, -, h⟩ := C108_crossing (c := sumF) (q := .str "sum") (by intro x y z; exact Nat.add_assoc x y z) exCoord 0
  exact ⟨outs, h⟩

end Iodyn.Incr
