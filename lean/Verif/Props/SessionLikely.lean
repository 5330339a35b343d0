import Verif.Props.SessionWork
/-
C107 how seldom the computations after the changes are dear: the number of random sequences for which they exceed a multiple of the mean.
-/
namespace Iodyn.Incr
open Iodyn.Heap Iodyn.Eval
variable {E F N A B Sp G : Type}

/-- Markov's inequality, counting: if the sum over all `w` is at most `T * a`, then at most `T * a / b` of them reach `b`. -/
theorem seldom {W : Type} [Fintype W] {f : W → Nat} {T a : Nat} (h : ∑ w, f w ≤ T * a) (b : Nat) :
    b * (Finset.univ.filter fun w => b ≤ f w).card ≤ T * a := by
  refine Nat.le_trans ?_ h
  calc _ = ∑ _w ∈ Finset.univ.filter fun w => b ≤ f w, b := by rw [Finset.sum_const, smul_eq_mul, Nat.mul_comm]
    _ ≤ ∑ w ∈ Finset.univ.filter fun w => b ≤ f w, f w := Finset.sum_le_sum fun w h => (Finset.mem_filter.1 h).2
    _ ≤ ∑ w, f w := Finset.sum_le_sum_of_subset (Finset.filter_subset _ _)

theorem perChange_pos (p : Params) : 0 < perChange p := by unfold perChange; omega

/-- More than `k` times the mean, in at most one of `k` cases. -/
theorem seldom_times {W : Type} [Fintype W] {f : W → Nat} {T c : Nat} {p : Params} (h : ∑ w, f w ≤ T * (c * perChange p)) (hc : 0 < c) (k : Nat) :
    k * (Finset.univ.filter fun w => k * (c * perChange p) ≤ f w).card ≤ T := by
  have h1 := seldom h (k * (c * perChange p))
  have h2 : 0 < c * perChange p := Nat.mul_pos hc (perChange_pos p)
  refine Nat.le_of_mul_le_mul_right (c := c * perChange p) ?_ h2
  calc _ = k * (c * perChange p) * (Finset.univ.filter fun w => k * (c * perChange p) ≤ f w).card := by ring
    _ ≤ _ := h1

/-- **C107, folds.** -/
theorem C107_fold [DecidableEq E] [DecidableEq B] {c : Fun E B} (hassoc : ∀ x y z, c.bin (c.bin x y) z = c.bin x (c.bin y z)) {q : Name} (C : Coord G E) {p : Params}
    (hp : InRange p) (hg : p.namegauge = 1) (hs : 0 < p.size) (h0 : 0 < p.batch) (hc : 0 < p.changes) {o : Edit} (ho : Possible p o) (coord : G) {n : Nat}
    (hn : drawsOf p ≤ n) (h63 : n ≤ 2 ^ 63) :
    ∃ outs : (Fin n → Fin (2 ^ 64)) → List (Option B × Nat × RTable E Count B),
      (∀ w, Ends (sessionH C (reads w) p coord 0 (editH C (reads w) o) (keeping (refold c.fns q)) Table.empty) (.ok (outs w, drawsOf p))) ∧
      ∀ k, k * (Finset.univ.filter fun w => k * (p.changes * perChange p) ≤ laterWork (outs w)).card ≤ (2 ^ 64) ^ n := by
  obtain ⟨outs, h1, h2⟩ := C106_fold hassoc (q := q) C hp hg hs h0 ho coord hn h63
  exact ⟨outs, fun w => (h1 w).1, seldom_times h2 hc⟩

/-- **C107, maps.** -/
theorem C107_map [DecidableEq E] [RazMeta F N] [DecidableEq F] [DecidableEq N] {f : E → F} (C : Coord G E) {p : Params}
    (hp : InRange p) (hg : p.namegauge = 1) (hs : 0 < p.size) (h0 : 0 < p.batch) (hc : 0 < p.changes) {o : Edit} (ho : Possible p o) (coord : G) {n : Nat}
    (hn : drawsOf p ≤ n) (h63 : n ≤ 2 ^ 63) :
    ∃ outs : (Fin n → Fin (2 ^ 64)) → List (HTree N × Nat × RSpace E Count F N),
      (∀ w, Ends (sessionH C (reads w) p coord 0 (editH C (reads w) o) (keeping (countedMap f)) Space.empty) (.ok (outs w, drawsOf p))) ∧
      ∀ k, k * (Finset.univ.filter fun w => k * (p.changes * perChange p) ≤ laterWork (outs w)).card ≤ (2 ^ 64) ^ n := by
  obtain ⟨outs, h1, h2⟩ := C106_map (N := N) (f := f) C hp hg hs h0 ho coord hn h63
  exact ⟨outs, fun w => (h1 w).1, seldom_times h2 hc⟩

/-- **C107, reverse and filter.** -/
theorem C107_rebuild [DecidableEq E] [RazMeta E N] [DecidableEq N] {c : Rebuild E} (C : Coord G E) {p : Params}
    (hp : InRange p) (hg : p.namegauge = 1) (hs : 0 < p.size) (h0 : 0 < p.batch) (hc : 0 < p.changes) {o : Edit} (ho : Possible p o) (coord : G) {n : Nat}
    (hn : drawsOf p ≤ n) (h63 : n ≤ 2 ^ 63) :
    ∃ outs : (Fin n → Fin (2 ^ 64)) → List (Option (HTree N) × Nat × GSpace E Count N),
      (∀ w, Ends (sessionH C (reads w) p coord 0 (editH C (reads w) o) (keeping (countedRebuild c)) Space.empty) (.ok (outs w, drawsOf p))) ∧
      ∀ k, k * (Finset.univ.filter fun w => k * (p.changes * perChange p) ≤ laterWork (outs w)).card ≤ (2 ^ 64) ^ n := by
  obtain ⟨outs, h1, h2⟩ := C106_rebuild (N := N) (c := c) C hp hg hs h0 ho coord hn h63
  exact ⟨outs, fun w => (h1 w).1, seldom_times h2 hc⟩

/-- **C107, crossover.rs without arguments.** For at least nine of ten random sequences, the folds after all 30 insertions together visit fewer nodes than the first fold. -/
theorem C107_crossing [DecidableEq E] [DecidableEq B] {c : Fun E B} (hassoc : ∀ x y z, c.bin (c.bin x y) z = c.bin x (c.bin y z)) {q : Name} (C : Coord G E) (coord : G) :
    ∃ outs : (Fin 10030 → Fin (2 ^ 64)) → List (Option B × Nat × RTable E Count B),
      (∀ w, Ends (sessionH C (reads w) crossing coord 0 (editH C (reads w) (.insert 1)) (keeping (refold c.fns q)) Table.empty) (.ok (outs w, 10030))) ∧
      9 * (2 ^ 64) ^ 10030 ≤ 10 * (Finset.univ.filter fun w => laterWork (outs w) < firstWork (outs w)).card := by
  obtain ⟨outs, h1, h2, -⟩ := C106_fold_crossing hassoc (q := q) C coord
  refine ⟨outs, fun w => (h1 w).1, ?_⟩
  have h3 := seldom h2 19999
  have h4 := Finset.card_filter_add_card_filter_not (s := Finset.univ) fun w : Fin 10030 → Fin (2 ^ 64) => laterWork (outs w) < firstWork (outs w)
  rw [Finset.card_univ, Fintype.card_fun, Fintype.card_fin, Fintype.card_fin] at h4
  have h5 : (Finset.univ.filter fun w => ¬ laterWork (outs w) < firstWork (outs w)) = Finset.univ.filter fun w => 19999 ≤ laterWork (outs w) := by
    refine Finset.filter_congr fun w _ => ?_
    rw [(h1 w).2.2, Nat.not_lt]
  rw [h5] at h4
  generalize (2 ^ 64) ^ 10030 = T at *
  omega

/-! ### Cases that meet the conditions -/

/-- The session of 40 elements: in at most a third of the cases the four folds after the edits visit 348 nodes or more. -/
example : ∃ outs : (Fin 28 → Fin (2 ^ 64)) → List (Option Nat × Nat × RTable Nat Count Nat),
    (∀ w, Ends (sessionH exCoord (reads w) exLong 0 0 (editH exCoord (reads w) (.insert 2)) (keeping (refold sumF.fns (.str "sum"))) Table.empty)
        (.ok (outs w, 28))) ∧
    3 * (Finset.univ.filter fun w => 348 ≤ laterWork (outs w)).card ≤ (2 ^ 64) ^ 28 := by
  obtain ⟨outs, h1, h2⟩ := C107_fold (c := sumF) (q := .str "sum") (by intro x y z; exact Nat.add_assoc x y z) exCoord (p := exLong)
    ⟨by decide, by decide, by decide, by decide⟩ rfl (by decide) (by decide) (by decide) (o := .insert 2) (.inl ⟨rfl, .inl (by decide)⟩) 0 (n := 28) (by decide) (by decide)
  exact ⟨outs, h1, h2 3⟩

/-- Mapping and reversing the same sequence. -/
example : (∃ outs : (Fin 28 → Fin (2 ^ 64)) → List (HTree Count × Nat × RSpace Nat Count Nat Count),
      3 * (Finset.univ.filter fun w => 348 ≤ laterWork (outs w)).card ≤ (2 ^ 64) ^ 28) ∧
    ∃ outs : (Fin 28 → Fin (2 ^ 64)) → List (Option (HTree Count) × Nat × GSpace Nat Count Count),
      3 * (Finset.univ.filter fun w => 348 ≤ laterWork (outs w)).card ≤ (2 ^ 64) ^ 28 := by
  obtain ⟨outs, -, h2⟩ := C107_map (N := Count) (f := fun x : Nat => x + 1) exCoord (p := exLong)
    ⟨by decide, by decide, by decide, by decide⟩ rfl (by decide) (by decide) (by decide) (o := .append 2) (.inr rfl) 0 (n := 28) (by decide) (by decide)
  obtain ⟨outs', -, h2'⟩ := C107_rebuild (N := Count) (c := Rebuild.reverse (E := Nat)) exCoord (p := exLong)
    ⟨by decide, by decide, by decide, by decide⟩ rfl (by decide) (by decide) (by decide) (o := .append 2) (.inr rfl) 0 (n := 28) (by decide) (by decide)
  exact ⟨⟨outs, h2 3⟩, outs', h2' 3⟩

/-- Sums, as for crossover.rs. -/
example : ∃ outs : (Fin 10030 → Fin (2 ^ 64)) → List (Option Nat × Nat × RTable Nat Count Nat),
    9 * (2 ^ 64) ^ 10030 ≤ 10 * (Finset.univ.filter fun w => laterWork (outs w) < firstWork (outs w)).card := by
  obtain ⟨outs, -, h⟩ := C107_crossing (c := sumF) (q := .str "sum") (by intro x y z; exact Nat.add_assoc x y z) exCoord 0
  exact ⟨outs, h⟩

end Iodyn.Incr
