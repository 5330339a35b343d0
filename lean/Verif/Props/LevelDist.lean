import Verif.Model.Levels
import Verif.Spec.LevelDist
import Verif.Props.Tree
import Verif.Props.Canon
/-
C77: the distribution of levels. C78: the example tree of the evaluation suite.
-/
namespace Iodyn

/-! ### C77 -/

theorem genBranchLevel_iff (n k : Nat) (hk : k < 63) :
    genBranchLevel (BitVec.ofNat 64 n) = k + 1 ↔ n % 2 ^ (k + 1) = 2 ^ k := by
  obtain ⟨j, h1, h2, h3, h4⟩ := C29_level (BitVec.ofNat 64 n)
  have bit : ∀ i, i < 64 → (BitVec.ofNat 64 n).getLsbD i = n.testBit i := by
    intro i hi; rw [BitVec.getLsbD_ofNat]; simp [hi]
  constructor
  · intro h
    obtain rfl : j = k := by omega
    apply Nat.eq_of_testBit_eq
    intro i
    rw [Nat.testBit_mod_two_pow, Nat.testBit_two_pow]
    rcases Nat.lt_trichotomy i j with hi | hi | hi
    · have := h3 i hi; rw [bit i (by omega)] at this
      simp [this]; omega
    · subst hi
      have := h4 hk; rw [bit i (by omega)] at this
      simp [this]
    · have : ¬ i < j + 1 := by omega
      simp [this]; omega
  · intro h
    have hb : ∀ i, i ≤ k → n.testBit i = decide (k = i) := by
      intro i hi
      have := congrArg (fun m => m.testBit i) h
      simp only [Nat.testBit_mod_two_pow, Nat.testBit_two_pow] at this
      simpa [show i < k + 1 by omega] using this
    rcases Nat.lt_trichotomy j k with hj | hj | hj
    · have := h4 (by omega)
      rw [bit j (by omega), hb j (by omega)] at this
      simp at this; omega
    · omega
    · have := h3 k hj
      rw [bit k (by omega), hb k (Nat.le_refl _)] at this
      simp at this

theorem genBranchLevel_top (n : Nat) : genBranchLevel (BitVec.ofNat 64 n) = 64 ↔ n % 2 ^ 63 = 0 := by
  obtain ⟨j, h1, h2, h3, h4⟩ := C29_level (BitVec.ofNat 64 n)
  have bit : ∀ i, i < 64 → (BitVec.ofNat 64 n).getLsbD i = n.testBit i := by
    intro i hi; rw [BitVec.getLsbD_ofNat]; simp [hi]
  constructor
  · intro h
    obtain rfl : j = 63 := by omega
    apply Nat.eq_of_testBit_eq
    intro i
    rw [Nat.testBit_mod_two_pow]
    by_cases hi : i < 63
    · have := h3 i hi; rw [bit i (by omega)] at this
      simp [this]
    · simp [hi]
  · intro h
    by_cases hj : j < 63
    · have := h4 hj
      rw [bit j (by omega)] at this
      have h5 := congrArg (fun m => m.testBit j) h
      simp only [Nat.testBit_mod_two_pow] at h5
      simp [this] at h5; omega
    · omega

/-- Numbers below `2 ^ (a + b)` with a given remainder modulo `2 ^ a`. -/
theorem card_residue (a b r : Nat) (hr : r < 2 ^ a) :
    ((Finset.range (2 ^ (a + b))).filter (fun n => n % 2 ^ a = r)).card = 2 ^ b := by
  have e : (Finset.range (2 ^ (a + b))).filter (fun n => n % 2 ^ a = r) =
      (Finset.range (2 ^ b)).image (fun q => r + 2 ^ a * q) := by
    ext n
    simp only [Finset.mem_filter, Finset.mem_range, Finset.mem_image]
    constructor
    · rintro ⟨h1, h2⟩
      refine ⟨n / 2 ^ a, ?_, ?_⟩
      · apply Nat.div_lt_of_lt_mul; rwa [← Nat.pow_add]
      · rw [← h2]; exact Nat.mod_add_div n (2 ^ a)
    · rintro ⟨q, h1, rfl⟩
      refine ⟨?_, by rw [Nat.add_mul_mod_self_left, Nat.mod_eq_of_lt hr]⟩
      calc r + 2 ^ a * q < 2 ^ a + 2 ^ a * q := by omega
        _ = 2 ^ a * (q + 1) := by rw [Nat.mul_succ]; omega
        _ ≤ 2 ^ a * 2 ^ b := Nat.mul_le_mul_left _ (by omega)
        _ = 2 ^ (a + b) := (Nat.pow_add ..).symm
  rw [e, Finset.card_image_of_injective, Finset.card_range]
  intro x y h
  have : 2 ^ a * x = 2 ^ a * y := by simpa using h
  exact Nat.eq_of_mul_eq_mul_left (Nat.two_pow_pos a) this

theorem perfectNodes_eq (h k : Nat) (h1 : 1 ≤ k) (h2 : k ≤ h) : perfectNodes h k = 2 ^ (h - k) := by
  induction h with
  | zero => omega
  | succ h ih =>
    unfold perfectNodes
    split
    · subst k; simp
    · rw [ih (by omega), show h + 1 - k = (h - k) + 1 by omega, Nat.pow_succ]; omega

/-- **C77.** Levels are distributed like the heights of the nodes of a balanced binary tree: for every height
`k` below 64, as many 64-bit numbers give level `k` as there are nodes of height `k` in the perfect binary tree of
height 64. -/
theorem C77_distribution (k : Nat) (h1 : 1 ≤ k) (h2 : k ≤ 63) :
    wordsWith genBranchLevel k = perfectNodes 64 k := by
  obtain ⟨j, rfl⟩ : ∃ j, k = j + 1 := ⟨k - 1, by omega⟩
  rw [perfectNodes_eq 64 (j + 1) h1 (by omega)]
  unfold wordsWith
  simp only [genBranchLevel_iff _ j (by omega)]
  have := card_residue (j + 1) (64 - (j + 1)) (2 ^ j) (Nat.pow_lt_pow_right (by decide) (by omega))
  rwa [show j + 1 + (64 - (j + 1)) = 64 by omega] at this

/-- **C77.** Two numbers give the greatest level, 64: one more than the root, because there is one more number
than there are nodes. -/
theorem C77_top : wordsWith genBranchLevel 64 = perfectNodes 64 64 + 1 := by
  rw [perfectNodes_eq 64 64 (by decide) (by decide)]
  unfold wordsWith
  simp only [genBranchLevel_top]
  exact card_residue 63 1 0 (by decide)

/-- **C77.** No number gives any other level. -/
theorem C77_no_other (k : Nat) (h : k = 0 ∨ 65 ≤ k) : wordsWith genBranchLevel k = 0 := by
  unfold wordsWith
  rw [Finset.card_eq_zero, Finset.filter_eq_empty_iff]
  intro n _ hn
  have := C29_level_range (BitVec.ofNat 64 n)
  omega

/-- The hypotheses are met: half of all numbers give level 1, `2 ^ 60` give level 4. -/
example : wordsWith genBranchLevel 1 = 2 ^ 63 ∧ wordsWith genBranchLevel 4 = 2 ^ 60 ∧ wordsWith genBranchLevel 64 = 2 := by
  refine ⟨?_, ?_, ?_⟩
  · rw [C77_distribution 1 (by decide) (by decide), perfectNodes_eq _ _ (by decide) (by decide)]
  · rw [C77_distribution 4 (by decide) (by decide), perfectNodes_eq _ _ (by decide) (by decide)]
  · rw [C77_top, perfectNodes_eq _ _ (by decide) (by decide)]

/-- **C77.** `NegBin` generates the same levels (the cast to `u8` loses nothing), and `inc_level` too. -/
theorem C77_same_generator (num : BitVec 64) :
    (negBinRand num).val.toNat = genBranchLevel num ∧ incLevel num = genBranchLevel num := by
  have := C29_level_range num
  refine ⟨?_, rfl⟩
  have h : (negBinRand num).val.toNat = genBranchLevel num % 2 ^ 8 := by
    unfold negBinRand genBranchLevel; exact BitVec.toNat_ofNat ..
  rw [h]
  apply Nat.mod_eq_of_lt
  omega

section order
variable {bits : Nat}

/-- **C77.** `l_min` and `l_max` are the least and the greatest level. -/
theorem C77_bounds (l : PrimLevel bits) : ¬ l < PrimLevel.lMin ∧ ¬ PrimLevel.lMax < l := by
  constructor
  · intro h
    have h' : l.val.toNat < (0#bits).toNat := h
    simp at h'
  · intro h
    have h' : (BitVec.allOnes bits).toNat < l.val.toNat := h
    rw [BitVec.toNat_allOnes] at h'
    have := l.val.isLt
    omega

/-- **C77.** `l_inc` returns the next greater level: a greater one, with none in between. It fails exactly at the
greatest level. -/
theorem C77_l_inc (l : PrimLevel bits) :
    (l = PrimLevel.lMax ∧ l.lInc = .error .overflow) ∨
    (l ≠ PrimLevel.lMax ∧ ∃ l', l.lInc = .ok l' ∧ l < l' ∧ ∀ x, ¬ (l < x ∧ x < l')) := by
  have hb := l.val.isLt
  by_cases h : l.val.toNat + 1 < 2 ^ bits
  · right
    have e : (l.val + 1#bits).toNat = l.val.toNat + 1 := by
      rw [BitVec.toNat_add, BitVec.toNat_ofNat, Nat.add_mod_mod, Nat.mod_eq_of_lt h]
    refine ⟨?_, ⟨l.val + 1#bits⟩, by simp [PrimLevel.lInc, h], ?_, ?_⟩
    · rintro rfl
      simp only [PrimLevel.lMax, BitVec.toNat_allOnes] at h
      omega
    · show l.val.toNat < (l.val + 1#bits).toNat
      omega
    · rintro x ⟨h1, h2⟩
      have h1' : l.val.toNat < x.val.toNat := h1
      have h2' : x.val.toNat < (l.val + 1#bits).toNat := h2
      omega
  · left
    refine ⟨?_, by simp [PrimLevel.lInc, h]⟩
    rcases l with ⟨v⟩
    simp only [PrimLevel.lMax, PrimLevel.mk.injEq]
    apply BitVec.eq_of_toNat_eq
    rw [BitVec.toNat_allOnes]
    simp only at h hb; omega

/-- **C77.** `l_dec` returns the next lesser level. It fails exactly at the least level. -/
theorem C77_l_dec (l : PrimLevel bits) :
    (l = PrimLevel.lMin ∧ l.lDec = .error .overflow) ∨
    (l ≠ PrimLevel.lMin ∧ ∃ l', l.lDec = .ok l' ∧ l' < l ∧ ∀ x, ¬ (l' < x ∧ x < l)) := by
  have hb := l.val.isLt
  by_cases h : 1 ≤ l.val.toNat
  · right
    have e : (l.val - 1#bits).toNat = l.val.toNat - 1 := by
      have h1 : (1#bits).toNat = 1 := by rw [BitVec.toNat_ofNat]; exact Nat.mod_eq_of_lt (by omega)
      rw [BitVec.toNat_sub_of_le, h1]
      rw [BitVec.le_def, h1]; exact h
    refine ⟨?_, ⟨l.val - 1#bits⟩, by simp [PrimLevel.lDec, h], ?_, ?_⟩
    · rintro rfl; simp [PrimLevel.lMin] at h
    · show (l.val - 1#bits).toNat < l.val.toNat
      omega
    · rintro x ⟨h1, h2⟩
      have h1' : (l.val - 1#bits).toNat < x.val.toNat := h1
      have h2' : x.val.toNat < l.val.toNat := h2
      omega
  · left
    refine ⟨?_, by simp [PrimLevel.lDec, h]⟩
    rcases l with ⟨v⟩
    simp only [PrimLevel.lMin, PrimLevel.mk.injEq]
    apply BitVec.eq_of_toNat_eq
    simp only at h; simp; omega

/-- **C77.** Around a generated level both neighbours exist: leaves (`l_min`) stay below all branches. -/
theorem C77_generated (num : BitVec 64) :
    PrimLevel.lMin < negBinRand num ∧ (∃ l, (negBinRand num).lInc = .ok l) ∧ (∃ l, (negBinRand num).lDec = .ok l) := by
  have h1 := (C77_same_generator num).1
  have h2 := C29_level_range num
  refine ⟨?_, ?_, ?_⟩
  · show (0#8).toNat < (negBinRand num).val.toNat
    simp; omega
  · rcases C77_l_inc (negBinRand num) with ⟨h, -⟩ | ⟨-, l, h, -⟩
    · rw [h] at h1
      have : (PrimLevel.lMax : PrimLevel 8).val.toNat = 255 := by decide
      omega
    · exact ⟨l, h⟩
  · rcases C77_l_dec (negBinRand num) with ⟨h, -⟩ | ⟨-, l, h, -⟩
    · rw [h] at h1
      have : (PrimLevel.lMin : PrimLevel 8).val.toNat = 0 := by decide
      omega
    · exact ⟨l, h⟩

end order

/-- Levels 4 and 64 are generated; 255 is the greatest level and has no next one. -/
example : (negBinRand 24#64).val = 4#8 ∧ (negBinRand 0#64).val = 64#8 ∧
    (PrimLevel.lMax : PrimLevel 8).lInc = .error .overflow ∧ (PrimLevel.mk 7#8).lInc = .ok ⟨8#8⟩ := by decide +kernel

/-! ### C78 -/

/-- The drawing in the documentation of `iraztree_depth_4`, eval/src/examples.rs:14-21. -/
def documentedPicture {A : Type} (conv : Nat → A) : Picture A String :=
  .node
    (.node
      (.node (.data [conv 1, conv 2]) "ll" 1 (.data [conv 3, conv 4])) "l" 4
      (.node (.data [conv 5, conv 6]) "lr" 2 (.data [conv 7, conv 8]))) "t" 6
    (.node
      (.node (.data [conv 9, conv 10]) "rl" 3 (.data [conv 11, conv 12])) "r" 5
      (.node (.data [conv 13, conv 14]) "rr" 4 (.data [conv 15, conv 16])))

/-- The steps of `iraztreeDepth4`. -/
def depth4Steps {A : Type} (conv : Nat → A) : List (Fill A) :=
  [
    .push (conv 1), .push (conv 2), .archive (some (.str "ll")) 1, .push (conv 3), .push (conv 4), .archive (some (.str "l")) 4,
    .push (conv 5), .push (conv 6), .archive (some (.str "lr")) 2, .push (conv 7), .push (conv 8), .archive (some (.str "rl")) 6,
    .push (conv 9), .push (conv 10), .archive (some (.str "r")) 3, .push (conv 11), .push (conv 12), .archive (some (.str "rr")) 5,
    .push (conv 13), .push (conv 14), .archive (some (.str "g")) 4, .push (conv 15), .push (conv 16)]

/-- The drawing of the example tree. -/
def builtPicture {A : Type} (conv : Nat → A) : Picture A String :=
  .node
    (.node
      (.node (.data [conv 1, conv 2]) "ll" 1 (.data [conv 3, conv 4])) "l" 4
      (.node (.data [conv 5, conv 6]) "lr" 2 (.data [conv 7, conv 8]))) "rl" 6
    (.node
      (.node (.data [conv 9, conv 10]) "r" 3 (.data [conv 11, conv 12])) "rr" 5
      (.node (.data [conv 13, conv 14]) "g" 4 (.data [conv 15, conv 16])))

theorem depth4_picture {A : Type} (conv : Nat → A) : ∃ t : RazTree A Count, iraztreeDepth4 conv = .ok t ∧
    pictureOf t.tree = some ((builtPicture conv).relabel (fun s => some (.pair (.str s) (.str "tree")))) := by
  have h0 : iraztreeDepth4 conv = (fillCursor (depth4Steps conv) : Raz A Count).unfocus := rfl
  rw [h0]
  obtain ⟨t, h1, h2⟩ := C19_memo_from_unfocus (M := Count) (depth4Steps conv) (by
      intro nm lev h
      simp only [depth4Steps, List.mem_cons, List.not_mem_nil, reduceCtorEq, Fill.archive.injEq, false_or, or_false] at h
      have : (6 : Nat) < u32Max := by decide
      omega) (by simp [depth4Steps, fillStack, AStack.push])
  refine ⟨t, h1, ?_⟩
  have hs : fillStack ((depth4Steps conv).map Fill.suffix) = ⟨[conv 15, conv 16], [
      (some (.pair (.str "g") (.str "tree")), 4, [conv 13, conv 14]), (some (.pair (.str "rr") (.str "tree")), 5, [conv 11, conv 12]),
      (some (.pair (.str "r") (.str "tree")), 3, [conv 9, conv 10]), (some (.pair (.str "rl") (.str "tree")), 6, [conv 7, conv 8]),
      (some (.pair (.str "lr") (.str "tree")), 2, [conv 5, conv 6]), (some (.pair (.str "l") (.str "tree")), 4, [conv 3, conv 4]),
      (some (.pair (.str "ll") (.str "tree")), 1, [conv 1, conv 2])]⟩ := by
    simp [fillStack, depth4Steps, Fill.suffix, AStack.push, AStack.archive, AStack.new, Stack.push]
  rw [hs] at h2
  have h3 := (Except.ok.inj (h2.symm.trans rfl) : t = _)
  rw [h3]
  rfl

/-- **C78.** The example tree has the shape, the levels and the elements of the drawing in its documentation. (Part:
the names from the root to the right differ, see `C78_names_differ`.) -/
theorem C78_shape_partial {A : Type} (conv : Nat → A) : ∃ t : RazTree A Count, iraztreeDepth4 conv = .ok t ∧
    (pictureOf t.tree).map (Picture.relabel (fun _ => ())) = some ((documentedPicture conv).relabel (fun _ => ())) := by
  obtain ⟨t, h1, h2⟩ := depth4_picture conv
  exact ⟨t, h1, by rw [h2]; rfl⟩

/-- **C78.** The names of the left half are those of the drawing, each with the suffix that `unfocus` adds. -/
theorem C78_left_names {A : Type} (conv : Nat → A) : ∃ (t : RazTree A Count) (l r : Picture A (Option Name)) (n : Option Name)
    (lev : Nat), iraztreeDepth4 conv = .ok t ∧ pictureOf t.tree = some (.node l n lev r) ∧
    ∃ l' n' lev' r', documentedPicture conv = .node l' n' lev' r' ∧
      l = l'.relabel (fun s => some (.pair (.str s) (.str "tree"))) := by
  obtain ⟨t, h1, h2⟩ := depth4_picture conv
  exact ⟨t, _, _, _, _, h1, h2, _, _, _, _, rfl, rfl⟩

/-- **C78.** The names do not fit the drawing, with or without the suffix: the root is called `rl`, not `t`, whatever
the elements. -/
theorem C78_names_differ {A : Type} (conv : Nat → A) : ∃ t : RazTree A Count, iraztreeDepth4 conv = .ok t ∧
    pictureOf t.tree ≠ some ((documentedPicture conv).relabel (fun s => some (.str s))) ∧
    pictureOf t.tree ≠ some ((documentedPicture conv).relabel (fun s => some (.pair (.str s) (.str "tree")))) := by
  obtain ⟨t, h1, h2⟩ := depth4_picture conv
  refine ⟨t, h1, ?_, ?_⟩ <;> rw [h2] <;> simp [builtPicture, documentedPicture, Picture.relabel]

/-- The example tree of the natural numbers holds 1 to 16. -/
example : (iraztreeDepth4 id).toOption.map (fun t => t.foldLr [] (fun a e => a ++ [e])) = some ((List.range 16).map (· + 1)) := by
  decide +kernel

end Iodyn
