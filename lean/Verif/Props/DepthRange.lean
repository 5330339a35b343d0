import Verif.Spec.DepthRange
import Verif.Props.MeanDepth
/-
C111 how deep and how shallow a tree can be for its number of archive points.
-/
namespace Iodyn
variable {E M : Type}

theorem depth_range [RazMeta E M] {t : Tree (TreeData E M)} (h : WF t) : t.depth ≤ (levelsOf t.items).length ∧ (levelsOf t.items).length < 2 ^ t.depth := by
  induction h with
  | leaf v => simp [Tree.items, levelsOf_elems, Tree.depth]
  | @branch lv nm l r h1 hl hr ihl ihr =>
    rw [WF.depth_branch hl]
    have e : levelsOf (Tree.items (.node lv nm (.branch (metaOf lv nm l) (metaOf lv nm r)) l r)) = levelsOf l.items ++ lv :: levelsOf r.items := by
      simp only [Tree.items, levelsOf_append, levelsOf_mark]
    have p1 := Nat.pow_le_pow_right (n := 2) (by decide) (Nat.le_max_left l.depth r.depth)
    have p2 := Nat.pow_le_pow_right (n := 2) (by decide) (Nat.le_max_right l.depth r.depth)
    have e' := congrArg List.length e
    simp only [List.length_append, List.length_cons] at e'
    have p3 : 2 ^ (1 + max l.depth r.depth) = 2 ^ max l.depth r.depth + 2 ^ max l.depth r.depth := by rw [Nat.pow_add]; omega
    constructor
    · refine Nat.le_trans ?_ (Nat.le_of_eq e'.symm)
      omega
    · refine Nat.lt_of_le_of_lt (Nat.le_of_eq e') ?_
      omega

theorem deepest_nil : deepest [] = 0 := by simp [deepest, sight, seenLe, seenLt]

theorem deepest_falls : ∀ {ls : List Nat}, ls.Pairwise (fun a b => b ≤ a) → deepest ls = ls.length
  | [], _ => deepest_nil
  | v :: b, h => by
    have h1 := List.pairwise_cons.1 h
    have e := deepest_node (v := v) (a := []) (b := b) (by simp) h1.1
    rw [List.nil_append, deepest_nil, deepest_falls h1.2] at e
    rw [e, List.length_cons]
    omega

theorem deepest_rises {ls : List Nat} (h : ls.Pairwise (fun a b => a < b)) : deepest ls = ls.length := by
  induction ls using List.reverseRecOn with
  | nil => exact deepest_nil
  | append_singleton a v ih =>
    obtain ⟨h1, -, h2⟩ := List.pairwise_append.1 h
    rw [deepest_node (fun x hx => h2 x hx v List.mem_cons_self) (by simp), deepest_nil, ih h1, List.length_append, List.length_singleton]
    omega

/-- The levels of consecutive numbers make a balanced tree. -/
theorem deepest_counted : ∀ (k a : Nat), k ≤ 63 → 2 ^ k ∣ a →
    deepest ((List.range (2 ^ k - 1)).map fun i => genBranchLevel (BitVec.ofNat 64 (a + i + 1))) = k
  | 0, a, _, _ => by simp [deepest_nil]
  | k + 1, a, hk, ha => by
    have hp : 0 < 2 ^ k := by positivity
    have hd : 2 ^ k ∣ a := Nat.dvd_trans (Nat.pow_dvd_pow 2 (Nat.le_succ k)) ha
    have e : (List.range (2 ^ (k + 1) - 1)).map (fun i => genBranchLevel (BitVec.ofNat 64 (a + i + 1))) =
        (List.range (2 ^ k - 1)).map (fun i => genBranchLevel (BitVec.ofNat 64 (a + i + 1))) ++ genBranchLevel (BitVec.ofNat 64 (a + 2 ^ k)) ::
          (List.range (2 ^ k - 1)).map (fun i => genBranchLevel (BitVec.ofNat 64 (a + 2 ^ k + i + 1))) := by
      have e1 : 2 ^ (k + 1) - 1 = (2 ^ k - 1) + (1 + (2 ^ k - 1)) := by rw [Nat.pow_succ]; omega
      rw [e1, List.range_add, List.range_add, List.map_append, List.map_map, List.map_append, List.map_map]
      congr 1
      rw [List.range_one, List.map_singleton, List.singleton_append]
      congr 1
      · simp only [Function.comp]
        rw [show a + (2 ^ k - 1 + 0) + 1 = a + 2 ^ k by omega]
      · refine List.map_congr_left fun i _ => ?_
        simp only [Function.comp]
        rw [show a + (2 ^ k - 1 + (1 + i)) + 1 = a + 2 ^ k + i + 1 by omega]
    have hv : k < genBranchLevel (BitVec.ofNat 64 (a + 2 ^ k)) := (level_le_iff _ k (by omega)).2 (Nat.mod_eq_zero_of_dvd (Nat.dvd_add hd (Nat.dvd_refl _)))
    have hlow : ∀ b, 2 ^ k ∣ b → ∀ x ∈ (List.range (2 ^ k - 1)).map (fun i => genBranchLevel (BitVec.ofNat 64 (b + i + 1))), x ≤ k := by
      intro b hb x hx
      obtain ⟨i, hi, rfl⟩ := List.mem_map.1 hx
      rw [List.mem_range] at hi
      by_contra hc
      have := (level_le_iff _ k (by omega)).1 (Nat.lt_of_not_le hc)
      rw [Nat.add_assoc, Nat.add_mod, Nat.mod_eq_zero_of_dvd hb, Nat.zero_add, Nat.mod_mod, Nat.mod_eq_of_lt (by omega)] at this
      omega
    have hd' : 2 ^ k ∣ a + 2 ^ k := Nat.dvd_add hd (Nat.dvd_refl _)
    rw [e, deepest_node (fun x hx => Nat.lt_of_le_of_lt (hlow a hd x hx) hv) (fun x hx => Nat.le_trans (hlow _ hd' x hx) (Nat.le_of_lt hv)),
      deepest_counted k a (by omega) hd, deepest_counted k (a + 2 ^ k) (by omega) hd']
    omega

theorem spaced_sides (x : E) : ∀ (ls : List Nat) (L : List (Item E)), ∃ L', onSides (.elem x :: L, []) (ls.flatMap fun v => [.archL v none, .pushL x]) = (.elem x :: L', []) ∧
    levelsOf (L'.reverse.map Item.settle) = levelsOf (L.reverse.map Item.settle) ++ ls
  | [], L => ⟨L, rfl, by simp⟩
  | v :: ls, L => by
    obtain ⟨L', h1, h2⟩ := spaced_sides x ls (.pend v none :: .elem x :: L)
    refine ⟨L', h1, ?_⟩
    rw [h2]
    simp only [List.reverse_cons, List.map_append, levelsOf_append, List.append_assoc]
    rfl

theorem spaced_levels (x : E) (ls : List Nat) : levelsOf (closed (onSides ([], []) (spaced x ls))) = ls := by
  obtain ⟨L', h1, h2⟩ := spaced_sides x ls []
  have h1' : onSides ([], []) (spaced x ls) = (.elem x :: L', []) := h1
  have hc : closed (.elem x :: L', ([] : List (Item E))) = L'.reverse.map Item.settle ++ [.elem x] := by
    simp [closed, glue, Item.isMark, Item.settle]
  rw [h1', hc, levelsOf_append, h2]
  show ([] ++ ls) ++ [] = ls
  simp

theorem spaced_made (x : E) {ls : List Nat} (h : ∀ v ∈ ls, 1 ≤ v) :
    ∃ z t, (Raz.new : Raz E Count).lops (spaced x ls) = .ok z ∧ z.unfocus = .ok t ∧ t.Reachable .edit ∧ levelsOf t.items = ls := by
  have hl : ∀ op ∈ spaced x ls, op.Lifts := by
    intro op hop
    simp only [spaced, List.mem_cons, List.mem_flatMap, List.not_mem_nil, or_false] at hop
    rcases hop with rfl | ⟨v, hv, rfl | rfl⟩
    · trivial
    · exact h v hv
    · trivial
  obtain ⟨z, f1, f2, f3⟩ := lops_sides (z := (Raz.new : Raz E Count)) ZInv.empty hl
  obtain ⟨t, g1, g2, g3⟩ := unfocus_closed f2
  refine ⟨z, t, f1, g1, .unfocus (Incr.reach_lops .new hl f1) g1, ?_⟩
  rw [g3, f3]
  exact spaced_levels x ls

/-- **C111, all trees.** A tree has at least one branch on its longest way down for each doubling of the archive points, and at most one for each archive point,
whatever the levels, also after `join` with any level. -/
theorem C111_range [RazMeta E M] [LawfulMeta E M] {u : Usage} {t : RazTree E M} (h : t.Reachable u) :
    t.tree.depth ≤ (levelsOf t.items).length ∧ (levelsOf t.items).length < 2 ^ t.tree.depth := by
  rcases (Reach.t h).inv.wf with ht | hw
  · rw [RazTree.items, ht]
    simp [Tree.items, Tree.depth, levelsOf, marksOf]
  · exact depth_range hw

/-- **C111, the deepest trees.** If the levels never rise from left to right (as when they are all equal), or always rise, the tree is a list: it is as deep as there
are archive points. -/
theorem C111_deepest [RazMeta E M] [LawfulMeta E M] {t : RazTree E M} (h : t.Reachable .edit)
    (hl : (levelsOf t.items).Pairwise (fun a b => b ≤ a) ∨ (levelsOf t.items).Pairwise (fun a b => a < b)) : t.tree.depth = (levelsOf t.items).length := by
  rw [C88_depth h]
  rcases hl with hl | hl
  · exact deepest_falls hl
  · exact deepest_rises hl

/-- **C111, the shallowest trees.** If the levels are those that `gen_branch_level` gives for the numbers 1, 2, 3, … instead of random ones, the tree of `2 ^ k - 1`
archive points has the depth `k`: none with so many has less. -/
theorem C111_shallowest [RazMeta E M] [LawfulMeta E M] {t : RazTree E M} (h : t.Reachable .edit) {k : Nat} (hk : k ≤ 63) (hl : levelsOf t.items = counted (2 ^ k - 1)) :
    t.tree.depth = k ∧ ∀ {u : Usage} {t' : RazTree E M}, t'.Reachable u → (levelsOf t'.items).length = (levelsOf t.items).length → t.tree.depth ≤ t'.tree.depth := by
  have e : t.tree.depth = k := by
    have := deepest_counted k 0 hk (Nat.dvd_zero _)
    simp only [Nat.zero_add] at this
    rw [C88_depth h, hl]
    exact this
  refine ⟨e, fun {u t'} h' hn => ?_⟩
  have h1 := (C111_range h').2
  have hp : 0 < 2 ^ k := by positivity
  rw [hn, hl, counted, List.length_map, List.length_range] at h1
  rw [e]
  by_contra hc
  have := Nat.pow_le_pow_right (n := 2) (by decide) (show t'.tree.depth + 1 ≤ k by omega)
  have := Nat.pow_le_pow_right (n := 2) (by decide) (Nat.le_of_lt (Nat.lt_of_not_le hc))
  rw [Nat.pow_succ] at *
  omega

/-- **C111, both occur.** For every number of archive points calls make a tree with that many that is a list, and for every `k` up to 63 one with
`2 ^ k - 1` that is balanced: without random levels, the bounds of C84 to C110 would not hold. -/
theorem C111_made (x : E) :
    (∀ n, ∃ z t, (Raz.new : Raz E Count).lops (spaced x (List.replicate n 1)) = .ok z ∧ z.unfocus = .ok t ∧ t.Reachable .edit ∧
      (levelsOf t.items).length = n ∧ t.tree.depth = n) ∧
    ∀ k ≤ 63, ∃ z t, (Raz.new : Raz E Count).lops (spaced x (counted (2 ^ k - 1))) = .ok z ∧ z.unfocus = .ok t ∧ t.Reachable .edit ∧
      (levelsOf t.items).length = 2 ^ k - 1 ∧ t.tree.depth = k := by
  refine ⟨fun n => ?_, fun k hk => ?_⟩
  · obtain ⟨z, t, h1, h2, h3, h4⟩ := spaced_made x (ls := List.replicate n 1) fun v hv => by rw [(List.mem_replicate.1 hv).2]
    refine ⟨z, t, h1, h2, h3, by rw [h4, List.length_replicate], ?_⟩
    rw [C111_deepest h3 (.inl (by rw [h4]; exact List.pairwise_replicate.2 (.inr (Nat.le_refl 1)))), h4, List.length_replicate]
  · obtain ⟨z, t, h1, h2, h3, h4⟩ := spaced_made x (ls := counted (2 ^ k - 1)) fun v hv => by
      obtain ⟨i, -, rfl⟩ := List.mem_map.1 hv
      exact (C29_level_range _).1
    exact ⟨z, t, h1, h2, h3, by rw [h4, counted, List.length_map, List.length_range], (C111_shallowest h3 hk h4).1⟩

/-! ### Cases that meet the conditions -/

/-- The levels of the numbers 1 to 7, and a tree of each kind, made and measured. -/
example : counted 7 = [1, 2, 1, 3, 1, 2, 1] ∧
    ((do let z ← (Raz.new : Raz Nat Count).lops (spaced 5 (counted 7)); let t ← z.unfocus; return (t.elems.length, levelsOf t.items, t.tree.depth)) :
      P (Nat × List Nat × Nat)) = .ok (8, [1, 2, 1, 3, 1, 2, 1], 3) ∧
    ((do let z ← (Raz.new : Raz Nat Count).lops (spaced 5 [2, 2, 2, 1, 1]); let t ← z.unfocus; return (t.elems.length, levelsOf t.items, t.tree.depth)) :
      P (Nat × List Nat × Nat)) = .ok (6, [2, 2, 2, 1, 1], 5) ∧
    ((do let z ← (Raz.new : Raz Nat Count).lops (spaced 5 [1, 3, 4, 7]); let t ← z.unfocus; return (t.elems.length, levelsOf t.items, t.tree.depth)) :
      P (Nat × List Nat × Nat)) = .ok (5, [1, 3, 4, 7], 4) := by
  refine ⟨by decide +kernel, by decide +kernel, by decide +kernel, by decide +kernel⟩

/-- Trees that meet the condition of `C111_range`: `exTree`, and one of neither extreme. -/
example : (exTree Count).Reachable .edit ∧ (exTree Count).tree.depth = 3 ∧ (levelsOf (exTree Count).items).length = 3 ∧
    ((do let z ← (Raz.new : Raz Nat Count).lops (spaced 5 [1, 2, 1, 1]); let t ← z.unfocus; return (levelsOf t.items, t.tree.depth)) :
      P (List Nat × Nat)) = .ok ([1, 2, 1, 1], 3) := by
  refine ⟨exTree_reach Count .edit, by decide +kernel, by decide +kernel, by decide +kernel⟩

end Iodyn
