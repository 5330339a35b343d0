import Verif.Props.DepthRange
import Verif.Props.Moves
/-
C114 the way to the start of a sequence is short whatever the levels, the way to its end is not.
-/
namespace Iodyn
open Cursor
variable {E M : Type}

theorem wf_levels [RazMeta E M] {t : Tree (TreeData E M)} (h : WF t) : ∀ x ∈ levelsOf t.items, 1 ≤ x := by
  induction h with
  | leaf v => intro x hx; simp [Tree.items, levelsOf_elems] at hx
  | @branch lv nm l r h1 hl hr ihl ihr =>
    intro x hx
    simp only [Tree.items, levelsOf_append, levelsOf_mark, List.mem_append, List.mem_cons] at hx
    rcases hx with hx | rfl | hx
    · exact ihl x hx
    · exact h1
    · exact ihr x hx

/-- The way down to the left passes the archive points that are higher than all before them. -/
theorem left_spine [RazMeta E M] {t : Tree (TreeData E M)} (h : WF t) (hc : Canon t) : ∀ d lf rf,
    (downLeftAll ⟨d, lf, t, rf⟩).rForest.length = rf.length + seenLt [] (levelsOf t.items) := by
  induction h with
  | leaf v =>
    intro d lf rf
    rw [downLeftAll_node]
    simp [Tree.isSome, Tree.items, levelsOf_elems, seenLt]
  | @branch lv nm l r h1 hl hr ihl ihr =>
    intro d lf rf
    have e : levelsOf (Tree.node lv nm (.branch (metaOf lv nm l) (metaOf lv nm r)) l r).items = levelsOf l.items ++ lv :: levelsOf r.items := by
      simp only [Tree.items, levelsOf_append, levelsOf_mark]
    rw [downLeftAll_node, if_pos hl.isSome, ihl hc.2.2.1, e, seenLt_stop, List.length_cons]
    · omega
    · intro x hx
      rw [List.append_nil] at hx
      obtain ⟨i, hi, -, rfl⟩ := mem_levelsOf hx
      exact items_lt_left hl hc i hi
    · intro x hx
      obtain ⟨i, hi, -, rfl⟩ := mem_levelsOf hx
      exact items_le_right hr hc i hi

/-- Of numbers from 1 to `L`, at most `L - m` are greater than all before them, if those are greater than `m`. -/
theorem seenLt_few {L : Nat} : ∀ (l before : List Nat) (m : Nat), (∀ x ∈ l, 1 ≤ x ∧ x ≤ L) → (∀ x, 1 ≤ x → (∀ b ∈ before, b < x) → m < x) → seenLt before l ≤ L - m
  | [], before, m, _, _ => Nat.zero_le _
  | x :: l, before, m, hl, hm => by
    obtain ⟨h1, h2⟩ := hl x List.mem_cons_self
    have hl' := fun y hy => hl y (List.mem_cons_of_mem x hy)
    simp only [seenLt]
    by_cases hx : ∀ b ∈ before, b < x
    · have hmx := hm x h1 hx
      have := seenLt_few l (x :: before) x hl' fun y _ hy => hy x List.mem_cons_self
      rw [if_pos hx]
      omega
    · have := seenLt_few l (x :: before) m hl' fun y h1 hy => hm y h1 fun b hb => hy b (List.mem_cons_of_mem _ hb)
      rw [if_neg hx]
      omega

/-- **C114, the start.** `focus_left` of a tree that is not empty moves the cursor exactly once for each archive point that is higher than all on the left of it, and
once more. So it never moves it more often than the highest level and once more, however many archive points there are. -/
theorem C114_start [RazMeta E M] [LawfulMeta E M] {t : RazTree E M} (h : t.Reachable .edit) (hne : t.tree ≠ .nil) :
    (∃ z, t.focusLeft = .ok z ∧ Costs t.focusLeftC z (seenLt [] (levelsOf t.items) + 1)) ∧
      ∀ L, (∀ x ∈ levelsOf t.items, x ≤ L) → seenLt [] (levelsOf t.items) + 1 ≤ L + 1 := by
  have ht : WF t.tree := (Reach.t h).inv.wf.resolve_left hne
  have hc : Canon t.tree := (Reach.t h).canon rfl
  constructor
  · obtain ⟨info, tree⟩ := t
    dsimp only at ht hc
    cases htr : tree with
    | nil => rw [htr] at ht; cases ht
    | node lv nm x l r =>
      rw [← htr]
      obtain ⟨e1, -, -, -, -⟩ := downLeftAllC_cost ht (d := false) (lf := []) (rf := []) (D := tree.depth) ⟨fun p hp => (by cases hp), fun p hp => (by cases hp)⟩ (Nat.le_refl _)
      obtain ⟨v, d2⟩ := downLeftAll_leaf ht false [] []
      rw [left_spine ht hc] at e1
      have hC : Costs (RazTree.focusLeftC ⟨info, tree⟩) ⟨(Cursor.downLeftAll ⟨false, [], tree, []⟩).split.1, AStack.new, AStack.new.extendRev v,
          (Cursor.downLeftAll ⟨false, [], tree, []⟩).split.2.2⟩ (([] : List (Bool × TNode (TreeData E M))).length + seenLt [] (levelsOf tree.items) + 1 - 0 + 0) := by
        unfold RazTree.focusLeftC
        subst htr
        refine Costs.bind e1 ?_
        simp only [Cursor.split, d2]
        exact Costs.pure _
      exact ⟨_, hC.same (RazTree.focusLeft_same _), hC.eq (by simp [RazTree.items])⟩
  · intro L hL
    have := seenLt_few (L := L) (levelsOf t.items) [] 0 (fun x hx => ⟨wf_levels ht x hx, hL x hx⟩) fun x hx _ => hx
    omega

/-- **C114, levels from `gen_branch_level`.** A sequence that is made with any calls whose archive points have levels from `gen_branch_level`: `focus_left` moves the
cursor at most 65 times, however long the sequence is. -/
theorem C114_made {ops : List (LOp E)} (hk : ∀ k ∈ LOp.slots ops, ∃ b, k = genBranchLevel b) :
    ∃ z t z' k, (Raz.new : Raz E Count).lops ops = .ok z ∧ z.unfocus = .ok t ∧ t.focusLeft = .ok z' ∧ Costs t.focusLeftC z' k ∧ k ≤ 65 := by
  have hl : ∀ op ∈ ops, op.Lifts := by
    intro op hop
    have : ∀ {l : List (LOp E)} {op}, op ∈ l → (∀ k ∈ LOp.slots l, 1 ≤ k) → op.Lifts := by
      intro l op h
      induction l with
      | nil => cases h
      | cons o l ih =>
        intro hk
        rcases List.mem_cons.1 h with rfl | h
        · cases op <;> first | trivial | exact hk _ List.mem_cons_self
        · refine ih h fun k hk' => hk k ?_
          cases o <;> first | exact hk' | exact List.mem_cons_of_mem _ hk'
    exact this hop fun k hk' => by
      obtain ⟨b, rfl⟩ := hk k hk'
      exact (C29_level_range b).1
  obtain ⟨z, f1, f2, f3⟩ := lops_sides (z := (Raz.new : Raz E Count)) ZInv.empty hl
  obtain ⟨t, g1, g2, g3⟩ := unfocus_closed f2
  have hr : t.Reachable .edit := .unfocus (Incr.reach_lops .new hl f1) g1
  by_cases hne : t.tree = .nil
  · obtain ⟨info, tree⟩ := t
    dsimp only at hne
    subst hne
    exact ⟨z, _, _, 0, f1, g1, rfl, Costs.pure _, by omega⟩
  · obtain ⟨⟨z', k1, k2⟩, k3⟩ := C114_start hr hne
    refine ⟨z, t, z', _, f1, g1, k1, k2, k3 64 fun x hx => ?_⟩
    have h2 := List.count_pos_iff.2 hx
    rw [g3, f3] at h2
    have h3 := made_levels ops x
    obtain ⟨b, rfl⟩ := hk x (List.count_pos_iff.1 (Nat.lt_of_lt_of_le h2 h3))
    exact (C29_level_range b).2.1

theorem seenLe_equal : ∀ (n : Nat) (before : List Nat), (∀ b ∈ before, b ≤ 1) → seenLe before (List.replicate n 1) = n
  | 0, _, _ => rfl
  | n + 1, before, h => by
    rw [List.replicate_succ, seenLe, if_pos h, seenLe_equal n (1 :: before) fun b hb => by
      rcases List.mem_cons.1 hb with rfl | hb
      · exact Nat.le_refl _
      · exact h b hb]
    omega

theorem seenLt_equal : ∀ (n : Nat), seenLt [] (List.replicate n 1) = min n 1
  | 0 => rfl
  | n + 1 => by
    have := seenLt_skip (v := 1) (List.replicate n 1) [1] [] List.mem_cons_self (fun x hx => by rw [(List.mem_replicate.1 hx).2])
    rw [List.append_nil] at this
    rw [List.replicate_succ, seenLt, this, seenLt, if_pos (by simp)]
    omega

theorem spaced_closed (x : E) : ∀ (ls : List Nat) (L : List (Item E)), ∃ L', onSides (.elem x :: L, []) (ls.flatMap fun v => [.archL v none, .pushL x]) = (.elem x :: L', []) ∧
    (elemsOf (L'.reverse.map Item.settle)).length = (elemsOf (L.reverse.map Item.settle)).length + ls.length ∧
    levelsOf (L'.reverse.map Item.settle) = levelsOf (L.reverse.map Item.settle) ++ ls
  | [], L => ⟨L, rfl, rfl, by simp⟩
  | v :: ls, L => by
    obtain ⟨L', h1, h2, h3⟩ := spaced_closed x ls (.pend v none :: .elem x :: L)
    refine ⟨L', h1, ?_, ?_⟩
    · rw [h2]
      simp only [List.reverse_cons, List.map_append, elemsOf_append, List.length_append, List.append_assoc, List.length_cons]
      simp [Item.settle]
      omega
    · rw [h3]
      simp only [List.reverse_cons, List.map_append, levelsOf_append, List.append_assoc]
      rfl

/-- **C114, the end.** This is not so for the end: for every `n` there is a sequence of `n + 1` elements whose archive points have the level 1 (as from `gen_branch_level` of
odd numbers), and `focus` at its end moves the cursor at least `n` times, while `focus_left` moves it twice. -/
theorem C114_end (x : E) {n : Nat} (h0 : 0 < n) (hm : n + 1 < usizeMax) : ∃ z t z1 z2 k, (Raz.new : Raz E Count).lops (spaced x (List.replicate n 1)) = .ok z ∧ z.unfocus = .ok t ∧
    t.elems.length = n + 1 ∧ t.focusLeft = .ok z1 ∧ Costs t.focusLeftC z1 2 ∧ t.focus (n + 1) = .ok (some z2) ∧ Costs (t.focusC (n + 1)) (some z2) k ∧ n ≤ k := by
  obtain ⟨L', c1, c2, c3⟩ := spaced_closed x (List.replicate n 1) []
  have c1' : onSides ([], []) (spaced x (List.replicate n 1)) = (.elem x :: L', []) := c1
  have hc : closed (.elem x :: L', ([] : List (Item E))) = L'.reverse.map Item.settle ++ [.elem x] := by
    simp [closed, glue, Item.isMark, Item.settle]
  have hl : ∀ op ∈ spaced x (List.replicate n 1), op.Lifts := by
    intro op hop
    simp only [spaced, List.mem_cons, List.mem_flatMap, List.not_mem_nil, or_false] at hop
    rcases hop with rfl | ⟨v, hv, rfl | rfl⟩
    · trivial
    · rw [(List.mem_replicate.1 hv).2]
      exact Nat.le_refl 1
    · trivial
  obtain ⟨z, f1, f2, f3⟩ := lops_sides (z := (Raz.new : Raz E Count)) ZInv.empty hl
  obtain ⟨t, g1, g2, g3⟩ := unfocus_closed f2
  have hr : t.Reachable .edit := .unfocus (Incr.reach_lops .new hl f1) g1
  rw [f3] at g3
  have hi : t.items = L'.reverse.map Item.settle ++ [.elem x] := by rw [g3]; exact (congrArg closed c1').trans hc
  have hlev : levelsOf t.items = List.replicate n 1 := by
    rw [hi, levelsOf_append, c3]
    show ([] ++ List.replicate n 1) ++ [] = _
    simp
  have hlen : (elemsOf t.items).length = n + 1 := by
    rw [hi, elemsOf_append, List.length_append, c2]
    simp
  have hne : t.elems ≠ [] := fun e => by
    have : (elemsOf t.items).length = 0 := congrArg List.length e
    omega
  have htr : t.tree ≠ .nil := fun e => hne (by rw [RazTree.elems, RazTree.items, e]; rfl)
  obtain ⟨⟨z1, k1, k2⟩, -⟩ := C114_start hr htr
  rw [hlev, seenLt_equal, Nat.min_eq_right h0] at k2
  obtain ⟨z2, p1, p2, p3, p4⟩ := Incr.C84_path hr hne (i := n + 1) (Nat.le_of_eq hlen.symm) hm
  obtain ⟨k, q1, -, q3⟩ := (C90_navigate hr).1 (n + 1) _ p1
  refine ⟨z, t, z1, z2, k, f1, g1, hlen, k1, k2, p1, q1, ?_⟩
  have hpath : pathAt (n + 1) t.items = n := by
    have hcut : cutAt (n + 1) t.items = (t.items.reverse, []) := by
      rw [← hlen]
      exact cutAt_all _ ⟨x, (L'.reverse.map Item.settle).reverse, by rw [hi]; simp⟩
    unfold pathAt
    rw [hcut]
    simp only [levelsOf_reverse, hlev, List.reverse_replicate]
    rw [seenLe_equal n [] fun b hb => by cases hb]
    rfl
  have := (q3 z2 rfl).1
  simp only [Raz.path] at this
  omega

/-! ### Cases that meet the conditions -/

/-- Seven archive points with the levels of the numbers 1 to 7: the first, the second and the fourth are higher than all before. -/
example : seenLt [] (counted 7) = 3 ∧ counted 7 = [1, 2, 1, 3, 1, 2, 1] ∧ (∀ k ∈ LOp.slots (spaced 'x' (counted 7)), ∃ b, k = genBranchLevel b) := by
  refine ⟨by decide +kernel, by decide +kernel, fun k hk => ?_⟩
  have e : LOp.slots (spaced 'x' (counted 7)) = [1, 2, 1, 3, 1, 2, 1] := by decide +kernel
  rw [e] at hk
  simp only [List.mem_cons, List.not_mem_nil, or_false] at hk
  rcases hk with rfl | rfl | rfl | rfl | rfl | rfl | rfl
  all_goals first | exact ⟨1#64, by decide +kernel⟩ | exact ⟨2#64, by decide +kernel⟩ | exact ⟨4#64, by decide +kernel⟩

/-- What the model gives: the moves of `focus_left` and of `focus` at the end, with seven archive points of these levels, of equal levels and of rising levels. -/
example : ([counted 7, List.replicate 7 1, [1, 2, 3, 4, 5, 6, 7]].map fun ls => (do
      let z ← (Raz.new : Raz Char Count).lops (spaced 'x' ls)
      let t ← z.unfocus
      let (_, a) ← t.focusLeftC 0
      let (_, b) ← t.focusC (8 : Nat) 0
      return (a, b) : P (Nat × Nat))) = [.ok (4, 3), .ok (2, 7), .ok (8, 1)] := by
  decide +kernel

/-- A tree that meets the conditions of `C114_start`, with seven archive points. -/
example : ∃ t : RazTree Char Count, t.Reachable .edit ∧ t.tree ≠ .nil ∧ levelsOf t.items = [1, 2, 1, 3, 1, 2, 1] := by
  have hl : ∀ op ∈ spaced 'x' (counted 7), op.Lifts := by
    have e : spaced 'x' (counted 7) = spaced 'x' [1, 2, 1, 3, 1, 2, 1] := congrArg _ (by decide +kernel)
    rw [e]
    intro op hop
    simp only [spaced, List.mem_cons, List.mem_flatMap, List.not_mem_nil, or_false] at hop
    rcases hop with rfl | ⟨v, hv, rfl | rfl⟩
    · trivial
    · rcases hv with rfl | rfl | rfl | rfl | rfl | rfl | rfl <;> simp [LOp.Lifts]
    · trivial
  obtain ⟨z, f1, f2, f3⟩ := lops_sides (z := (Raz.new : Raz Char Count)) ZInv.empty hl
  obtain ⟨t, g1, g2, g3⟩ := unfocus_closed f2
  have hi : levelsOf t.items = [1, 2, 1, 3, 1, 2, 1] := by
    rw [g3, f3]
    show levelsOf (closed (onSides ([], []) (spaced 'x' (counted 7)))) = _
    decide +kernel
  refine ⟨t, .unfocus (Incr.reach_lops .new hl f1) g1, fun e => ?_, hi⟩
  rw [RazTree.items, e] at hi
  cases hi

/-- A case of `C114_end` with a million archive points. -/
example : ∃ z t z2 k, (Raz.new : Raz Char Count).lops (spaced 'x' (List.replicate 1000000 1)) = .ok z ∧ z.unfocus = .ok t ∧ Costs (t.focusC (1000001 : Nat)) (some z2) k ∧ 1000000 ≤ k := by
  obtain ⟨z, t, z1, z2, k, h1, h2, -, -, -, -, h3, h4⟩ := C114_end 'x' (n := 1000000) (by omega) (by unfold usizeMax; omega)
  exact ⟨z, t, z2, k, h1, h2, h3, h4⟩

end Iodyn
