import Verif.Proof.MovesEdit
import Verif.Props.MeanAny
/-
C90: the moves of cursors in edits.
-/
namespace Iodyn
variable {E M : Type}

section
variable [RazMeta E M]

/-! ### Counting changes nothing -/

/-- **C90, the counted edits are the edits.** With the counts left out, an edit, the making of a sequence and `focus_left` with counted moves do exactly what
they do without, also when they panic. -/
theorem C90_same (t : RazTree E M) (i : RazMeta.Index E M) (ops : List (LOp E)) :
    Same (t.editC i ops) (t.edit i ops) ∧ Same (RazTree.makeC ops : Counting (RazTree E M)) ((Raz.new : Raz E M).lops ops >>= Raz.unfocus) ∧
      Same (t.focusC i) (t.focus i) ∧ Same t.focusLeftC t.focusLeft :=
  ⟨RazTree.edit_same _ _ _, (Raz.lops_same _ _).bind fun _ => Raz.unfocus_same _, RazTree.focus_same _ _, RazTree.focusLeft_same _⟩

/-! ### Every edit -/

/-- **C90, navigation.** `focus` at any index moves the cursor down once for each branch between the root and the place, and at most once more (the last `down`
of `while cursor.down_right() {}` fails). If there is no such place it moves at most as often as the tree is deep, and once more. `focus_left` likewise. -/
theorem C90_navigate {u : Usage} {t : RazTree E M} (h : t.Reachable u) :
    (∀ (i : RazMeta.Index E M) (o : Option (Raz E M)), t.focus i = .ok o → ∃ k, Costs (t.focusC i) o k ∧ k ≤ t.tree.depth + 1 ∧
        ∀ z, o = some z → z.path ≤ k ∧ k ≤ z.path + 1 ∧ z.path ≤ t.tree.depth) ∧
      ∃ z k, t.focusLeft = .ok z ∧ Costs t.focusLeftC z k ∧ z.path ≤ k ∧ k ≤ z.path + 1 ∧ z.path ≤ t.tree.depth := by
  refine ⟨fun i o ho => ?_, ?_⟩
  · obtain ⟨k, k1, k2, k3⟩ := focusC_cost (Reach.t h).inv.wf ho
    exact ⟨k, k1, k2, fun z hz => ⟨(k3 z hz).1.2, (k3 z hz).1.1, (k3 z hz).2.1⟩⟩
  · obtain ⟨info, tree⟩ := t
    rcases (Reach.t h).inv.wf with ht | ht
    · dsimp only at ht
      subst ht
      exact ⟨RazTree.emptyRaz, 0, rfl, Costs.pure _, Nat.zero_le _, Nat.zero_le _, Nat.zero_le _⟩
    · dsimp only at ht ⊢
      cases htr : tree with
      | nil => rw [htr] at ht; cases ht
      | node lv nm x l r =>
        rw [← htr]
        obtain ⟨e1, -, e3, e4, -⟩ := downLeftAllC_cost ht (d := false) (lf := []) (rf := []) (D := tree.depth) ⟨fun p hp => (by cases hp), fun p hp => (by cases hp)⟩ (Nat.le_refl _)
        obtain ⟨v, d2⟩ := downLeftAll_leaf ht false [] []
        have hC : Costs (RazTree.focusLeftC ⟨info, tree⟩) ⟨(Cursor.downLeftAll ⟨false, [], tree, []⟩).split.1, AStack.new, AStack.new.extendRev v,
            (Cursor.downLeftAll ⟨false, [], tree, []⟩).split.2.2⟩ ((Cursor.downLeftAll ⟨false, [], tree, []⟩).rForest.length + 1 - 0 + 0) := by
          unfold RazTree.focusLeftC
          subst htr
          refine Costs.bind e1 ?_
          simp only [Cursor.split, d2]
          exact Costs.pure _
        refine ⟨_, _, hC.same (RazTree.focusLeft_same _), hC, ?_, ?_, ?_⟩
        · simp only [Raz.path, Cursor.split, e4, List.length_nil]
          omega
        · simp only [Raz.path, Cursor.split, e4, List.length_nil]
          omega
        · simp only [Raz.path, Cursor.split, e4, List.length_nil] at e3 ⊢
          omega

/-- **C90, edits.** An edit at a place of any tree made and edited with these calls moves cursors at least twice for each branch between the root and the place,
and at most that often, once for each pop and eight times for each new archive point, four times the depth of the tree for each time that it crosses an archive point of the tree, and
nine times more. -/
theorem C90_edit [LawfulMeta E M] {t : RazTree E M} (h : t.Reachable .edit) {i : RazMeta.Index E M} {z : Raz E M} (hf : t.focus i = .ok (some z)) {ops : List (LOp E)}
    (hl : ∀ op ∈ ops, op.Lifts) :
    ∃ t' k, t.edit i ops = .ok t' ∧ Costs (t.editC i ops) t' k ∧
      2 * z.path ≤ k ∧ k ≤ 2 * z.path + z.crossings ops * (4 * t.tree.depth) + LOp.pops ops + 8 * LOp.archs ops + 9 := by
  have hw := (Reach.t h).inv.wf
  obtain ⟨k, k1, -, k3⟩ := focusC_cost hw hf
  obtain ⟨a1, a2, a3, a4, a5⟩ := k3 z rfl
  obtain ⟨t', j, j1, j2⟩ := lopsC_cost ops (focus_ok hw hf).1 (focus_canon ((Reach.t h).canon rfl) hf) a3 hl
  have hC : Costs (t.editC i ops) t' (k + (0 + j)) := by
    refine Costs.bind k1 (Costs.bind (Costs.still (a := z) rfl) ?_)
    exact j1
  refine ⟨t', _, hC.same (RazTree.edit_same _ _ _), hC, ?_⟩
  simp only [Raz.pending, a4, a5, List.length_nil] at j2
  omega

/-- **C90, edits within a leaf.** If no call crosses an archive point of the tree, the depth of the tree does not count: only the way to the place. -/
theorem C90_local [LawfulMeta E M] {t : RazTree E M} (h : t.Reachable .edit) {i : RazMeta.Index E M} {z : Raz E M} (hf : t.focus i = .ok (some z)) {ops : List (LOp E)}
    (hl : ∀ op ∈ ops, op.Lifts) (hc : z.crossings ops = 0) :
    ∃ t' k, t.edit i ops = .ok t' ∧ Costs (t.editC i ops) t' k ∧ 2 * z.path ≤ k ∧ k ≤ 2 * z.path + LOp.pops ops + 8 * LOp.archs ops + 9 := by
  obtain ⟨t', k, h1, h2, h0, h3⟩ := C90_edit h hf hl
  rw [hc] at h3
  exact ⟨t', k, h1, h2, h0, by omega⟩

/-- **C90, making a sequence** moves cursors at most once for each pop, eight times for each archive point, and eight times more. -/
theorem C90_make {ops : List (LOp E)} (hl : ∀ op ∈ ops, op.Lifts) :
    ∃ t k, Costs (RazTree.makeC ops : Counting (RazTree E M)) t k ∧ k ≤ LOp.pops ops + 8 * LOp.archs ops + 8 := by
  obtain ⟨t, k, h1, h2⟩ := lopsC_cost (D := 0) ops (z := (Raz.new : Raz E M)) ZInv.empty ZC.empty ⟨fun p hp => (by cases hp), fun p hp => (by cases hp)⟩ hl
  refine ⟨t, k, h1, ?_⟩
  have e1 : (Raz.new : Raz E M).path = 0 := rfl
  have e2 : (Raz.new : Raz E M).pending = 0 := rfl
  rw [e1, e2] at h2
  omega

end

/-! ### The mean -/

variable {f : Nat → Nat}

theorem at_pops (f : Nat → Nat) (ops : List (LOp E)) : LOp.pops (ops.map (LOp.at f)) = LOp.pops ops := by
  induction ops with
  | nil => rfl
  | cons op l ih =>
    rw [List.map_cons, LOp.pops_cons, LOp.pops_cons, ih]
    cases op <;> rfl
theorem at_archs (f : Nat → Nat) (ops : List (LOp E)) : LOp.archs (ops.map (LOp.at f)) = LOp.archs ops := by
  induction ops with
  | nil => rfl
  | cons op l ih =>
    rw [List.map_cons, LOp.archs_cons, LOp.archs_cons, ih]
    cases op <;> rfl

/-- The moves of edits with given levels. -/
def movesAt (f : Nat → Nat) (items : List (Item E)) : List (Nat × List (LOp E)) → Nat
  | [] => 0
  | (i, ops) :: l => 2 * pathAt i (items.map (Item.at f)) + crossingsAt (cutAt i items) ops * (4 * deepest (levelsOf (items.map (Item.at f)))) + LOp.pops ops +
      8 * LOp.archs ops + 9 + movesAt f (editList i ops items) l

theorem moves_mean {n : Nat} (h63 : n ≤ 2 ^ 63) : ∀ (l : List (Nat × List (LOp E))) {items : List (Item E)}, (levelsOf items ++ restSlots l).Nodup →
    (∀ k ∈ levelsOf items ++ restSlots l, k < n) → within items l = true →
    ∑ w : Fin n → Fin (2 ^ 64), movesAt (drawn w) items l ≤ (2 ^ 64) ^ n * movesBound items l
  | [], items, hs, hn, hl => by simp [movesAt, movesBound]
  | (i, ops) :: l, items, hs, hn, hl => by
    simp only [within, Bool.and_eq_true, decide_eq_true_eq] at hl
    obtain ⟨⟨⟨-, hi⟩, -⟩, hl⟩ := hl
    have he := edit_levels hi ops
    have hc := nodup_slots hs
    simp only [restSlots, List.flatMap_cons, List.count_append] at hc
    have hs' : (levelsOf (editList i ops items) ++ restSlots l).Nodup := slots_nodup fun x => by
      have := hc x; have := he x; simp only [restSlots, List.count_append] at *; omega
    have hn' : ∀ k ∈ levelsOf (editList i ops items) ++ restSlots l, k < n := fun k hk => by
      refine hn k (List.count_pos_iff.1 ?_)
      have h1 := List.count_pos_iff.2 hk
      have := he k
      simp only [restSlots, List.flatMap_cons, List.count_append] at *
      omega
    have ih := moves_mean h63 l hs' hn' hl
    have hp := depth_mean h63 (List.Nodup.of_append_left hs) (fun k hk => hn k (List.mem_append_left _ hk))
    have hq := path_mean h63 (List.Nodup.of_append_left hs) (fun k hk => hn k (List.mem_append_left _ hk)) hi
    have hconst : ∀ c : Nat, ∑ _w : Fin n → Fin (2 ^ 64), c = (2 ^ 64) ^ n * c := fun c => by
      rw [Finset.sum_const, Finset.card_univ, Fintype.card_fun, Fintype.card_fin, Fintype.card_fin]
      rfl
    simp only [movesAt, movesBound]
    rw [Finset.sum_add_distrib, Finset.sum_add_distrib, Finset.sum_add_distrib, Finset.sum_add_distrib, Finset.sum_add_distrib, ← Finset.mul_sum, ← Finset.mul_sum,
      ← Finset.mul_sum, hconst, hconst, hconst]
    generalize (2 ^ 64) ^ n = N at hp hq ih ⊢
    simp only [Nat.mul_add]
    refine Nat.add_le_add (Nat.add_le_add (Nat.add_le_add (Nat.add_le_add (Nat.add_le_add ?_ ?_) (Nat.le_refl _)) (Nat.le_refl _)) (Nat.le_refl _)) ih
    · rw [Nat.mul_add, Nat.mul_one] at hq
      rw [Nat.mul_add] at hq
      refine Nat.le_trans (Nat.mul_le_mul_left 2 hq) (Nat.le_of_eq ?_)
      ring
    · refine Nat.le_trans (Nat.mul_le_mul_left _ (Nat.mul_le_mul_left 4 hp)) (Nat.le_of_eq ?_)
      ring

theorem edits_moves (hf : ∀ k, 1 ≤ f k) : ∀ (l : List (Nat × List (LOp E))) {t : RazTree E Count} {items : List (Item E)}, t.Reachable .edit →
    t.items = items.map (Item.at f) → within items l = true →
    ∃ t' k, Costs (t.editsC (editsAt f l)) t' k ∧ k ≤ movesAt f items l ∧ t'.items = (editLists items l).map (Item.at f)
  | [], t, items, hr, he, _ => ⟨t, 0, Costs.pure _, Nat.le_refl _, he⟩
  | (i, ops) :: l, t, items, hr, he, hl => by
    simp only [within, Bool.and_eq_true, decide_eq_true_eq, Bool.not_eq_true', List.isEmpty_eq_false_iff] at hl
    obtain ⟨⟨⟨hne, hi⟩, hm⟩, hl⟩ := hl
    obtain ⟨z, t1, e0, e1, e2, e3, e4⟩ := Incr.any_next hf hr he (ops := ops) hne hi hm
    have hel : t.elems = elemsOf items := by rw [RazTree.elems, he, at_elems]
    obtain ⟨z', p1, -, -, p4⟩ := Incr.C84_path hr (by rw [hel]; exact hne) (i := i) (by rw [hel]; exact hi) hm
    rw [e0] at p1
    cases p1
    obtain ⟨t1', k, q1, q2, -, q3⟩ := C90_edit hr e0 (at_lifts f hf ops)
    rw [e2] at q1
    cases q1
    obtain ⟨t2, j, f1, f2, f3⟩ := edits_moves hf l e3 e4 hl
    refine ⟨t2, k + j, Costs.bind q2 f1, ?_, f3⟩
    rw [e1, at_pops, at_archs, C88_depth hr, he] at q3
    rw [he] at p4
    simp only [movesAt, Raz.path] at q3 ⊢
    omega

theorem made_levels (ops : List (LOp E)) (x : Nat) : (levelsOf (closed (onSides ([], []) ops))).count x ≤ (LOp.slots ops).count x := by
  have h1 := onSides_levels ops ([], []) x
  have h2 := closed_levels (onSides ([], []) ops) x
  have h0 : (levelsOf ([] : List (Item E))).count x = 0 := rfl
  simp only [h0] at h1
  omega

/-- **C90, the mean moves.** A sequence is made and then edited, at any places and across archive points. Each archive point gets its level from its own random
number. Whatever the random numbers, no call panics and the elements are those of the list. The moves of cursors of the whole session, in the mean over all
random numbers, are at most those of `C90_make` and for each edit of a sequence with `m` archive points: `4 * log m + 4` for the way to its place,
`24 * log (m + 2) + 4` for each crossing, one for each pop, eight for each new archive point and nine. -/
theorem C90_mean {ops : List (LOp E)} {l : List (Nat × List (LOp E))} (hl : within (closed (onSides ([], []) ops)) l = true) {n : Nat} (h63 : n ≤ 2 ^ 63)
    (hs : (LOp.slots ops ++ restSlots l).Nodup) (hk : ∀ k ∈ LOp.slots ops ++ restSlots l, k < n) :
    ∃ d : (Fin n → Fin (2 ^ 64)) → Nat, (∀ w, ∃ t' : RazTree E Count,
        Costs (RazTree.makeC (ops.map (LOp.at (drawn w))) >>= fun t => t.editsC (editsAt (drawn w) l)) t' (d w) ∧
        t'.elems = elemsOf (editLists (closed (onSides ([], []) ops)) l)) ∧
      ∑ w, d w ≤ (2 ^ 64) ^ n * (LOp.pops ops + 8 * LOp.archs ops + 8 + movesBound (closed (onSides ([], []) ops)) l) := by
  have key : ∀ w : Fin n → Fin (2 ^ 64), ∃ k, (∃ t' : RazTree E Count, Costs (RazTree.makeC (ops.map (LOp.at (drawn w))) >>= fun t => t.editsC (editsAt (drawn w) l)) t' k ∧
      t'.elems = elemsOf (editLists (closed (onSides ([], []) ops)) l)) ∧ k ≤ LOp.pops ops + 8 * LOp.archs ops + 8 + movesAt (drawn w) (closed (onSides ([], []) ops)) l := by
    intro w
    obtain ⟨z, t, f1, f2, f3, f4⟩ := make_any (drawn_one w) ops
    obtain ⟨t1, k, g1, g2⟩ := C90_make (M := Count) (at_lifts (drawn w) (drawn_one w) ops)
    have := g1.same (C90_same t (0 : Nat) (ops.map (LOp.at (drawn w)))).2.1
    rw [f1] at this
    have : z.unfocus = .ok t1 := this
    rw [f2] at this
    cases this
    obtain ⟨t', j, h1, h2, h3⟩ := edits_moves (drawn_one w) l f3 f4 hl
    rw [at_pops, at_archs] at g2
    exact ⟨k + j, ⟨t', g1.bind h1, by rw [RazTree.elems, h3, at_elems]⟩, by omega⟩
  choose d h1 h2 using key
  refine ⟨d, h1, Nat.le_trans (Finset.sum_le_sum fun w _ => h2 w) ?_⟩
  rw [Finset.sum_add_distrib, Nat.mul_add]
  refine Nat.add_le_add (Nat.le_of_eq ?_) (moves_mean h63 l ?_ ?_ hl)
  · rw [Finset.sum_const, Finset.card_univ, Fintype.card_fun, Fintype.card_fin, Fintype.card_fin]
    rfl
  · refine slots_nodup fun x => ?_
    have := nodup_slots hs x
    have := made_levels ops x
    simp only [List.count_append] at *
    omega
  · intro k hk'
    refine hk k (List.count_pos_iff.1 ?_)
    have := List.count_pos_iff.2 hk'
    have := made_levels ops k
    simp only [List.count_append] at *
    omega

/-! ### Cases that meet the conditions -/

/-- A tree of depth 3 that meets the conditions of `C90_navigate`, `C90_edit` and `C90_local`. The moves of `focus` at the indices 0 to 8 with the branches on the
way (`none` where there is no place), and of `focus_left`. -/
example : (exTree Count).Reachable .edit ∧ (exTree Count).tree.depth = 3 ∧
    (List.range 9).map (fun i => ((exTree Count).focusC (i : Nat) 0).map fun x => (x.2, x.1.map Raz.path)) =
      [.ok (2, some 2), .ok (2, some 2), .ok (3, some 2), .ok (4, some 3), .ok (3, some 3), .ok (4, some 3), .ok (1, some 1), .ok (0, none), .ok (0, none)] ∧
    ((exTree Count).focusLeftC 0).map (fun x => (x.2, x.1.path)) = .ok (3, 2) :=
  ⟨exTree_reach Count .edit, by decide +kernel, by decide +kernel, by decide +kernel⟩

/-- An edit of `C90_edit` that crosses three archive points: 13 moves, and the bound is 51. And one of `C90_local`: 11 moves, and the bound is 24. -/
example : (∀ op ∈ [(.popL : LOp Nat), .popL, .popL, .popL], op.Lifts) ∧ (∀ op ∈ [(.popL : LOp Nat), .pushL 9, .archL 3 none], op.Lifts) ∧
    (do let o ← (exTree Count).focus (6 : Nat); let z ← unwrap o; return (z.path, z.crossings [.popL, .popL, .popL, .popL]) : P (Nat × Nat)) = .ok (1, 3) ∧
    ((exTree Count).editC (6 : Nat) [.popL, .popL, .popL, .popL] 0).map (fun x => (x.2, x.1.elems)) = .ok (13, [1, 2]) ∧
    (do let o ← (exTree Count).focus (5 : Nat); let z ← unwrap o; return (z.path, z.crossings [.popL, .pushL 9, .archL 3 none]) : P (Nat × Nat)) = .ok (3, 0) ∧
    ((exTree Count).editC (5 : Nat) [.popL, .pushL 9, .archL 3 none] 0).map (fun x => (x.2, x.1.elems)) = .ok (11, [1, 2, 3, 4, 9, 6]) := by
  refine ⟨?_, ?_, by decide +kernel, by decide +kernel, by decide +kernel, by decide +kernel⟩
  · intro op h
    simp only [List.mem_cons, List.not_mem_nil, or_false] at h
    rcases h with rfl | rfl | rfl | rfl <;> exact trivial
  · intro op h
    simp only [List.mem_cons, List.not_mem_nil, or_false] at h
    rcases h with rfl | rfl | rfl
    · exact trivial
    · exact trivial
    · exact (by decide : 1 ≤ 3)

/-- The conditions of `C90_mean` for a sequence with 7 archive points and edits across them, and the bound. -/
example : within (closed (onSides ([], []) Incr.exSlotted)) exWithin = true ∧ (LOp.slots Incr.exSlotted ++ restSlots exWithin).Nodup ∧
    (∀ k ∈ LOp.slots Incr.exSlotted ++ restSlots exWithin, k < 8) ∧
    LOp.pops Incr.exSlotted + 8 * LOp.archs Incr.exSlotted + 8 + movesBound (closed (onSides ([], []) Incr.exSlotted)) exWithin = 326 := by
  refine ⟨by decide +kernel, by decide +kernel, by decide +kernel, by decide +kernel⟩

/-- The moves with the random numbers 0, 1, 2, …: 10 to make the sequence, 34 for the two edits. -/
example : ((RazTree.makeC (Incr.exSlotted.map (LOp.at (drawn (n := 8) fun k => ⟨k.1, by omega⟩))) : Counting (RazTree Nat Count)) 0).map (fun x => (x.2, x.1.elems)) =
      .ok (10, [1, 2, 3, 4, 5, 6, 7, 8]) ∧
    ((RazTree.makeC (Incr.exSlotted.map (LOp.at (drawn (n := 8) fun k => ⟨k.1, by omega⟩))) >>= fun t =>
      t.editsC (editsAt (drawn (n := 8) fun k => ⟨k.1, by omega⟩) exWithin) : Counting (RazTree Nat Count)) 0).map (fun x => (x.2, x.1.elems)) =
      .ok (44, [1, 30, 20, 10, 6, 7, 8]) := by
  decide +kernel

end Iodyn
