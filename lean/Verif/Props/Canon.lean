import Verif.Props.Fold
import Verif.Spec.Levels
import Verif.Props.Zipper
/-
C17–C19 memo_from, C20 heap order, C21 canonical trees, C48 local edits.
-/
namespace Iodyn
variable {E M : Type}

/-! ### C20 -/

theorem Canon.levels {D : Type} {t : Tree D} (h : Canon t) {lv} (hl : ∀ x ∈ t.level?, x ≤ lv) : ∀ x ∈ t.levels, x ≤ lv := by
  induction t generalizing lv with
  | nil => simp [Tree.levels]
  | node lv' nm d l r ihl ihr =>
    obtain ⟨h1, h2, h3, h4⟩ := h
    simp [Tree.level?] at hl
    intro x hx
    simp only [Tree.levels, List.mem_append, List.mem_cons] at hx
    rcases hx with hx | rfl | hx
    · exact ihl h3 (fun y hy => by have := h1 y hy; omega) x hx
    · exact hl
    · exact ihr h4 (fun y hy => by have := h2 y hy; omega) x hx

theorem Canon.heap {D : Type} {t : Tree D} (h : Canon t) : HeapOrdered t := by
  intro lv nm d l r hs
  generalize hn : Tree.node lv nm d l r = n at hs
  induction hs with
  | refl =>
    subst hn
    obtain ⟨h1, h2, h3, h4⟩ := h
    refine ⟨fun x hx => ?_, h4.levels h2⟩
    cases hl : l.level? with
    | none => cases l <;> simp [Tree.level?] at hl; simp [Tree.levels] at hx
    | some y =>
      have := h1 y hl
      have := h3.levels (lv := y) (by rw [hl]; simp) x hx
      omega
  | left _ ih => exact ih h.2.2.1
  | right _ ih => exact ih h.2.2.2

/-- **C20.** Trees from editing and `memo_from` are heap ordered. The usage `u` leaves out only `RazTree::join`. -/
theorem C20_heap_ordered [RazMeta E M] {u : Usage} (hu : u.join = false) {t : RazTree E M} (h : t.Reachable u) : HeapOrdered t.tree :=
  ((Reach.t h).canon hu).heap

example : HeapOrdered (exTree Count).tree ∧ Tree.levels (exTree Count).tree = [0, 2, 0, 1, 0, 4, 0] :=
  ⟨C20_heap_ordered rfl (exTree_reach Count .edit), rfl⟩

/-- `RazTree::join` takes any level, so that its results need not be heap ordered. -/
theorem C20_join_not_heap_ordered [RazMeta Nat M] : ∃ t : RazTree Nat M, t.Reachable .full ∧ ¬ HeapOrdered t.tree := by
  obtain ⟨t, h1, -⟩ := (razJoin_ok (lev := 1) (Reach.t (exTree_reach M .full)).inv.wf (Reach.t (exTree_reach M .full)).inv.wf (by decide) none).1
    ⟨by simp [exTree], by simp [exTree]⟩
  refine ⟨t, .join rfl (exTree_reach M .full) (exTree_reach M .full) (by decide) h1, fun hh => ?_⟩
  have e : (exTree M).join 1 none (exTree M) = .ok (some ⟨metaOf 0 none (.node 1 none (.branch (metaOf 1 none (exTree M).tree) (metaOf 1 none (exTree M).tree)) (exTree M).tree (exTree M).tree),
    .node 1 none (.branch (metaOf 1 none (exTree M).tree) (metaOf 1 none (exTree M).tree)) (exTree M).tree (exTree M).tree⟩) := rfl
  rw [e] at h1
  simp only [Except.ok.injEq, Option.some.injEq] at h1
  subst h1
  have := (hh _ _ _ _ _ .refl).1 4 (by simp [exTree, Tree.levels])
  omega

/-! ### C21 -/

/-- **C21.** Two trees with the same elements and archive points that are both empty or both not are equal,
including their metadata. -/
theorem C21_canonical_general [RazMeta E M] {u : Usage} (hu : u.join = false) {a b : RazTree E M} (ha : a.Reachable u) (hb : b.Reachable u)
    (h : a.items = b.items) (he : a.isEmpty = b.isEmpty) : a = b := by
  have wa := Reach.t ha
  have wb := Reach.t hb
  have emp : ∀ t : RazTree E M, t.isEmpty = true ↔ t.tree = .nil := by
    intro t
    obtain ⟨i, t⟩ := t
    cases t <;> simp [RazTree.isEmpty, Tree.isSome]
  have ht : a.tree = b.tree := by
    rcases wa.inv.wf with na | wa'
    · rw [na, (emp b).1 (by rw [← he]; exact (emp a).2 na)]
    · rcases wb.inv.wf with nb | wb'
      · rw [nb, (emp a).1 (by rw [he]; exact (emp b).2 nb)]
      · exact canon_unique wa' wb' (wa.canon hu) (wb.canon hu) h
  obtain ⟨ia, ta⟩ := a
  obtain ⟨ib, tb⟩ := b
  have e1 := wa.inv.info
  have e2 := wb.inv.info
  simp only at ht e1 e2
  subst ht
  rw [e1, e2]

/-- **C21.** Two trees with the same elements and archive points are equal, including their metadata. -/
theorem C21_canonical [RazMeta E M] {a b : RazTree E M} (ha : a.Reachable .edit) (hb : b.Reachable .edit)
    (h : a.items = b.items) : a = b := by
  refine C21_canonical_general rfl ha hb h ?_
  have e1 := C16_is_empty_partial (Reach.mono (by decide) (by decide) ha)
  have e2 := C16_is_empty_partial (Reach.mono (by decide) (by decide) hb)
  rw [Bool.eq_iff_iff, e1, e2, RazTree.elems, RazTree.elems, h]

/-- The condition on emptiness cannot be left out: popping the only element of a tree from `memo_from` with an empty
subsequence leaves a leaf without elements, not the empty tree. -/
theorem C21_empty_leaf : ∃ a b : RazTree Nat Count, a.Reachable ⟨false, true⟩ ∧ b.Reachable ⟨false, true⟩ ∧
    a.items = b.items ∧ a.isEmpty ≠ b.isEmpty := by
  have h : (do
      let t : RazTree Nat Count ← memoFromTail (((AStack.new : AStack Nat Nat).push 7).archive none 1).1
      let z ← t.focusLeft
      let (z', _) ← z.popRight
      let a ← z'.unfocus
      let b : RazTree Nat Count ← Raz.new.unfocus
      return (a.items, b.items, a.isEmpty, b.isEmpty)) = (.ok ([], [], false, true) : P (List (Item Nat) × List (Item Nat) × Bool × Bool)) := by
    decide +kernel
  obtain ⟨t, h1, h⟩ := bind_ok.1 h
  obtain ⟨z, h2, h⟩ := bind_ok.1 h
  obtain ⟨⟨z', o⟩, h3, h⟩ := bind_ok.1 h
  obtain ⟨a, h4, h⟩ := bind_ok.1 h
  obtain ⟨b, h5, h⟩ := bind_ok.1 h
  simp only [pure, Except.pure, Except.ok.injEq, Prod.mk.injEq] at h
  obtain ⟨i1, i2, e1, e2⟩ := h
  exact ⟨a, b, .unfocus (.popR (.focusLeft (.memoTail (.archive _ _ (by decide) (.push _ .new)) (.inl rfl) h1) h2) h3) h4,
    .unfocus .new h5, by rw [i1, i2], by rw [e1, e2]; decide⟩

/-- Two different histories that lead to the same tree. -/
example [RazMeta Nat M] {t1 t2 : RazTree Nat M}
    (h1 : (((Raz.new.pushLeft 1).1.archiveLeft 2 none).pushLeft 3).1.unfocus = .ok t1)
    (h2 : (((Raz.new.pushLeft 1).1.pushRight 3).1.archiveLeft 2 none).unfocus = .ok t2) : t1 = t2 := by
  have r1 : Raz.Reachable .edit (((Raz.new.pushLeft 1).1.archiveLeft 2 none).pushLeft 3 : Raz Nat M × Nat).1 :=
    .pushL _ (.archL _ (by decide) (.pushL _ .new))
  have r2 : Raz.Reachable .edit (((Raz.new.pushLeft 1).1.pushRight 3).1.archiveLeft 2 none : Raz Nat M) :=
    .archL _ (by decide) (.pushR _ (.pushL _ .new))
  refine C21_canonical (.unfocus r1 h1) (.unfocus r2 h2) ?_
  obtain ⟨t1', a1, -, i1⟩ := unfocus_inv (Reach.z r1).inv
  obtain ⟨t2', a2, -, i2⟩ := unfocus_inv (Reach.z r2).inv
  rw [a1] at h1; simp at h1; subst h1
  rw [a2] at h2; simp at h2; subst h2
  rw [i1, i2]; rfl
/-- Both trees of the previous example exist. -/
example [RazMeta Nat M] : (∃ t1, (((Raz.new.pushLeft 1).1.archiveLeft 2 none).pushLeft 3 : Raz Nat M × Nat).1.unfocus = .ok t1) ∧
    (∃ t2, (((Raz.new.pushLeft 1).1.pushRight 3).1.archiveLeft 2 none : Raz Nat M).unfocus = .ok t2) := by
  constructor
  · obtain ⟨t, h, -⟩ := unfocus_inv (M := M) (Reach.z (u := .edit) (.pushL 3 (.archL (lev := 2) none (by decide) (.pushL 1 .new)))).inv
    exact ⟨t, h⟩
  · obtain ⟨t, h, -⟩ := unfocus_inv (M := M) (Reach.z (u := .edit) (.archL (lev := 2) none (by decide) (.pushR 3 (.pushL 1 .new)))).inv
    exact ⟨t, h⟩

/-! ### C17, C18 -/

theorem elemsOf_keep_side (s : AStack E Nat) : elemsOf (s.side.map Item.keep) = s.elems := by
  obtain ⟨cur, arch⟩ := s
  simp only [AStack.elems, AStack.side, List.map_append, elemsOf_append]
  congr 1
  · rw [List.map_map]
    exact elemsOf_map_elem _
  · induction arch with
    | nil => rfl
    | cons p arch ih =>
      simp only [List.flatMap_cons, List.map_append, List.map_cons, Item.keep, List.cons_append]
      rw [elemsOf_cons_mark rfl, elemsOf_append, ih]
      congr 1
      rw [List.map_map]
      exact elemsOf_map_elem _

/-- **C17.** `memo_from(AtTail)` does not panic and keeps the sequence of the stack from bottom to top. -/
theorem C17_memo_from_tail [RazMeta E M] {s : AStack E Nat} (h : s.Built (fun n => 1 ≤ n ∧ n < u32Max)) :
    ∃ t : RazTree E M, memoFromTail s = .ok t ∧ t.items = s.bottomUp ∧ t.elems = s.elems.reverse := by
  obtain ⟨t, h1, -, -, h4⟩ := memoFromTail_ok (M := M) h.inv
  refine ⟨_, h1, h4, ?_⟩
  show elemsOf t.items = _
  rw [h4, AStack.bottomUp, elemsOf_reverse]
  rw [elemsOf_keep_side]

/-- **C18.** `memo_from(AtHead)` does not panic and gives the sequence of the stack from top to bottom. -/
theorem C18_memo_from_head [RazMeta E M] {s : AStack E Nat} (h : s.Built (fun n => 1 ≤ n ∧ n ≤ u32Max)) :
    ∃ t : RazTree E M, memoFromHead s = .ok t ∧ t.items = s.topDown ∧ t.elems = s.elems := by
  obtain ⟨t, h1, -, -, h4⟩ := memoFromHead_ok (M := M) h.inv
  refine ⟨_, h1, h4, ?_⟩
  show elemsOf t.items = _
  rw [h4, AStack.topDown, elemsOf_keep_side]

example : exStack.Built (fun n => 1 ≤ n ∧ n < u32Max) ∧ exStack.elems = [6, 5, 4, 3, 2, 1] ∧
    exStack.bottomUp = [.elem 1, .elem 2, .mark 2 (some (.str "a")), .elem 3, .mark 1 none, .elem 4, .elem 5, .mark 4 (some (.str "b")), .elem 6] :=
  ⟨exStack_built, rfl, rfl⟩
example : exStack.Built (fun n => 1 ≤ n ∧ n ≤ u32Max) := exStack_built'

/-- The bounds on levels are needed: `AtTail` panics on level `u32::MAX` (assertion at src/raz.rs:739), although
`AtHead` accepts it; `AtHead` panics on level 0 (src/raz.rs:814). -/
theorem C17_level_bounds [RazMeta E M] (e : E) :
    (memoFromTail (((AStack.new.push e).archive none u32Max).1.push e) : P (RazTree E M)) = .error .assertion ∧
    (∃ t : RazTree E M, memoFromHead (((AStack.new.push e).archive none u32Max).1.push e) = .ok t) ∧
    (memoFromHead (((AStack.new.push e).archive none 0).1.push e) : P (RazTree E M)) = .error .assertion := by
  refine ⟨rfl, ?_, rfl⟩
  obtain ⟨t, h, -⟩ := C18_memo_from_head (M := M) (s := ((AStack.new.push e).archive none u32Max).1.push e)
    (.push _ (.archive _ _ ⟨by decide, Nat.le_refl _⟩ (.push _ .new)))
  exact ⟨t, h⟩

/-! ### C19 -/

theorem fillStack_built (ops : List (Fill E)) (h : ∀ nm lev, Fill.archive nm lev ∈ ops → 1 ≤ lev ∧ lev < u32Max) :
    (fillStack ops).Built (fun n => 1 ≤ n ∧ n < u32Max) := by
  have key : ∀ (ops : List (Fill E)) (s : AStack E Nat), s.Built (fun n => 1 ≤ n ∧ n < u32Max) →
      (∀ nm lev, Fill.archive nm lev ∈ ops → 1 ≤ lev ∧ lev < u32Max) →
      (ops.foldl (fun s op => match op with
        | .push e => s.push e
        | .archive nm lev => (s.archive nm lev).1) s).Built (fun n => 1 ≤ n ∧ n < u32Max) := by
    intro ops
    induction ops with
    | nil => exact fun s hs _ => hs
    | cons op ops ih =>
      intro s hs h
      refine ih _ ?_ (fun nm lev hm => h nm lev (List.mem_cons_of_mem _ hm))
      cases op with
      | push e => exact .push e hs
      | archive nm lev => exact .archive nm lev (h nm lev (List.mem_cons_self ..)) hs
  exact key ops _ .new h

theorem fillCursor_eq (ops : List (Fill E)) :
    (fillCursor ops : Raz E M) = { (Raz.new : Raz E M) with lStack := fillStack ops } := by
  have key : ∀ (ops : List (Fill E)) (s : AStack E Nat),
      ops.foldl (fun z op => match op with
        | .push e => (z.pushLeft e).1
        | .archive nm lev => z.archiveLeft lev nm) { (Raz.new : Raz E M) with lStack := s } =
      { (Raz.new : Raz E M) with lStack := ops.foldl (fun s op => match op with
        | .push e => s.push e
        | .archive nm lev => (s.archive nm lev).1) s } := by
    intro ops
    induction ops with
    | nil => intro s; rfl
    | cons op ops ih =>
      intro s
      simp only [List.foldl_cons]
      rw [← ih]
      cases op <;> rfl
  exact key ops _

theorem fillStack_suffix (ops : List (Fill E)) :
    (fillStack (ops.map Fill.suffix)).bottomUp = ((fillStack ops).side.map Item.settle).reverse ∧
    (fillStack (ops.map Fill.suffix)).current = (fillStack ops).current := by
  let R (s' s : AStack E Nat) : Prop := s'.current = s.current ∧
    s'.archived = s.archived.map (fun p => (p.1.map (fun n => Name.pair n (.str "tree")), p.2))
  have key : ∀ (ops : List (Fill E)) (s' s : AStack E Nat), R s' s →
      R ((ops.map Fill.suffix).foldl (fun s op => match op with
        | .push e => s.push e
        | .archive nm lev => (s.archive nm lev).1) s')
      (ops.foldl (fun s op => match op with
        | .push e => s.push e
        | .archive nm lev => (s.archive nm lev).1) s) := by
    intro ops
    induction ops with
    | nil => exact fun _ _ h => h
    | cons op ops ih =>
      rintro ⟨c', a'⟩ ⟨c, a⟩ ⟨h1, h2⟩
      simp only at h1 h2
      subst h1 h2
      refine ih _ _ ?_
      cases op with
      | push e => exact ⟨rfl, rfl⟩
      | archive nm lev =>
        simp only [Fill.suffix, AStack.archive]
        split
        · exact ⟨rfl, rfl⟩
        · exact ⟨rfl, rfl⟩
  obtain ⟨h1, h2⟩ := key ops AStack.new AStack.new ⟨rfl, rfl⟩
  change (fillStack (ops.map Fill.suffix)).current = (fillStack ops).current at h1
  change (fillStack (ops.map Fill.suffix)).archived = _ at h2
  refine ⟨?_, h1⟩
  rw [AStack.bottomUp]
  congr 1
  simp only [AStack.side, h1, h2, List.map_append, List.map_map]
  congr 1
  change List.map Item.keep (List.flatMap _ (List.map _ (fillStack ops).archived)) = List.map Item.settle (List.flatMap _ (fillStack ops).archived)
  induction (fillStack ops).archived with
  | nil => rfl
  | cons p l ih =>
    simp only [List.map_cons, List.flatMap_cons, List.map_append, ih]
    congr 1
    simp only [Item.keep, Item.settle, List.map_map]
    congr 1

/-- **C19.** Filling the left side of a cursor and unfocusing gives exactly the tree that `memo_from(AtTail)`
makes of the stack filled the same way, with the suffix that `unfocus` adds to the names. Nothing else differs:
same elements, levels, shape and metadata. -/
theorem C19_memo_from_unfocus [RazMeta E M] (ops : List (Fill E))
    (hlev : ∀ nm lev, Fill.archive nm lev ∈ ops → 1 ≤ lev ∧ lev < u32Max) (hne : (fillStack ops).current ≠ []) :
    ∃ t : RazTree E M, (fillCursor ops : Raz E M).unfocus = .ok t ∧ memoFromTail (fillStack (ops.map Fill.suffix)) = .ok t := by
  have hreach : ∀ ops : List (Fill E), (∀ nm lev, Fill.archive nm lev ∈ ops → 1 ≤ lev ∧ lev < u32Max) →
      (fillCursor ops : Raz E M).Reachable .edit := by
    have key : ∀ (ops : List (Fill E)) (z : Raz E M), z.Reachable .edit →
        (∀ nm lev, Fill.archive nm lev ∈ ops → 1 ≤ lev ∧ lev < u32Max) →
        (ops.foldl (fun z op => match op with
          | .push e => (z.pushLeft e).1
          | .archive nm lev => z.archiveLeft lev nm) z).Reachable .edit := by
      intro ops
      induction ops with
      | nil => exact fun z hz _ => hz
      | cons op ops ih =>
        intro z hz h
        refine ih _ ?_ (fun nm lev hm => h nm lev (List.mem_cons_of_mem _ hm))
        cases op with
        | push e => exact .pushL e hz
        | archive nm lev => exact .archL nm (h nm lev (List.mem_cons_self ..)).1 hz
    exact fun ops => key ops _ .new
  have hz := hreach ops hlev
  obtain ⟨t1, u1, -, i1⟩ := unfocus_inv (Reach.z hz).inv
  have hlev' : ∀ nm lev, Fill.archive nm lev ∈ ops.map Fill.suffix → 1 ≤ lev ∧ lev < u32Max := by
    intro nm lev hm
    obtain ⟨op, h1, h2⟩ := List.mem_map.1 hm
    cases op with
    | push e => simp [Fill.suffix] at h2
    | archive nm' lev' =>
      simp only [Fill.suffix, Fill.archive.injEq] at h2
      rw [← h2.2]
      exact hlev _ _ h1
  obtain ⟨t2, u2, i2, -⟩ := C17_memo_from_tail (M := M) (fillStack_built _ hlev')
  obtain ⟨s1, s2⟩ := fillStack_suffix ops
  refine ⟨t1, u1, ?_⟩
  rw [u2]
  congr 1
  refine C21_canonical (.memoTail (fillStack_built _ hlev') (.inr (.inl (by rw [s2]; exact hne))) u2) (.unfocus hz u1) ?_
  rw [i2, i1, s1]
  rw [fillCursor_eq]
  have hl : ({ (Raz.new : Raz E M) with lStack := fillStack ops } : Raz E M).left = (fillStack ops).side := by
    simp [Raz.left, Raz.new, RazTree.emptyRaz, Cursor.new, Cursor.leftSide]
  have hr : ({ (Raz.new : Raz E M) with lStack := fillStack ops } : Raz E M).right = [] := rfl
  rw [hl, hr, glue_elem, List.append_nil, List.map_reverse]
  left
  obtain ⟨a, w, h⟩ := List.exists_cons_of_ne_nil (List.reverse_eq_nil_iff.not.2 hne)
  rw [AStack.side, h]
  exact ⟨a, _, rfl⟩

example : ∃ t : RazTree Nat Count,
    (fillCursor [.push 1, .archive (some (.str "a")) 3, .push 2, .archive none 5, .push 3] : Raz Nat Count).unfocus = .ok t ∧
    memoFromTail (fillStack [.push 1, .archive (some (.pair (.str "a") (.str "tree"))) 3, .push 2, .archive none 5, .push 3]) = .ok t :=
  C19_memo_from_unfocus _ (by intro nm lev h; simp at h; rcases h with ⟨-, rfl⟩ | ⟨-, rfl⟩ <;> decide) (by decide)

/-! ### C48 -/

theorem split_mark {A X w : List (Item E)} {v : List E} {lv nm} (h : A ++ v.map .elem = X ++ .mark lv nm :: w) :
    ∃ A', A = X ++ .mark lv nm :: A' ∧ w = A' ++ v.map .elem := by
  rw [List.append_eq_append_iff] at h
  rcases h with ⟨y, h1, h2⟩ | ⟨y, h1, h2⟩
  · have : Item.mark lv nm ∈ v.map Item.elem := by rw [h2]; simp
    simp at this
  · cases y with
    | nil =>
      have : Item.mark lv nm ∈ v.map Item.elem := by simp at h2; rw [← h2]; simp
      simp at this
    | cons m y =>
      simp only [List.cons_append, List.cons.injEq] at h2
      obtain ⟨rfl, rfl⟩ := h2
      exact ⟨y, h1, rfl⟩

/-- Replacing the elements of one leaf. -/
theorem replace_leaf [RazMeta E M] {t : Tree (TreeData E M)} (h : WF t) (hc : Canon t) {A B : List (Item E)} {v : List E}
    (hi : t.items = A ++ v.map .elem ++ B) (hA : MarkHead A.reverse) (hB : MarkHead B) (v' : List E) :
    ∃ t', OnPath t t' ∧ WF t' ∧ Canon t' ∧ t'.level? = t.level? ∧ t'.items = A ++ v'.map .elem ++ B := by
  induction h generalizing A B with
  | leaf w =>
    rw [items_leaf] at hi
    have nA : A = [] := by
      rcases hA with h | ⟨lev, nm, r, h⟩
      · simpa using h
      · exfalso
        have : Item.mark lev nm ∈ w.map Item.elem := by
          rw [hi]; simp; left
          rw [← List.mem_reverse, h]; simp
        simp at this
    have nB : B = [] := by
      rcases hB with h | ⟨lev, nm, r, h⟩
      · exact h
      · exfalso
        have : Item.mark lev nm ∈ w.map Item.elem := by
          rw [hi, h]; simp
        simp at this
    subst nA nB
    exact ⟨leaf v' none, .leaf _ _, WF.leaf _, canon_leaf _ _, rfl, by simp [leaf]⟩
  | @branch lv nm l r hlv hl hr ihl ihr =>
    obtain ⟨c1, c2, c3, c4⟩ := hc
    rw [items_branch] at hi
    have goLeft : ∀ B', l.items = A ++ v.map .elem ++ B' → B = B' ++ .mark lv nm :: r.items → MarkHead B' →
        ∃ t', OnPath (.node lv nm (.branch (metaOf lv nm l) (metaOf lv nm r)) l r) t' ∧ WF t' ∧ Canon t' ∧
          t'.level? = some lv ∧ t'.items = A ++ v'.map .elem ++ B := by
      intro B' h1 h2 h3
      obtain ⟨l', p1, p2, p3, p4, p5⟩ := ihl c3 h1 hA h3
      refine ⟨.node lv nm (.branch (metaOf lv nm l') (metaOf lv nm r)) l' r, .left p1, .branch hlv p2 hr,
        ⟨by rw [p4]; exact c1, c2, p3, c4⟩, rfl, ?_⟩
      rw [items_branch, p5, h2]
      simp
    rw [List.append_eq_append_iff] at hi
    rcases hi with ⟨w, h1, h2⟩ | ⟨w, h1, h2⟩
    · cases w with
      | nil =>
        simp at h1 h2
        exact goLeft [] (by simp [h1]) (by simp [h2]) (.inl rfl)
      | cons m w =>
        simp only [List.cons_append, List.cons.injEq] at h2
        obtain ⟨rfl, h2⟩ := h2
        obtain ⟨A', e1, e2⟩ := split_mark h1
        have hA' : MarkHead A'.reverse := by
          rcases hA with h | ⟨lev, nm', r', h⟩
          · rw [e1] at h; simp at h
          · rw [e1] at h
            cases hr : A'.reverse with
            | nil => exact .inl rfl
            | cons x y =>
              simp only [List.reverse_append, List.reverse_cons, hr, List.append_assoc, List.cons_append, List.cons.injEq] at h
              rw [h.1]
              exact .inr ⟨_, _, _, rfl⟩
        obtain ⟨r', p1, p2, p3, p4, p5⟩ := ihr c4 (by rw [h2, e2]) hA' hB
        refine ⟨.node lv nm (.branch (metaOf lv nm l) (metaOf lv nm r')) l r', .right p1, .branch hlv hl p2,
          ⟨c1, by rw [p4]; exact c2, c3, p3⟩, rfl, ?_⟩
        rw [items_branch, p5, e1]
        simp
    · refine goLeft w h1 h2 ?_
      cases w with
      | nil => exact .inl rfl
      | cons x w =>
        rcases hB with h | ⟨lev, nm', r', h⟩
        · rw [h2] at h; simp at h
        · rw [h2] at h
          simp only [List.cons_append, List.cons.injEq] at h
          rw [h.1]
          exact .inr ⟨_, _, _, rfl⟩

theorem OnPath.level {t t' : Tree (TreeData E M)} (h : OnPath t t') : t'.level? = t.level? := by cases h <;> rfl

theorem localEdits_sides [RazMeta E M] {u : Usage} {z z' : Raz E M} (h : LocalEdits z z') (hz : z.Reachable u)
    {a b : List E} {L R : List (Item E)} (hl : z.left = a.map .elem ++ L) (hr : z.right = b.map .elem ++ R)
    (hL : MarkHead L) (hR : MarkHead R) :
    z'.Reachable u ∧ ∃ a' b' : List E, z'.left = a'.map .elem ++ L ∧ z'.right = b'.map .elem ++ R := by
  have nomark : ∀ {x : List E} {S : List (Item E)} {e r}, MarkHead S → x.map .elem ++ S = Item.elem e :: r → ∃ x', x = e :: x' ∧ r = x'.map .elem ++ S := by
    intro x S e r hS hx
    cases x with
    | nil =>
      exfalso
      rcases hS with h | ⟨_, _, _, h⟩ <;> simp [h] at hx
    | cons y x =>
      simp at hx
      obtain ⟨rfl, rfl⟩ := hx
      exact ⟨x, rfl, rfl⟩
  induction h with
  | refl => exact ⟨hz, a, b, hl, hr⟩
  | pushL e _ ih =>
    obtain ⟨h1, a', b', h2, h3⟩ := ih
    obtain ⟨-, q1, q2⟩ := pushLeft_ok (Reach.z h1).inv e
    exact ⟨.pushL e h1, e :: a', b', by rw [q1, h2]; rfl, by rw [q2, h3]⟩
  | pushR e _ ih =>
    obtain ⟨h1, a', b', h2, h3⟩ := ih
    obtain ⟨-, q1, q2⟩ := pushRight_ok (Reach.z h1).inv e
    exact ⟨.pushR e h1, a', e :: b', by rw [q2, h2], by rw [q1, h3]; rfl⟩
  | popL _ hs hp ih =>
    obtain ⟨h1, a', b', h2, h3⟩ := ih
    obtain ⟨z'', p1, -, p3, p4⟩ := popLeft_ok (Reach.z h1).inv
    have hp' := hp
    rw [p1] at hp
    simp at hp
    obtain ⟨rfl, -⟩ := hp
    rw [h2] at hs
    obtain ⟨x', e1, e2⟩ := nomark hL hs
    refine ⟨.popL h1 hp', x', b', ?_, by rw [p4, h3]⟩
    rw [p3, h2, e1]; rfl
  | popR _ hs hp ih =>
    obtain ⟨h1, a', b', h2, h3⟩ := ih
    obtain ⟨z'', p1, -, p3, p4⟩ := popRight_ok (Reach.z h1).inv
    have hp' := hp
    rw [p1] at hp
    simp at hp
    obtain ⟨rfl, -⟩ := hp
    rw [h3] at hs
    obtain ⟨x', e1, e2⟩ := nomark hR hs
    refine ⟨.popR h1 hp', a', x', ?_, ?_⟩
    · rw [p4, h2]
    · rw [p3, h3, e1]; rfl

/-- **C48.** After a local edit that leaves an element next to the cursor, the tree differs from the original
only along the path from the root to the edited subsequence: every branch off that path, and the metadata
stored for it, is unchanged, and so are all levels and names. -/
theorem C48_local_edit_partial [RazMeta E M] [LawfulMeta E M] {u : Usage} (hj : u.join = false) {t t' : RazTree E M} (h : t.Reachable u) (hne : t.isEmpty = false)
    {i : RazMeta.Index E M} {z z' : Raz E M} (hf : t.focus i = .ok (some z)) (he : LocalEdits z z')
    (hs : (∃ e r, z'.left = .elem e :: r) ∨ (∃ e r, z'.right = .elem e :: r)) (hu : z'.unfocus = .ok t') :
    OnPath t.tree t'.tree := by
  have ht := Reach.t h
  have hz : z.Reachable u := .focus h hf
  obtain ⟨-, f2, f3⟩ := focus_ok ht.inv.wf hf
  rcases f3 with hn | ⟨c, v, a, b, hv, hab, ha, hb⟩
  · simp [RazTree.isEmpty, hn, Tree.isSome] at hne
  · have hw : WF t.tree := by
      rcases ht.inv.wf with hn | hw
      · simp [RazTree.isEmpty, hn, Tree.isSome] at hne
      · exact hw
    have mL := leftSide_markHead c.lForest
    have mR := rightSide_markHead c.rForest
    rw [ha, hb] at f2
    revert ha hb f2 mL mR
    generalize Cursor.leftSide c.lForest = L
    generalize Cursor.rightSide c.rForest = R
    intro f2 ha hb mL mR
    obtain ⟨hz', a', b', hl, hr⟩ := localEdits_sides he hz ha hb mL mR
    obtain ⟨t'', u1, u2, u3⟩ := unfocus_inv (Reach.z hz').inv
    have hitems : t.tree.items = L.reverse ++ v.map .elem ++ R := by
      have : t.tree.items = t.items := rfl
      rw [this, ← f2, ← hab]; simp
    obtain ⟨tr, p1, p2, p3, -, p5⟩ := replace_leaf hw (ht.canon hj) hitems (by simpa using mL) mR (a'.reverse ++ b')
    have hset := settle_items t.tree
    rw [hitems] at hset
    simp only [List.map_append, List.append_assoc] at hset
    have sL := (List.append_inj hset (by simp)).1
    have sR := (List.append_inj (List.append_inj hset (by simp)).2 (by simp)).2
    rw [u1] at hu
    simp at hu
    subst hu
    have htr : t''.items = tr.items := by
      have hg : glue z'.left z'.right = z'.left.reverse ++ z'.right := glue_elem hs
      rw [u3, hg, hl, hr, p5]
      simp only [List.map_append, List.reverse_append, List.map_reverse, List.append_assoc, List.map_map] at sL ⊢
      rw [sL, sR]
      rfl
    have hw' : WF t''.tree := by
      rcases u2.wf with hn | hw
      · exfalso
        have h0 : tr.items = [] := by rw [← htr]; simp [RazTree.items, hn]
        rw [p5] at h0
        simp at h0
        obtain ⟨rfl, rfl, rfl, rfl⟩ := h0
        rcases hs with ⟨e, r, h⟩ | ⟨e, r, h⟩
        · rw [hl] at h; simp at h
        · rw [hr] at h; simp at h
      · exact hw
    have hu' := Reach.t (u := u) (.unfocus hz' u1)
    rw [canon_unique hw' p2 (hu'.canon hj) p3 htr]
    exact p1

/-- Focus between 4 and 5 and push 9: the archive points and other subsequences stay. -/
example : ∃ z t', (exTree Count).focus (4 : Nat) = .ok (some z) ∧ ((z.pushLeft 9).1).unfocus = .ok t' ∧
    OnPath (exTree Count).tree t'.tree ∧ t'.elems = [1, 2, 3, 4, 9, 5, 6] := by
  obtain ⟨z, h1, h2, h3⟩ := C03_focus_index (exTree_reach Count .any) (i := 4) (by decide) (by decide)
  have hz : z.Reachable .edit := .focus (exTree_reach Count .edit) h1
  obtain ⟨-, q1, q2⟩ := pushLeft_ok (Reach.z hz).inv 9
  obtain ⟨t', u1, u2⟩ := C02_unfocus_elements (Reach.any (.pushL 9 hz))
  refine ⟨z, t', h1, u1, C48_local_edit_partial rfl (exTree_reach Count .edit) rfl h1 (.pushL 9 (.refl z)) (.inl ⟨_, _, q1⟩) u1, ?_⟩
  rw [u2, Raz.leftElems, Raz.rightElems, q1, q2]
  change (9 :: z.leftElems).reverse ++ z.rightElems = _
  rw [h2, h3]
  rfl

/-- Trees from `RazTree::join` need not follow their levels. A local edit in such a tree rebuilds it according to the
levels: the root of this tree of three subsequences changes from level 1 to level 5. -/
theorem C48_join_counterexample : ∃ (t t' : RazTree Nat Count) (z : Raz Nat Count), t.Reachable .full ∧ t.isEmpty = false ∧
    t.focus (0 : Nat) = .ok (some z) ∧ LocalEdits z (z.pushRight 9).1 ∧ (∃ e r, (z.pushRight 9).1.right = .elem e :: r) ∧
    (z.pushRight 9).1.unfocus = .ok t' ∧ t.tree.level? = some 1 ∧ t'.tree.level? = some 5 ∧ ¬ OnPath t.tree t'.tree := by
  have h : (do
      let a : RazTree Nat Count ← (((Raz.new.pushLeft 1).1.archiveLeft 5 none).pushLeft 2).1.unfocus
      let b : RazTree Nat Count ← (Raz.new.pushLeft 3).1.unfocus
      let t ← (a.join 1 none b : P (Option (RazTree Nat Count))) >>= unwrap
      let z ← t.focus (0 : Nat) >>= unwrap
      let t' ← (z.pushRight 9).1.unfocus
      return (t.isEmpty, t.tree.level?, t'.tree.level?)) = (.ok (false, some 1, some 5) : P (Bool × Option Nat × Option Nat)) := by
    decide +kernel
  obtain ⟨a, h1, h⟩ := bind_ok.1 h
  obtain ⟨b, h2, h⟩ := bind_ok.1 h
  obtain ⟨t, h3, h⟩ := bind_ok.1 h
  obtain ⟨z, h4, h⟩ := bind_ok.1 h
  obtain ⟨t', h5, h⟩ := bind_ok.1 h
  simp only [pure, Except.pure, Except.ok.injEq, Prod.mk.injEq] at h
  obtain ⟨e0, e1, e2⟩ := h
  obtain ⟨o, h3, h3'⟩ := bind_ok.1 h3
  rw [unwrap_ok] at h3'
  subst h3'
  obtain ⟨o, h4, h4'⟩ := bind_ok.1 h4
  rw [unwrap_ok] at h4'
  subst h4'
  have ht : t.Reachable .full :=
    .join rfl (.unfocus (.pushL 2 (.archL none (by decide) (.pushL 1 .new))) h1) (.unfocus (.pushL 3 .new) h2) (by decide) h3
  obtain ⟨-, q1, -⟩ := pushRight_ok (Reach.z (.focus ht h4)).inv 9
  refine ⟨t, t', z, ht, e0, h4, .pushR 9 (.refl z), ⟨_, _, q1⟩, h5, e1, e2, fun hp => ?_⟩
  have := hp.level
  rw [e1, e2] at this
  simp at this

end Iodyn
