import Verif.Props.Examples
import Verif.Proof.MetaOf
/-
C03 focus(i), C04 focus out of range, C05 end positions, C06 focus and unfocus, C09 focus by name.
-/
namespace Iodyn
variable {E M : Type}

/-! ### C03 -/

theorem nav_count {t : Tree (TreeData E Count)} (h : WF t) {i : Nat} (hi : i ≤ (elemsOf t.items).length)
    (hm : i < usizeMax) : ∃ x y, NavTo t i x y ∧ (elemsOf x).length = i := by
  induction h generalizing i with
  | leaf v =>
    have hlen : (elemsOf (v.map Item.elem)).length = v.length := by simp
    simp only [items_leaf, hlen] at hi
    refine ⟨_, _, .leaf (a := v.take i) (b := v.drop i) ?_ (by simp), by rw [elemsOf_map_elem]; simp [hi]⟩
    simp only [RazMeta.splitVec, splitAt]
    rw [if_neg (by omega), if_pos hi]
  | @branch lv nm l r hlv hl hr ihl ihr =>
    have cl := metaOf_count (.inr hl) lv nm
    have cr := metaOf_count (.inr hr) lv nm
    simp only [items_branch, elemsOf_append, List.length_append] at hi
    rw [elemsOf_cons_mark rfl] at hi
    have hnav : (RazMeta.navigate (metaOf lv nm l) (metaOf lv nm r) i : P (Navigation (RazMeta.Index E Count))) =
      .ok (Count.navigate (metaOf lv nm l) (metaOf lv nm r) i) := rfl
    simp only [Count.navigate, cl, cr] at hnav
    rw [if_neg (by omega), if_neg (by omega)] at hnav
    by_cases h1 : i > (elemsOf l.items).length
    · rw [if_pos h1] at hnav
      obtain ⟨x, y, n1, n2⟩ := ihr (i := i - (elemsOf l.items).length) (by omega) (by omega)
      refine ⟨_, _, .right hnav n1, ?_⟩
      simp only [elemsOf_append, List.length_append, elemsOf_cons_mark (i := Item.mark lv nm) rfl, n2]
      omega
    · rw [if_neg h1] at hnav
      by_cases h2 : i = (elemsOf l.items).length
      · rw [if_pos h2] at hnav
        refine ⟨_, _, .here hnav ?_, h2.symm⟩
        intro v
        simp [RazMeta.splitVec, RazMeta.last, splitAt]
      · rw [if_neg h2] at hnav
        obtain ⟨x, y, n1, n2⟩ := ihl (i := i) (by omega) hm
        exact ⟨_, _, .left hnav n1, n2⟩

/-- **C03.** `focus(i)` with `i` at most the length puts exactly the first `i` elements left of the cursor.
(`i < usize::MAX`: the index `usize::MAX` is the end marker, see C05.) -/
theorem C03_focus_index {t : RazTree E Count} (h : t.Reachable .any) {i : Nat} (hi : i ≤ t.elems.length)
    (hm : i < usizeMax) :
    ∃ z, t.focus i = .ok (some z) ∧ z.leftElems = (t.elems.take i).reverse ∧ z.rightElems = t.elems.drop i := by
  have ht := (Reach.t h).inv.wf
  rcases ht with hn | ht
  · obtain ⟨info, tree⟩ := t
    simp only at hn
    subst hn
    refine ⟨RazTree.emptyRaz, rfl, ?_, ?_⟩
    · have : (⟨info, .nil⟩ : RazTree E Count).elems = [] := rfl
      rw [this]; simp; rfl
    · have : (⟨info, .nil⟩ : RazTree E Count).elems = [] := rfl
      rw [this]; simp; rfl
  · obtain ⟨x, y, n1, n2⟩ := nav_count ht hi hm
    obtain ⟨z, h1, h2, h3⟩ := focus_nav ht n1
    have ha := n1.append
    have he : t.elems = elemsOf x ++ elemsOf y := by
      simp only [RazTree.elems, RazTree.items, ← ha, elemsOf_append]
    refine ⟨z, h1, ?_, ?_⟩
    · rw [Raz.leftElems, h2, elemsOf_reverse, he, List.take_append_of_le_length (by omega), ← n2]; simp
    · rw [Raz.rightElems, h3, he, ← n2]; simp

example : ∃ z, (exTree Count).focus (4 : Nat) = .ok (some z) ∧ z.leftElems = [4, 3, 2, 1] ∧ z.rightElems = [5, 6] :=
  C03_focus_index (exTree_reach Count .any) (i := 4) (by decide) (by decide)

/-! ### C04 -/

/-- **C04 (partial).** A sequence with at least one archive point: `focus` beyond the end returns `None`.
Missing: sequences without archive points, where the claim is false (`C04_counterexample_leaf`,
`C04_counterexample_empty`). -/
theorem C04_focus_out_of_range_partial {t : RazTree E Count} (h : t.Reachable .any) (hb : marksOf t.items ≠ []) {i : Nat}
    (hi : t.elems.length < i) (hm : i ≠ usizeMax) : t.focus i = .ok none := by
  have ht := (Reach.t h).inv.wf
  obtain ⟨info, tree⟩ := t
  rcases ht with hn | ht
  · simp only at hn
    subst hn
    exact absurd rfl hb
  · cases ht with
    | leaf v => exact absurd (by simp [RazTree.items, marksOf, List.filterMap_map]) hb
    | @branch lv nm l r hlv hl hr =>
      apply focus_nowhere
      have cl := metaOf_count (.inr hl) lv nm
      have cr := metaOf_count (.inr hr) lv nm
      simp only [RazTree.elems, RazTree.items, items_branch, elemsOf_append, List.length_append] at hi
      rw [elemsOf_cons_mark rfl] at hi
      show Except.ok (Count.navigate (metaOf lv nm l) (metaOf lv nm r) i) = _
      simp only [Count.navigate, cl, cr]
      rw [if_neg hm, if_pos (by omega)]

example : (exTree Count).focus (7 : Nat) = .ok none :=
  C04_focus_out_of_range_partial (exTree_reach Count .any) (by decide) (i := 7) (by decide) (by decide)

/-- **C04 is false** for one subsequence: `focus` beyond the end of every non-empty sequence without archive
points panics (`split_at`, src/raz_meta.rs:143). -/
theorem C04_counterexample_leaf {v : List E} (hv : v ≠ []) {i : Nat} (hi : v.length < i) (hm : i ≠ usizeMax) :
    ∃ t : RazTree E Count, RazTree.fromVec v = .ok (some t) ∧ t.Reachable .edit ∧ t.elems = v ∧
      t.focus i = .error .outOfRange := by
  obtain ⟨t, h1, -⟩ := fromVec_ok (M := Count) hv
  refine ⟨t, h1, .fromVec h1, ?_, ?_⟩
  all_goals
    have : t = ⟨metaOf 0 none (leaf v none), leaf v none⟩ := by
      unfold RazTree.fromVec at h1
      rw [if_neg hv, mkRazTree_wf (t := leaf v none) (.inr (WF.leaf v))] at h1
      simp [bind, Except.bind, pure, Except.pure] at h1
      exact h1.symm
    subst this
  · simp [RazTree.elems, RazTree.items, leaf]
  · simp only [RazTree.focus, leaf]
    unfold RazTree.focusLoop
    simp only [Cursor.ofTree, Cursor.peek, Tree.peek?, unwrap, bind, Except.bind, Cursor.split, RazMeta.splitVec, splitAt]
    rw [if_neg hm, if_neg (by omega)]

/-- **C04 is false** for the empty sequence: `focus` at any index gives a cursor. -/
theorem C04_counterexample_empty (i : Nat) :
    (RazTree.empty : RazTree E Count).Reachable .edit ∧ (RazTree.empty : RazTree E Count).elems = [] ∧
      (RazTree.empty : RazTree E Count).focus i = .ok (some Raz.new) := ⟨.empty, rfl, rfl⟩

/-- **C04, the whole truth**: what `focus` does beyond the end, for every counted tree. -/
theorem C04_focus_out_of_range_cases {t : RazTree E Count} (h : t.Reachable .any) {i : Nat}
    (hi : t.elems.length < i) (hm : i ≠ usizeMax) :
    t.focus i = if t.tree.isSome then (if marksOf t.items = [] then .error .outOfRange else .ok none)
      else .ok (some Raz.new) := by
  by_cases hb : marksOf t.items = []
  · have ht := (Reach.t h).inv.wf
    obtain ⟨info, tree⟩ := t
    rcases ht with hn | ht
    · simp only at hn
      subst hn
      rfl
    · cases ht with
      | leaf v =>
        have hlen : (elemsOf (v.map Item.elem)).length = v.length := by simp
        simp only [RazTree.elems, RazTree.items, items_leaf, hlen] at hi
        simp only [Tree.isSome, if_true, hb]
        simp only [RazTree.focus]
        unfold RazTree.focusLoop
        simp only [Cursor.ofTree, Cursor.peek, Tree.peek?, unwrap, bind, Except.bind, Cursor.split, RazMeta.splitVec, splitAt]
        rw [if_neg hm, if_neg (by omega)]
      | @branch lv nm l r hlv hl hr =>
        exfalso
        simp [RazTree.items, marksOf, List.filterMap_append] at hb
  · rw [C04_focus_out_of_range_partial h hb hi hm, if_neg hb]
    have : t.tree.isSome = true := by
      rcases (Reach.t h).inv.wf with hn | ht
      · exfalso; apply hb; simp [RazTree.items, hn, marksOf]
      · exact ht.isSome
    rw [this]; rfl

example : (exTree Count).focus (9 : Nat) = .ok none := by
  rw [C04_focus_out_of_range_cases (exTree_reach Count .any) (i := 9) (by decide) (by decide)]
  decide +kernel

/-! ### C05 -/

theorem nav_last [RazMeta E M] (hn : ∀ l r : M, RazMeta.navigate l r (RazMeta.last : RazMeta.Index E M) = .ok (.right RazMeta.last))
    (hs : ∀ v : List E, RazMeta.splitVec (M := M) v RazMeta.last = .ok (v, []))
    {t : Tree (TreeData E M)} (h : WF t) : NavTo t RazMeta.last t.items [] := by
  induction h with
  | leaf v => exact .leaf (hs v) (by simp)
  | branch _ _ _ _ ih => exact .right (hn _ _) ih

theorem nav_first [RazMeta E M] (hn : ∀ l r : M, RazMeta.navigate l r (RazMeta.first : RazMeta.Index E M) = .ok (.left RazMeta.first))
    (hs : ∀ v : List E, RazMeta.splitVec (M := M) v RazMeta.first = .ok ([], v))
    {t : Tree (TreeData E M)} (h : WF t) : NavTo t RazMeta.first [] t.items := by
  induction h with
  | leaf v => exact .leaf (hs v) (by simp)
  | @branch lv nm l r _ _ _ ih _ => exact .left (hn _ _) ih

theorem focus_of_nav [RazMeta E M] {t : RazTree E M} (h : t.Reachable .any) {i : RazMeta.Index E M} {x y : List (Item E)}
    (hx : t.items = [] → x = [] ∧ y = [])
    (hn : WF t.tree → NavTo t.tree i x y) :
    ∃ z, t.focus i = .ok (some z) ∧ z.left = x.reverse ∧ z.right = y := by
  rcases (Reach.t h).inv.wf with hnil | ht
  · obtain ⟨info, tree⟩ := t
    simp only at hnil
    subst hnil
    obtain ⟨rfl, rfl⟩ := hx rfl
    exact ⟨RazTree.emptyRaz, rfl, rfl, rfl⟩
  · exact focus_nav ht (hn ht)

/-- **C05.** The end marker: everything is left of the cursor (with all archive points). -/
theorem C05_focus_last_count {t : RazTree E Count} (h : t.Reachable .any) :
    ∃ z, t.focus usizeMax = .ok (some z) ∧ z.left = t.items.reverse ∧ z.right = [] :=
  focus_of_nav h (fun hn => ⟨hn, rfl⟩)
    (nav_last (fun l r => by simp [RazMeta.navigate, RazMeta.last, Count.navigate])
      (fun v => by simp [RazMeta.splitVec, RazMeta.last, splitAt]))
theorem C05_focus_last_names {t : RazTree E Names} (h : t.Reachable .any) :
    ∃ z, t.focus (Position.right : Position Name) = .ok (some z) ∧ z.left = t.items.reverse ∧ z.right = [] :=
  focus_of_nav h (fun hn => ⟨hn, rfl⟩)
    (nav_last (fun l r => by simp [RazMeta.navigate, RazMeta.last, Names.navigate])
      (fun v => by simp [RazMeta.splitVec, RazMeta.last, splitAt]))
theorem C05_focus_last_unit {t : RazTree E Unit} (h : t.Reachable .any) :
    ∃ z, t.focus (Position.right : Position Unit) = .ok (some z) ∧ z.left = t.items.reverse ∧ z.right = [] :=
  focus_of_nav h (fun hn => ⟨hn, rfl⟩)
    (nav_last (fun l r => by simp [RazMeta.navigate, RazMeta.last])
      (fun v => by simp [RazMeta.splitVec, RazMeta.last, splitAt]))

example : ∃ z, (exTree Names).focus (Position.right : Position Name) = .ok (some z) ∧ z.left = (exTree Names).items.reverse ∧ z.right = [] :=
  C05_focus_last_names (exTree_reach Names .any)

/-- **C05.** `Position::Left`: everything is right of the cursor. -/
theorem C05_focus_first_names {t : RazTree E Names} (h : t.Reachable .any) :
    ∃ z, t.focus (Position.left : Position Name) = .ok (some z) ∧ z.left = [] ∧ z.right = t.items :=
  focus_of_nav (x := []) h (fun hn => ⟨rfl, hn⟩)
    (nav_first (fun l r => by simp [RazMeta.navigate, RazMeta.first, Names.navigate])
      (fun v => by simp [RazMeta.splitVec, RazMeta.first, splitAt]))
theorem C05_focus_first_unit {t : RazTree E Unit} (h : t.Reachable .any) :
    ∃ z, t.focus (Position.left : Position Unit) = .ok (some z) ∧ z.left = [] ∧ z.right = t.items :=
  focus_of_nav (x := []) h (fun hn => ⟨rfl, hn⟩)
    (nav_first (fun l r => by simp [RazMeta.navigate, RazMeta.first])
      (fun v => by simp [RazMeta.splitVec, RazMeta.first, splitAt]))

/-- **C05.** `focus_left`: everything is right of the cursor, for every metadata type. -/
theorem C05_focus_left [RazMeta E M] {t : RazTree E M} (h : t.Reachable .any) :
    ∃ z, t.focusLeft = .ok z ∧ z.left = [] ∧ z.right = t.items := by
  obtain ⟨z, h1, -, h3, h4⟩ := focusLeft_ok (Reach.t h).inv.wf
  exact ⟨z, h1, h3, h4⟩

/-- **C05.** Count's first position 0 is C03 with `i = 0`: no element is left of the cursor. -/
theorem C05_focus_first_count {t : RazTree E Count} (h : t.Reachable .any) :
    ∃ z, t.focus (0 : Nat) = .ok (some z) ∧ z.leftElems = [] ∧ z.rightElems = t.elems := by
  obtain ⟨z, h1, h2, h3⟩ := C03_focus_index h (i := 0) (by omega) (by decide)
  exact ⟨z, h1, by simpa using h2, by simpa using h3⟩

example : (exTree Count).Reachable .any ∧ (exTree Names).Reachable .any ∧ (exTree Unit).Reachable .any ∧
    (exTree Unit).elems = [1, 2, 3, 4, 5, 6] := ⟨exTree_reach .., exTree_reach .., exTree_reach .., rfl⟩

/-! ### C06 -/

theorem unfocus_next [RazMeta E M] {u : Usage} (hj : u.join = false) {t : RazTree E M} (h : t.Reachable u) {z : Raz E M}
    (hz : z.Reachable u) (hi : z.left.reverse ++ z.right = t.items) (hs : StartsElem z.left ∨ StartsElem z.right) :
    z.unfocus = .ok t := by
  have ht := Reach.t h
  obtain ⟨t', h1, h2, h3⟩ := unfocus_inv (Reach.z hz).inv
  have hu := Reach.t (u := u) (.unfocus hz h1)
  have hitems : t'.items = t.items := by
    rw [h3, glue_elem hs, hi]
    exact settle_items _
  have hne : t.items ≠ [] := by
    rw [← hi]
    rcases hs with ⟨e, r, h⟩ | ⟨e, r, h⟩ <;> rw [h] <;> simp
  have htree : t'.tree = t.tree := by
    rcases ht.inv.wf with hn | hw
    · exact absurd (by simp [RazTree.items, hn]) hne
    · rcases hu.inv.wf with hn | hw'
      · exact absurd (by rw [← hitems]; simp [RazTree.items, hn]) hne
      · exact canon_unique hw' hw (hu.canon hj) (ht.canon hj) hitems
  rw [h1]
  congr 1
  obtain ⟨i1, t1⟩ := t'
  obtain ⟨i2, t2⟩ := t
  have e1 := h2.info
  have e2 := ht.inv.info
  simp only at e1 e2 htree
  subst htree
  rw [e1, e2]

theorem unfocus_back [RazMeta E M] {t : RazTree E M} (h : t.Reachable .edit) {z : Raz E M} (hz : z.Reachable .edit)
    (hi : z.left.reverse ++ z.right = t.items)
    (hs : t.tree ≠ .nil → StartsElem z.left ∨ StartsElem z.right) : z.unfocus = .ok t := by
  have ht := Reach.t h
  have hZ := Reach.z hz
  obtain ⟨t', h1, h2, h3⟩ := unfocus_inv hZ.inv
  have hu := Reach.t (u := .edit) (.unfocus hz h1)
  have hitems : t'.items = t.items := by
    by_cases hn : t.tree = .nil
    · have : t.items = [] := by simp [RazTree.items, hn]
      rw [this] at hi ⊢
      simp only [List.append_eq_nil_iff, List.reverse_eq_nil_iff] at hi
      rw [h3, hi.1, hi.2]; rfl
    · rw [h3, glue_elem (hs hn), hi]
      exact settle_items _
  have htree : t'.tree = t.tree := by
    rcases ht.inv.wf with hn | hw
    · rw [hn]
      apply (hu.tidy rfl).2
      rw [hitems]
      simp [RazTree.items, hn]
    · rcases hu.inv.wf with hn' | hw'
      · exfalso
        have : t.tree = .nil := by
          apply (ht.tidy rfl).2
          rw [← hitems]; simp [RazTree.items, hn']
        rw [this] at hw; cases hw
      · exact canon_unique hw' hw (hu.canon rfl) (ht.canon rfl) hitems
  rw [h1]
  congr 1
  obtain ⟨i1, t1⟩ := t'
  obtain ⟨i2, t2⟩ := t
  have e1 := h2.info
  have e2 := ht.inv.info
  simp only at e1 e2 htree
  subst htree
  rw [e1, e2]

/-- **C06, partial.** Focusing anywhere and unfocusing again without editing gives back an equal tree (elements,
archive points, shape, metadata). Missing: trees that `memo_from` makes of a stack that was archived and not pushed
to since, see `C06_counterexample`; for these `C06_next_to_element_partial` covers the cursors next to an element. -/
theorem C06_focus_unfocus_partial [RazMeta E M] [LawfulMeta E M] {t : RazTree E M} (h : t.Reachable .edit) {i : RazMeta.Index E M}
    {z : Raz E M} (hf : t.focus i = .ok (some z)) : z.unfocus = .ok t := by
  have ht := Reach.t h
  obtain ⟨-, f2, f3⟩ := focus_ok ht.inv.wf hf
  refine unfocus_back h (.focus h hf) f2 (fun hne => ?_)
  rcases f3 with hn | ⟨c, v, a, b, hv, hab, ha, hb⟩
  · exact absurd hn hne
  · have hvne := hv.ne (ht.tidy rfl).1 (fun hn => hne ((ht.tidy rfl).2 hn))
    rw [ha, hb]
    cases b with
    | cons e b => exact .inr ⟨e, _, rfl⟩
    | nil =>
      have : a.reverse ≠ [] := by
        intro hn
        simp at hn
        subst hn
        exact hvne (by rw [← hab]; rfl)
      obtain ⟨e, w, hw⟩ := List.exists_cons_of_ne_nil this
      exact .inl ⟨e, w.map .elem ++ Cursor.leftSide c.lForest, by rw [hw]; rfl⟩

/-- **C06, partial**, for every tree from editing and `memo_from` (even with empty subsequences), if the focus is next
to an element. -/
theorem C06_next_to_element_partial [RazMeta E M] [LawfulMeta E M] {u : Usage} (hj : u.join = false) {t : RazTree E M}
    (h : t.Reachable u) {i : RazMeta.Index E M} {z : Raz E M} (hf : t.focus i = .ok (some z))
    (hs : (∃ e r, z.left = .elem e :: r) ∨ (∃ e r, z.right = .elem e :: r)) : z.unfocus = .ok t :=
  unfocus_next hj h (.focus h hf) (focus_ok (Reach.t h).inv.wf hf).2.1 hs

example {z : Raz Nat Count} (hf : (exTree Count).focus (4 : Nat) = .ok (some z)) : z.unfocus = .ok (exTree Count) := by
  have : (exTree Count).focus (4 : Nat) >>= (fun o => .ok (o.map (·.left.head?.map Item.isMark))) = .ok (some (some false)) := by decide +kernel
  rw [hf] at this
  refine C06_next_to_element_partial (u := .edit) rfl (exTree_reach Count .edit) hf (.inl ?_)
  rcases hz : z.left with _ | ⟨_ | _ | _, r⟩ <;> simp [hz, bind, Except.bind, Item.isMark] at this ⊢

/-- Focusing at the right end of a tree from `memo_from` with an empty last subsequence and unfocusing drops the
archive point there. -/
theorem C06_counterexample : ∃ (t t' : RazTree Nat Unit) (z : Raz Nat Unit), t.Reachable ⟨false, true⟩ ∧
    t.focus (.right : Position Unit) = .ok (some z) ∧ z.unfocus = .ok t' ∧ t.items = [.elem 7, .mark 1 none] ∧ t'.items = [.elem 7] := by
  have h : (do
      let t : RazTree Nat Unit ← memoFromTail (((AStack.new : AStack Nat Nat).push 7).archive none 1).1
      let z ← t.focus (.right : Position Unit) >>= unwrap
      let t' ← z.unfocus
      return (t.items, t'.items)) = (.ok ([.elem 7, .mark 1 none], [.elem 7]) : P (List (Item Nat) × List (Item Nat))) := by
    decide +kernel
  obtain ⟨t, h1, h⟩ := bind_ok.1 h
  obtain ⟨z, h2, h⟩ := bind_ok.1 h
  obtain ⟨t', h3, h⟩ := bind_ok.1 h
  obtain ⟨o, h2, h2'⟩ := bind_ok.1 h2
  rw [unwrap_ok] at h2'
  subst h2'
  simp only [pure, Except.pure, Except.ok.injEq, Prod.mk.injEq] at h
  exact ⟨t, t', z, .memoTail (.archive _ _ (by decide) (.push _ .new)) (.inl rfl) h1, h2, h3, h.1, h.2⟩

/-- **C06, partial** for `focus_left`. -/
theorem C06_focus_left_unfocus_partial [RazMeta E M] {t : RazTree E M} (h : t.Reachable .edit) :
    ∃ z, t.focusLeft = .ok z ∧ z.unfocus = .ok t := by
  have ht := Reach.t h
  obtain ⟨z, h1, -, h3, h4⟩ := focusLeft_ok ht.inv.wf
  refine ⟨z, h1, unfocus_back h (.focusLeft h h1) (by rw [h3, h4]; rfl) (fun hne => .inr ?_)⟩
  rw [h4]
  have hi : t.items ≠ [] := fun hn => hne ((ht.tidy rfl).2 hn)
  have hT := (ht.tidy rfl).1
  cases hl : t.items with
  | nil => exact absurd hl hi
  | cons i l =>
    rcases isMark_or_elem i with hm | ⟨e, rfl⟩
    · have := hT.2
      rw [hl, List.reverse_cons] at this
      have := this.of_append
      rw [tidy_cons_mark hm] at this
      obtain ⟨⟨e, r, h⟩, -⟩ := this
      simp at h
    · exact ⟨e, l, rfl⟩

example : ∃ z, (exTree Unit).focusLeft = .ok z ∧ z.unfocus = .ok (exTree Unit) := C06_focus_left_unfocus_partial (exTree_reach Unit .edit)

example : ∃ z, (exTree Count).focus (4 : Nat) = .ok (some z) ∧ z.unfocus = .ok (exTree Count) := by
  obtain ⟨z, h, -⟩ := C03_focus_index (exTree_reach Count .any) (i := 4) (by decide) (by decide)
  exact ⟨z, h, C06_focus_unfocus_partial (exTree_reach Count .edit) h⟩

/-! ### C09 -/

theorem nav_name {t : Tree (TreeData E Names)} (h : WF t) (hd : (namesOf t.items).Nodup) {q : Name} {lev : Nat}
    {x y : List (Item E)} (hi : t.items = x ++ .mark lev (some q) :: y) :
    NavTo t (Position.center q : Position Name) x (.mark lev (some q) :: y) := by
  induction h generalizing x y with
  | leaf v =>
    exfalso
    have : Item.mark lev (some q) ∈ v.map Item.elem := by
      have := hi; simp only [items_leaf] at this; rw [this]; simp
    simp at this
  | @branch lv nm l r hlv hl hr ihl ihr =>
    have ml := mem_metaOf_names (.inr hl) lv nm q
    have mr := mem_metaOf_names (.inr hr) lv nm q
    have hnav : (RazMeta.navigate (metaOf lv nm l) (metaOf lv nm r) (Position.center q : Position Name) : P (Navigation (RazMeta.Index E Names))) =
      .ok (Names.navigate (metaOf lv nm l) (metaOf lv nm r) (.center q)) := rfl
    simp only [items_branch] at hi hd
    rw [namesOf_append] at hd
    rw [List.append_eq_append_iff] at hi
    rcases hi with ⟨w, h1, h2⟩ | ⟨w, h1, h2⟩
    · -- x = l.items ++ w
      cases w with
      | nil =>
        simp at h2
        obtain ⟨⟨rfl, rfl⟩, rfl⟩ := h2
        simp at h1
        subst h1
        refine .here (hnav.trans ?_) (fun v => by simp [RazMeta.splitVec, RazMeta.last, splitAt])
        have ml : q ∈ (metaOf lv (some q) l : Names).names := ml.2 (.inl rfl)
        have mr : q ∈ (metaOf lv (some q) r : Names).names := mr.2 (.inl rfl)
        simp [Names.navigate, ml, mr]
      | cons m w =>
        simp at h2
        obtain ⟨rfl, h2⟩ := h2
        have hqr : q ∈ namesOf r.items := by rw [h2, namesOf_append, namesOf_some]; simp
        have hql : q ∉ namesOf l.items ∧ nm ≠ some q := by
          constructor
          · intro hq
            have := (List.nodup_append.1 hd).2.2 q hq q
            cases nm <;> simp [namesOf_none, namesOf_some, hqr] at this
          · rintro rfl
            rw [namesOf_some] at hd
            have := (List.nodup_append.1 hd).2.1
            simp [hqr] at this
        have hd' : (namesOf r.items).Nodup := by
          have := (List.nodup_append.1 hd).2.1
          cases nm with
          | none => exact this
          | some n => rw [namesOf_some] at this; exact (List.nodup_cons.1 this).2
        have n1 := ihr hd' h2
        have ml' : q ∉ (metaOf lv nm l : Names).names := by rw [ml]; simp [hql]
        have mr' : q ∈ (metaOf lv nm r : Names).names := mr.2 (.inr hqr)
        rw [h1]
        refine .right (hnav.trans ?_) n1
        simp [Names.navigate, ml', mr']
    · -- l.items = x ++ w
      cases w with
      | nil =>
        simp at h2
        obtain ⟨⟨rfl, rfl⟩, rfl⟩ := h2
        simp at h1
        subst h1
        refine .here (hnav.trans ?_) (fun v => by simp [RazMeta.splitVec, RazMeta.last, splitAt])
        have ml : q ∈ (metaOf lev (some q) l : Names).names := ml.2 (.inl rfl)
        have mr : q ∈ (metaOf lev (some q) r : Names).names := mr.2 (.inl rfl)
        simp [Names.navigate, ml, mr]
      | cons m w =>
        simp at h2
        obtain ⟨rfl, rfl⟩ := h2
        have hql : q ∈ namesOf l.items := by rw [h1, namesOf_append, namesOf_some]; simp
        have hqr : q ∉ namesOf r.items ∧ nm ≠ some q := by
          constructor
          · intro hq
            have := (List.nodup_append.1 hd).2.2 q hql q
            cases nm <;> simp [namesOf_none, namesOf_some, hq] at this
          · rintro rfl
            have := (List.nodup_append.1 hd).2.2 q hql q
            simp [namesOf_some] at this
        have n1 := ihl (List.nodup_append.1 hd).1 h1
        have mr' : q ∉ (metaOf lv nm r : Names).names := by rw [mr]; simp [hqr]
        have ml' : q ∈ (metaOf lv nm l : Names).names := ml.2 (.inr hql)
        have := NavTo.left (lv := lv) (nm := nm) (r := r) (j := (Position.center q : Position Name)) (hnav.trans (by simp [Names.navigate, ml', mr'])) n1
        exact this

/-- **C09.** With pairwise distinct names, focusing on the name of an archive point places the cursor exactly
at it: what is before it is on the left, it and what is after it is on the right. -/
theorem C09_focus_name {t : RazTree E Names} (h : t.Reachable .any) (hd : (namesOf t.items).Nodup) {q : Name} {lev : Nat}
    {x y : List (Item E)} (hi : t.items = x ++ .mark lev (some q) :: y) :
    ∃ z, t.focus (Position.center q : Position Name) = .ok (some z) ∧ z.left = x.reverse ∧
      z.right = .mark lev (some q) :: y :=
  focus_of_nav h (fun hn => by rw [hn] at hi; simp at hi) (fun hw => nav_name hw hd hi)

/-- **C09 (partial), absent name.** In a sequence with at least one archive point, focusing on a name that
does not occur returns `None`. Missing: sequences without archive points (`C09_counterexample_leaf`). -/
theorem C09_focus_absent_partial {t : RazTree E Names} (h : t.Reachable .any) (hb : marksOf t.items ≠ []) {q : Name}
    (hq : q ∉ namesOf t.items) : t.focus (Position.center q : Position Name) = .ok none := by
  have ht := (Reach.t h).inv.wf
  obtain ⟨info, tree⟩ := t
  rcases ht with hn | ht
  · simp only at hn
    subst hn
    exact absurd rfl hb
  · cases ht with
    | leaf v => exact absurd (by simp [RazTree.items, marksOf, List.filterMap_map]) hb
    | @branch lv nm l r hlv hl hr =>
      apply focus_nowhere
      have ml := mem_metaOf_names (.inr hl) lv nm q
      have mr := mem_metaOf_names (.inr hr) lv nm q
      simp only [RazTree.items, items_branch, namesOf_append, List.mem_append, not_or] at hq
      have hnm : nm ≠ some q := by rintro rfl; simp [namesOf_some] at hq
      have hr' : q ∉ namesOf r.items := by
        cases nm with
        | none => exact hq.2
        | some n => have := hq.2; rw [namesOf_some] at this; exact fun h => this (List.mem_cons_of_mem _ h)
      have ml' : q ∉ (metaOf lv nm l : Names).names := by rw [ml]; simp [hnm, hq.1]
      have mr' : q ∉ (metaOf lv nm r : Names).names := by rw [mr]; simp [hnm, hr']
      show Except.ok (Names.navigate (metaOf lv nm l) (metaOf lv nm r) (.center q)) = _
      simp [Names.navigate, ml', mr']

/-- **C09 is false** for a sequence without archive points: focusing on any name panics
(src/raz_meta.rs:200) instead of returning `None`. -/
theorem C09_counterexample_leaf : ∃ t : RazTree Nat Names, t.Reachable .edit ∧ namesOf t.items = [] ∧
    t.focus (Position.center (.str "x") : Position Name) = .error .explicit := by
  obtain ⟨t, h1, -⟩ := fromVec_ok (M := Names) (v := [1]) (by simp)
  have : t = ⟨metaOf 0 none (leaf [1] none), leaf [1] none⟩ := by
    unfold RazTree.fromVec at h1
    rw [if_neg (by simp), mkRazTree_wf (t := leaf [1] none) (.inr (WF.leaf _))] at h1
    simp [bind, Except.bind, pure, Except.pure] at h1
    exact h1.symm
  refine ⟨t, .fromVec h1, ?_, ?_⟩
  · rw [this]; rfl
  · rw [this]
    simp only [RazTree.focus, leaf]
    unfold RazTree.focusLoop
    simp [Cursor.ofTree, Cursor.peek, Tree.peek?, unwrap, bind, Except.bind, Cursor.split, RazMeta.splitVec]

/-- Distinct names are needed: with the same name left and right of the root, `focus` stops at the root. -/
theorem C09_duplicate_names : ∃ (s : AStack Nat Nat) (t : RazTree Nat Names) (z : Raz Nat Names),
    s.Built (fun n => 1 ≤ n ∧ n < u32Max) ∧ memoFromTail s = .ok t ∧ t.Reachable .edit ∧
    t.items = [.elem 1, .mark 1 (some (.str "a")), .elem 2, .mark 3 none, .elem 3, .mark 1 (some (.str "a")), .elem 4] ∧
    t.focus (Position.center (.str "a") : Position Name) = .ok (some z) ∧ z.leftElems = [2, 1] := by
  let s1 : AStack Nat Nat := ((AStack.new.push 1).archive (some (.str "a")) 1).1
  let s2 : AStack Nat Nat := ((s1.push 2).archive none 3).1
  let s3 : AStack Nat Nat := ((s2.push 3).archive (some (.str "a")) 1).1
  have hb : (s3.push 4).Built (fun n => 1 ≤ n ∧ n < u32Max) :=
    .push _ (.archive _ _ (by decide) (.push _ (.archive _ _ (by decide) (.push _ (.archive _ _ (by decide) (.push _ .new))))))
  obtain ⟨t, h1, h2, h3, h4⟩ := memoFromTail_ok (M := Names) hb.inv
  have hr : (⟨metaOf 0 none t, t⟩ : RazTree Nat Names).Reachable .edit := .memoTail hb (.inr (.inl (by decide))) h1
  let n1 : Option Name := some (.str "a")
  let l1 : Tree (TreeData Nat Names) := .node 1 n1 (.branch (metaOf 1 n1 (leaf [1] none)) (metaOf 1 n1 (leaf [2] none))) (leaf [1] none) (leaf [2] none)
  let l2 : Tree (TreeData Nat Names) := .node 1 n1 (.branch (metaOf 1 n1 (leaf [3] none)) (metaOf 1 n1 (leaf [4] none))) (leaf [3] none) (leaf [4] none)
  let l3 : Tree (TreeData Nat Names) := .node 3 none (.branch (metaOf 3 none l1) (metaOf 3 none l2)) l1 l2
  have he : memoFromTail (s3.push 4) = .ok (⟨metaOf 0 none l3, l3⟩ : RazTree Nat Names) := rfl
  have ht : t = l3 := by
    rw [he] at h1
    simp at h1
    exact h1.2.symm
  have hw : WF t := by
    rw [ht]
    exact .branch (by decide) (.branch (by decide) (.leaf _) (.leaf _)) (.branch (by decide) (.leaf _) (.leaf _))
  have hn : NavTo t (Position.center (.str "a") : Position Name) l1.items (.mark 3 none :: l2.items) := by
    rw [ht]
    refine .here rfl (fun v => by simp [RazMeta.splitVec, RazMeta.last, splitAt])
  obtain ⟨z, f1, f2, f3⟩ := focus_nav (t := ⟨metaOf 0 none t, t⟩) hw hn
  refine ⟨_, _, z, hb, h1, hr, h4, f1, ?_⟩
  rw [Raz.leftElems, f2]; rfl

example : ∃ z, (exTree Names).focus (Position.center (.str "a") : Position Name) = .ok (some z) ∧
    z.leftElems = [2, 1] ∧ z.rightElems = [3, 4, 5, 6] := by
  obtain ⟨z, h1, h2, h3⟩ := C09_focus_name (exTree_reach Names .any) (by decide) (q := .str "a") (lev := 2)
    (x := [.elem 1, .elem 2]) (y := [.elem 3, .mark 1 none, .elem 4, .elem 5, .mark 4 (some (.str "b")), .elem 6]) rfl
  exact ⟨z, h1, by rw [Raz.leftElems, h2]; rfl, by rw [Raz.rightElems, h3]; rfl⟩
example : (exTree Names).focus (Position.center (.str "zz") : Position Name) = .ok none :=
  C09_focus_absent_partial (exTree_reach Names .any) (by decide) (by decide)

end Iodyn
