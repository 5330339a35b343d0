import Verif.Proof.MeanPath
/-
Edits of lists, and trees edited the same way. Levels do not matter for what the edits do.
-/
namespace Iodyn
variable {E M : Type}

/-! ### Cuts -/

theorem cutAt_left : ∀ (a c : List (Item E)) (i : Nat), i ≤ (elemsOf a).length → cutAt i (a ++ c) = ((cutAt i a).1, (cutAt i a).2 ++ c)
  | a, c, 0, _ => by simp [cutAt]
  | [], c, i+1, h => by simp at h
  | .elem e :: a, c, i+1, h => by
    simp only [elemsOf_elem, List.length_cons] at h
    simp only [List.cons_append, cutAt, cutAt_left a c i (by omega)]
  | .mark _ _ :: a, c, i+1, h => by
    simp only [elemsOf_mark] at h
    simp only [List.cons_append, cutAt, cutAt_left a c (i + 1) h]
  | .pend _ _ :: a, c, i+1, h => by
    simp only [elemsOf_pend] at h
    simp only [List.cons_append, cutAt, cutAt_left a c (i + 1) h]

theorem cutAt_right : ∀ (a c : List (Item E)) (i : Nat), (elemsOf a).length < i →
    cutAt i (a ++ c) = ((cutAt (i - (elemsOf a).length) c).1 ++ a.reverse, (cutAt (i - (elemsOf a).length) c).2)
  | [], c, i, _ => by simp
  | .elem e :: a, c, 0, h => by simp at h
  | .elem e :: a, c, i+1, h => by
    simp only [elemsOf_elem, List.length_cons] at h
    simp only [List.cons_append, cutAt, cutAt_right a c i (by omega), elemsOf_elem, List.length_cons, Nat.add_sub_add_right]
    simp
  | .mark _ _ :: a, c, 0, h => by simp at h
  | .mark _ _ :: a, c, i+1, h => by
    simp only [elemsOf_mark] at h
    simp only [List.cons_append, cutAt, cutAt_right a c (i + 1) h, elemsOf_mark]
    simp
  | .pend _ _ :: a, c, 0, h => by simp at h
  | .pend _ _ :: a, c, i+1, h => by
    simp only [elemsOf_pend] at h
    simp only [List.cons_append, cutAt, cutAt_right a c (i + 1) h, elemsOf_pend]
    simp

theorem cutAt_all (a : List (Item E)) (h : StartsElem a.reverse) : cutAt (elemsOf a).length a = (a.reverse, []) := by
  obtain ⟨e, r, h⟩ := h
  have h' : a = r.reverse ++ [.elem e] := by rw [← List.reverse_reverse a, h]; simp
  subst h'
  rw [cutAt_right _ _ _ (by simp)]
  simp [cutAt]

theorem cutAt_elems : ∀ (v : List E) (i : Nat), i ≤ v.length → cutAt i (v.map Item.elem) = ((v.take i).reverse.map Item.elem, (v.drop i).map Item.elem)
  | v, 0, _ => by simp [cutAt]
  | [], i+1, h => by simp at h
  | x :: v, i+1, h => by
    simp only [List.length_cons] at h
    simp only [List.map_cons, cutAt, cutAt_elems v i (by omega)]
    simp

theorem cutAt_append : ∀ (l : List (Item E)) (i : Nat), i ≤ (elemsOf l).length → (cutAt i l).1.reverse ++ (cutAt i l).2 = l
  | l, 0, _ => by simp [cutAt]
  | [], i+1, h => by simp at h
  | .elem e :: l, i+1, h => by
    simp only [elemsOf_elem, List.length_cons] at h
    have := cutAt_append l i (by omega)
    simp [cutAt, this]
  | .mark _ _ :: l, i+1, h => by
    have := cutAt_append l (i + 1) h
    simp [cutAt, this]
  | .pend _ _ :: l, i+1, h => by
    have := cutAt_append l (i + 1) h
    simp [cutAt, this]

theorem tidy_prefix : ∀ (a b : List (Item E)), Tidy (a ++ b) → StartsElem a.reverse → Tidy a
  | [], _, _, _ => trivial
  | i :: a, b, h, hs => by
    rcases isMark_or_elem i with hi | ⟨e, rfl⟩
    · rw [List.cons_append, tidy_cons_mark hi] at h
      obtain ⟨⟨e, r, h1⟩, h2⟩ := h
      cases a with
      | nil =>
        obtain ⟨e', r', h3⟩ := hs
        simp only [List.reverse_cons, List.reverse_nil, List.nil_append, List.cons.injEq] at h3
        rw [h3.1] at hi
        cases hi
      | cons x a =>
        simp only [List.cons_append, List.cons.injEq] at h1
        have hs' : StartsElem (x :: a).reverse := by
          obtain ⟨e', r', h3⟩ := hs
          rw [List.reverse_cons] at h3
          cases hr : (x :: a).reverse with
          | nil => simp at hr
          | cons y ys =>
            rw [hr, List.cons_append, List.cons.injEq] at h3
            exact ⟨e', ys, by rw [h3.1]⟩
        rw [tidy_cons_mark hi]
        exact ⟨⟨e, a, by rw [h1.1]⟩, tidy_prefix (x :: a) b h2 hs'⟩
    · rw [tidy_cons_elem]
      cases a with
      | nil => trivial
      | cons x a =>
        refine tidy_prefix (x :: a) b h.tail ?_
        obtain ⟨e', r', h3⟩ := hs
        rw [List.reverse_cons] at h3
        cases hr : (x :: a).reverse with
        | nil => simp at hr
        | cons y ys =>
          rw [hr, List.cons_append, List.cons.injEq] at h3
          exact ⟨e', ys, by rw [h3.1]⟩

/-- Both parts of a tidy sequence around an archive point. -/
theorem TidySeq.around {a b : List (Item E)} {i : Item E} (hi : i.isMark = true) (h : TidySeq (a ++ i :: b)) :
    TidySeq a ∧ TidySeq b ∧ StartsElem a.reverse ∧ StartsElem b := by
  have h1 : Tidy (i :: b) := h.1.of_append
  rw [tidy_cons_mark hi] at h1
  have h2 : Tidy (i :: a.reverse) := by
    have h3 := h.2
    rw [List.reverse_append, List.reverse_cons, List.append_assoc] at h3
    exact h3.of_append
  rw [tidy_cons_mark hi] at h2
  refine ⟨⟨tidy_prefix a _ h.1 h2.1, h2.2⟩, ⟨h1.2, tidy_prefix _ (i :: a.reverse) ?_ (by simpa using h1.1)⟩, h2.1, h1.1⟩
  have h3 := h.2
  rwa [List.reverse_append, List.reverse_cons, List.append_assoc] at h3

theorem nav_cut {t : Tree (TreeData E Count)} (h : WF t) (ht : TidySeq t.items) {i : Nat} (hi : i ≤ (elemsOf t.items).length) (hm : i < usizeMax) :
    NavTo t i (cutAt i t.items).1.reverse (cutAt i t.items).2 := by
  induction h generalizing i with
  | leaf v =>
    have hlen : (elemsOf (v.map Item.elem)).length = v.length := by simp
    simp only [items_leaf, hlen] at hi
    simp only [items_leaf, cutAt_elems v i hi]
    rw [← List.map_reverse, List.reverse_reverse]
    refine .leaf (a := v.take i) (b := v.drop i) ?_ (by simp)
    simp only [RazMeta.splitVec, splitAt]
    rw [if_neg (by omega), if_pos hi]
  | @branch lv nm l r hlv hl hr ihl ihr =>
    have cl := metaOf_count (.inr hl) lv nm
    have cr := metaOf_count (.inr hr) lv nm
    rw [items_branch] at hi ht ⊢
    obtain ⟨t1, t2, t3, t4⟩ := ht.around (i := .mark lv nm) rfl
    simp only [elemsOf_append, List.length_append] at hi
    rw [elemsOf_cons_mark rfl] at hi
    have hnav : (RazMeta.navigate (metaOf lv nm l) (metaOf lv nm r) i : P (Navigation (RazMeta.Index E Count))) =
      .ok (Count.navigate (metaOf lv nm l) (metaOf lv nm r) i) := rfl
    simp only [Count.navigate, cl, cr] at hnav
    rw [if_neg (by omega), if_neg (by omega)] at hnav
    by_cases h1 : i > (elemsOf l.items).length
    · rw [if_pos h1] at hnav
      have := ihr t2 (i := i - (elemsOf l.items).length) (by omega) (by omega)
      rw [cutAt_right _ _ _ h1]
      obtain ⟨k, hk⟩ : ∃ k, i - (elemsOf l.items).length = k + 1 := ⟨i - (elemsOf l.items).length - 1, by omega⟩
      rw [hk] at this hnav ⊢
      have h2 := NavTo.right (lv := lv) (nm := nm) (l := l) hnav this
      simpa [cutAt] using h2
    · rw [if_neg h1] at hnav
      rw [cutAt_left _ _ _ (by omega)]
      by_cases h2 : i = (elemsOf l.items).length
      · rw [if_pos h2] at hnav
        subst h2
        rw [cutAt_all _ t3]
        simp only [List.reverse_reverse, List.nil_append]
        refine .here hnav ?_
        intro v
        simp [RazMeta.splitVec, RazMeta.last, splitAt]
      · rw [if_neg h2] at hnav
        exact .left hnav (ihl t1 (i := i) (by omega) hm)

/-- `focus` cuts the list of items. -/
theorem focus_cut {t : RazTree E Count} (h : WF t.tree) (ht : TidySeq t.items) {i : Nat} (hi : i ≤ t.elems.length) (hm : i < usizeMax) :
    ∃ z, t.focus i = .ok (some z) ∧ z.left = (cutAt i t.items).1 ∧ z.right = (cutAt i t.items).2 := by
  obtain ⟨z, h1, h2, h3⟩ := focus_nav h (nav_cut h ht hi hm)
  exact ⟨z, h1, by rw [h2, List.reverse_reverse]; rfl, h3⟩

/-! ### Other levels -/

section
variable (f : Nat → Nat)

theorem at_elems (l : List (Item E)) : elemsOf (l.map (Item.at f)) = elemsOf l := by
  induction l with
  | nil => rfl
  | cons i l ih => cases i <;> simp [Item.at, ih]

theorem at_levels (l : List (Item E)) : levelsOf (l.map (Item.at f)) = (levelsOf l).map f := by
  induction l with
  | nil => rfl
  | cons i l ih => cases i <;> simp_all [levelsOf, marksOf, Item.at]

theorem at_isMark (i : Item E) : (i.at f).isMark = i.isMark := by cases i <;> rfl
theorem at_settle (i : Item E) : (i.at f).settle = i.settle.at f := by cases i <;> rfl

theorem at_cut : ∀ (l : List (Item E)) (i : Nat), cutAt i (l.map (Item.at f)) = ((cutAt i l).1.map (Item.at f), (cutAt i l).2.map (Item.at f))
  | l, 0 => by simp [cutAt]
  | [], i+1 => rfl
  | .elem e :: l, i+1 => by simp [cutAt, Item.at, at_cut l i]
  | .mark _ _ :: l, i+1 => by simp [cutAt, Item.at, at_cut l (i + 1)]
  | .pend _ _ :: l, i+1 => by simp [cutAt, Item.at, at_cut l (i + 1)]

theorem at_hand (l : List (Item E)) : atHand (l.map (Item.at f)) = atHand l := by
  cases l with
  | nil => rfl
  | cons i l => cases i <;> rfl

theorem at_pop (l : List (Item E)) : (popSide (l.map (Item.at f))).2 = (popSide l).2.map (Item.at f) := by
  cases l with
  | nil => rfl
  | cons i l =>
    cases i <;> (try rfl)
    all_goals
      cases l with
      | nil => rfl
      | cons j l => cases j <;> rfl

theorem at_archive (k : Nat) (nm) (l : List (Item E)) : archiveSide (f k) nm (l.map (Item.at f)) = (archiveSide k nm l).map (Item.at f) := by
  cases l with
  | nil => rfl
  | cons i l => cases i <;> rfl

theorem at_glue (l r : List (Item E)) : glue (l.map (Item.at f)) (r.map (Item.at f)) = (glue l r).map (Item.at f) := by
  cases l with
  | nil =>
    cases r with
    | nil => rfl
    | cons j r => cases j <;> simp [glue, Item.at, Item.isMark]
  | cons i l =>
    cases r with
    | nil => cases i <;> simp [glue, Item.at, Item.isMark]
    | cons j r => cases i <;> cases j <;> simp [glue, Item.at, Item.isMark]

/-- Both sides with other levels. -/
def sidesAt (s : List (Item E) × List (Item E)) : List (Item E) × List (Item E) := (s.1.map (Item.at f), s.2.map (Item.at f))

theorem at_onSide (op : LOp E) (s : List (Item E) × List (Item E)) : (op.at f).onSides (sidesAt f s) = sidesAt f (op.onSides s) := by
  cases op <;> simp [LOp.at, LOp.onSides, sidesAt, at_archive, at_pop, Item.at]

theorem at_onSides : ∀ (ops : List (LOp E)) (s : List (Item E) × List (Item E)), onSides (sidesAt f s) (ops.map (LOp.at f)) = sidesAt f (onSides s ops)
  | [], s => rfl
  | op :: l, s => by simp only [List.map_cons, onSides, at_onSide]; exact at_onSides l _

theorem at_closed (s : List (Item E) × List (Item E)) : closed (sidesAt f s) = (closed s).map (Item.at f) := by
  simp only [closed, sidesAt, at_glue, List.map_map]
  exact List.map_congr_left fun i _ => at_settle f i

theorem at_edit (i : Nat) (ops : List (LOp E)) (l : List (Item E)) : editList i (ops.map (LOp.at f)) (l.map (Item.at f)) = (editList i ops l).map (Item.at f) := by
  unfold editList
  rw [at_cut, ← at_closed, ← at_onSides]
  rfl

theorem at_stays (op : LOp E) (s : List (Item E) × List (Item E)) : (op.at f).staysAt (sidesAt f s) = op.staysAt s := by
  cases op <;> simp [LOp.at, LOp.staysAt, sidesAt, at_hand]

theorem at_local : ∀ (ops : List (LOp E)) (s : List (Item E) × List (Item E)), localSides (sidesAt f s) (ops.map (LOp.at f)) = localSides s ops
  | [], s => by simp [localSides, sidesAt, at_hand]
  | op :: l, s => by simp only [List.map_cons, localSides, at_stays, at_onSide, at_local l]

theorem at_name (op : LOp E) : (op.at f).name? = op.name? := by cases op <;> rfl

theorem at_cells : ∀ ops : List (LOp E), LOp.cells (ops.map (LOp.at f)) = LOp.cells ops
  | [] => rfl
  | op :: l => by simp only [List.map_cons, LOp.cells, at_name, at_cells l]

theorem at_points : ∀ ops : List (LOp E), LOp.points (ops.map (LOp.at f)) = LOp.points ops
  | [] => rfl
  | op :: l => by simp only [List.map_cons, LOp.points, at_name, at_points l]

theorem at_titles {ops : List (LOp E)} (h : ∀ op ∈ ops, op.Titles) : ∀ op ∈ ops.map (LOp.at f), op.Titles := by
  intro op ho
  obtain ⟨o, h1, rfl⟩ := List.mem_map.1 ho
  have := h o h1
  cases o <;> exact this

theorem at_lifts (hf : ∀ k, 1 ≤ f k) (ops : List (LOp E)) : ∀ op ∈ ops.map (LOp.at f), op.Lifts := by
  intro op ho
  obtain ⟨o, h1, rfl⟩ := List.mem_map.1 ho
  cases o <;> first | exact hf _ | trivial

end

/-! ### Trees are edited like lists -/

theorem hand_near {l : List (Item E)} (h : atHand l = true) : Near l := by
  cases l with
  | nil => cases h
  | cons i l =>
    refine ⟨i, l, rfl, ?_⟩
    rintro lev nm rfl
    cases h

variable [RazMeta E M]

/-- What the calls do to the sides of a zipper. -/
theorem lop_sides {z : Raz E M} (h : ZInv z) {op : LOp E} (hl : op.Lifts) :
    ∃ z', z.lop op = .ok z' ∧ ZInv z' ∧ (z'.left, z'.right) = op.onSides (z.left, z.right) := by
  cases op with
  | pushL x => obtain ⟨a, b, c⟩ := pushLeft_ok h x; exact ⟨_, rfl, a, by simp [LOp.onSides, b, c]⟩
  | pushR x => obtain ⟨a, b, c⟩ := pushRight_ok h x; exact ⟨_, rfl, a, by simp [LOp.onSides, b, c]⟩
  | archL lev nm => obtain ⟨a, b, c⟩ := archiveLeft_ok h hl nm; exact ⟨_, rfl, a, by simp [LOp.onSides, b, c]⟩
  | archR lev nm => obtain ⟨a, b, c⟩ := archiveRight_ok h hl nm; exact ⟨_, rfl, a, by simp [LOp.onSides, b, c]⟩
  | popL => obtain ⟨z', a, b, c, d⟩ := popLeft_ok h; exact ⟨z', by simp [Raz.lop, a, bind, Except.bind, pure, Except.pure], b, by simp [LOp.onSides, c, d]⟩
  | popR => obtain ⟨z', a, b, c, d⟩ := popRight_ok h; exact ⟨z', by simp [Raz.lop, a, bind, Except.bind, pure, Except.pure], b, by simp [LOp.onSides, c, d]⟩

theorem lops_sides : ∀ {ops : List (LOp E)} {z : Raz E M}, ZInv z → (∀ op ∈ ops, op.Lifts) →
    ∃ z', z.lops ops = .ok z' ∧ ZInv z' ∧ (z'.left, z'.right) = onSides (z.left, z.right) ops
  | [], z, h, _ => ⟨z, rfl, h, rfl⟩
  | op :: l, z, h, hl => by
    obtain ⟨z1, a, b, c⟩ := lop_sides h (hl op List.mem_cons_self)
    obtain ⟨z2, a', b', c'⟩ := lops_sides b (fun o ho => hl o (List.mem_cons_of_mem _ ho))
    exact ⟨z2, bind_ok.2 ⟨z1, a, a'⟩, b', by rw [c', c]; rfl⟩

theorem local_sides : ∀ {ops : List (LOp E)} {z : Raz E M}, ZInv z → (∀ op ∈ ops, op.Lifts) → localSides (z.left, z.right) ops = true → z.Local ops
  | [], z, h, _, hs => by
    simp only [localSides, Bool.or_eq_true] at hs
    exact hs.imp hand_near hand_near
  | op :: l, z, h, hl, hs => by
    simp only [localSides, Bool.and_eq_true] at hs
    obtain ⟨z1, a, b, c⟩ := lop_sides h (hl op List.mem_cons_self)
    refine ⟨?_, fun z' hz => ?_⟩
    · have h1 := hs.1
      have h2 := hl op List.mem_cons_self
      cases op <;> first | exact hand_near h1 | exact h2
    · rw [a] at hz
      cases hz
      exact local_sides b (fun o ho => hl o (List.mem_cons_of_mem _ ho)) (by rw [c]; exact hs.2)

theorem unfocus_closed {z : Raz E M} (h : ZInv z) : ∃ t, z.unfocus = .ok t ∧ TInv t ∧ t.items = closed (z.left, z.right) := unfocus_inv h

end Iodyn
