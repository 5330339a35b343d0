import Verif.Proof.Canon
/-
No empty subsequences: `Tidy` is kept by all zipper operations.
-/
namespace Iodyn
variable {E M : Type}

/-- The list starts with an element. -/
def StartsElem (l : List (Item E)) : Prop := ∃ e r, l = .elem e :: r

/-- A sequence without empty subsequences (read from either end). -/
def TidySeq (l : List (Item E)) : Prop := Tidy l ∧ Tidy l.reverse

theorem tidy_cons_mark {i : Item E} (h : i.isMark = true) (r : List (Item E)) :
    Tidy (i :: r) ↔ StartsElem r ∧ Tidy r := by
  cases i <;> simp [Item.isMark] at h <;> rfl
theorem tidy_cons_elem (e : E) (r : List (Item E)) : Tidy (.elem e :: r) ↔ Tidy r := Iff.rfl

theorem Tidy.tail {i : Item E} {r : List (Item E)} (h : Tidy (i :: r)) : Tidy r := by
  cases i <;> first | exact h | exact h.2

theorem Tidy.of_append {a b : List (Item E)} (h : Tidy (a ++ b)) : Tidy b := by
  induction a with
  | nil => exact h
  | cons i a ih => exact ih h.tail

theorem tidy_elems (v : List E) (r : List (Item E)) : Tidy (v.map Item.elem ++ r) ↔ Tidy r := by
  induction v with
  | nil => rfl
  | cons e v ih => exact ih

theorem isMark_or_elem (i : Item E) : i.isMark = true ∨ ∃ e, i = .elem e := by
  cases i <;> simp [Item.isMark]

/-- Joining two sides. -/
theorem tidy_rev_append {l r : List (Item E)} (hl : Tidy l) (hr : Tidy r)
    (hj : ∀ m l', l = m :: l' → m.isMark = true → StartsElem r) : Tidy (l.reverse ++ r) := by
  induction l generalizing r with
  | nil => exact hr
  | cons x l ih =>
    simp only [List.reverse_cons, List.append_assoc, List.singleton_append]
    rcases isMark_or_elem x with hx | ⟨e, rfl⟩
    · have hs := hj x l rfl hx
      apply ih hl.tail
      · exact (tidy_cons_mark hx r).2 ⟨hs, hr⟩
      · intro m l' he hm
        obtain ⟨e, r', h1⟩ := ((tidy_cons_mark hx l).1 hl).1
        rw [he] at h1
        simp at h1
        rw [h1.1] at hm
        simp [Item.isMark] at hm
    · apply ih hl.tail
      · exact hr
      · intro m l' _ _
        exact ⟨e, r, rfl⟩

theorem settle_isMark (i : Item E) : i.settle.isMark = i.isMark := by cases i <;> rfl
theorem tidy_settle (l : List (Item E)) : Tidy (l.map Item.settle) ↔ Tidy l := by
  induction l with
  | nil => rfl
  | cons i l ih =>
    rcases isMark_or_elem i with hi | ⟨e, rfl⟩
    · rw [List.map_cons, tidy_cons_mark (by rw [settle_isMark]; exact hi), tidy_cons_mark hi, ih]
      refine and_congr ⟨?_, ?_⟩ Iff.rfl
      · rintro ⟨e, r, h⟩
        cases l with
        | nil => simp at h
        | cons j l =>
          simp at h
          cases j <;> simp [Item.settle] at h
          exact ⟨_, _, rfl⟩
      · rintro ⟨e, r, rfl⟩
        exact ⟨e, r.map Item.settle, rfl⟩
    · exact ih

/-- Both sides without empty subsequences: so is the glued sequence. -/
theorem glue_tidy {l r : List (Item E)} (hl : Tidy l) (hr : Tidy r) : TidySeq (glue l r) := by
  have key : ∀ {a b : List (Item E)}, Tidy a → Tidy b →
      (∀ m a', a = m :: a' → m.isMark = true → StartsElem b) →
      (∀ m b', b = m :: b' → m.isMark = true → StartsElem a) → TidySeq (a.reverse ++ b) := by
    intro a b ha hb h1 h2
    refine ⟨tidy_rev_append ha hb h1, ?_⟩
    have := tidy_rev_append hb ha h2
    simpa using this
  have nm : ∀ {m : Item E} {a : List (Item E)}, StartsElem a → ∀ m a', a = m :: a' → m.isMark = true → False := by
    rintro _ _ ⟨e, r, rfl⟩ m a' h hm
    simp at h
    rw [← h.1] at hm
    simp [Item.isMark] at hm
  match l, r with
  | [], [] => exact ⟨trivial, trivial⟩
  | [], r :: rs =>
    rcases isMark_or_elem r with hm | ⟨e, rfl⟩
    · have h1 := (tidy_cons_mark hm rs).1 hr
      simp only [glue, hm, if_true]
      exact key (a := []) trivial h1.2 (by simp) (fun m b' h hm => (nm (m := m) h1.1 m b' h hm).elim)
    · rw [glue_right_elem]
      exact key (a := []) trivial hr (by simp) (by intro m b' h hm; simp at h; rw [← h.1] at hm; simp [Item.isMark] at hm)
  | x :: ls, [] =>
    rcases isMark_or_elem x with hm | ⟨e, rfl⟩
    · have h1 := (tidy_cons_mark hm ls).1 hl
      simp only [glue, hm, if_true]
      have := key (b := []) h1.2 trivial (fun m b' h hm => (nm (m := m) h1.1 m b' h hm).elim) (by simp)
      simpa using this
    · rw [glue_left_elem]
      exact key hl hr (by intro m b' h hm; simp at h; rw [← h.1] at hm; simp [Item.isMark] at hm) (by simp)
  | x :: ls, y :: rs =>
    rcases isMark_or_elem x with hx | ⟨e, rfl⟩
    · rcases isMark_or_elem y with hy | ⟨e, rfl⟩
      · have h1 := (tidy_cons_mark hx ls).1 hl
        have h2 := (tidy_cons_mark hy rs).1 hr
        have dropL : TidySeq (ls.reverse ++ y :: rs) :=
          key h1.2 hr (fun m b' h hm => (nm (m := m) h1.1 m b' h hm).elim) (fun _ _ _ _ => h1.1)
        have dropR : TidySeq ((x :: ls).reverse ++ rs) :=
          key hl h2.2 (fun _ _ _ _ => h2.1) (fun m b' h hm => (nm (m := m) h2.1 m b' h hm).elim)
        simp only [glue, hx, hy, and_self, if_true]
        split
        · exact dropR
        · exact dropL
      · rw [glue_right_elem]
        exact key hl hr (fun _ _ _ _ => ⟨e, rs, rfl⟩) (by intro m b' h hm; simp at h; rw [← h.1] at hm; simp [Item.isMark] at hm)
    · rw [glue_left_elem]
      exact key hl hr (by intro m b' h hm; simp at h; rw [← h.1] at hm; simp [Item.isMark] at hm) (fun _ _ _ _ => ⟨e, ls, rfl⟩)

theorem TidySeq.settle {l : List (Item E)} (h : TidySeq l) : TidySeq (l.map Item.settle) := by
  refine ⟨(tidy_settle l).2 h.1, ?_⟩
  rw [← List.map_reverse]
  exact (tidy_settle _).2 h.2

/-- Splitting a tidy sequence anywhere. -/
theorem TidySeq.split {s l r : List (Item E)} (h : TidySeq s) (hs : l.reverse ++ r = s) : Tidy l ∧ Tidy r := by
  subst hs
  refine ⟨?_, h.1.of_append⟩
  have := h.2
  simp only [List.reverse_append, List.reverse_reverse] at this
  exact this.of_append

theorem popSide_tidy {l : List (Item E)} (h : Tidy l) : Tidy (popSide l).2 := by
  match l with
  | [] => trivial
  | .elem e :: r => exact h
  | .mark a b :: .elem e :: r => exact h.2
  | .pend a b :: .elem e :: r => exact h.2
  | .mark a b :: .mark c d :: r => exact h.2
  | .mark a b :: .pend c d :: r => exact h.2
  | .pend a b :: .mark c d :: r => exact h.2
  | .pend a b :: .pend c d :: r => exact h.2
  | [.mark a b] => trivial
  | [.pend a b] => trivial

/-- On a side without empty subsequences, popping is popping of the plain element list. -/
theorem popSide_elems {l : List (Item E)} (h : Tidy l) :
    (popSide l).1 = (elemsOf l).head? ∧ elemsOf (popSide l).2 = (elemsOf l).tail := by
  match l with
  | [] => exact ⟨rfl, rfl⟩
  | .elem e :: r => exact ⟨rfl, rfl⟩
  | .mark a b :: .elem e :: r => exact ⟨rfl, rfl⟩
  | .pend a b :: .elem e :: r => exact ⟨rfl, rfl⟩
  | .mark a b :: .mark c d :: r => obtain ⟨⟨e, r', h⟩, -⟩ := h; simp at h
  | .mark a b :: .pend c d :: r => obtain ⟨⟨e, r', h⟩, -⟩ := h; simp at h
  | .pend a b :: .mark c d :: r => obtain ⟨⟨e, r', h⟩, -⟩ := h; simp at h
  | .pend a b :: .pend c d :: r => obtain ⟨⟨e, r', h⟩, -⟩ := h; simp at h
  | [.mark a b] => obtain ⟨⟨e, r', h⟩, -⟩ := h; simp at h
  | [.pend a b] => obtain ⟨⟨e, r', h⟩, -⟩ := h; simp at h

theorem archiveSide_tidy {l : List (Item E)} (h : Tidy l) (lev nm) : Tidy (archiveSide lev nm l) := by
  match l with
  | [] => trivial
  | .elem e :: r => exact ⟨⟨e, r, rfl⟩, h⟩
  | .mark a b :: r => exact h
  | .pend a b :: r => exact h

@[simp] theorem elemsOf_nil : elemsOf ([] : List (Item E)) = [] := rfl
@[simp] theorem elemsOf_elem (e : E) (l) : elemsOf (.elem e :: l) = e :: elemsOf l := rfl
@[simp] theorem elemsOf_mark (a b) (l : List (Item E)) : elemsOf (.mark a b :: l) = elemsOf l := rfl
@[simp] theorem elemsOf_pend (a b) (l : List (Item E)) : elemsOf (.pend a b :: l) = elemsOf l := rfl
@[simp] theorem elemsOf_append (a b : List (Item E)) : elemsOf (a ++ b) = elemsOf a ++ elemsOf b := by
  simp [elemsOf]
@[simp] theorem elemsOf_reverse (a : List (Item E)) : elemsOf a.reverse = (elemsOf a).reverse := by
  simp [elemsOf]
@[simp] theorem elemsOf_map_elem (v : List E) : elemsOf (v.map Item.elem) = v := by
  induction v with
  | nil => rfl
  | cons e v ih => simp [ih]
@[simp] theorem elemsOf_settle (l : List (Item E)) : elemsOf (l.map Item.settle) = elemsOf l := by
  induction l with
  | nil => rfl
  | cons i l ih => cases i <;> simp [Item.settle, ih]

theorem elemsOf_cons_mark {i : Item E} (h : i.isMark = true) (l : List (Item E)) : elemsOf (i :: l) = elemsOf l := by
  cases i <;> first | rfl | simp [Item.isMark] at h

theorem archiveSide_elems (lev nm) (l : List (Item E)) : elemsOf (archiveSide lev nm l) = elemsOf l := by
  match l with
  | [] => rfl
  | .elem e :: r => rfl
  | .mark a b :: r => rfl
  | .pend a b :: r => rfl

/-- Gluing never loses elements. -/
theorem glue_elems (l r : List (Item E)) : elemsOf (glue l r) = (elemsOf l).reverse ++ elemsOf r := by
  match l, r with
  | [], [] => rfl
  | [], r :: rs =>
    rcases isMark_or_elem r with hm | ⟨e, rfl⟩
    · simp [glue, hm, elemsOf_cons_mark hm]
    · rw [glue_right_elem]; simp
  | x :: ls, [] =>
    rcases isMark_or_elem x with hm | ⟨e, rfl⟩
    · simp [glue, hm, elemsOf_cons_mark hm]
    · rw [glue_left_elem]; simp
  | x :: ls, y :: rs =>
    rcases isMark_or_elem x with hx | ⟨e, rfl⟩
    · rcases isMark_or_elem y with hy | ⟨e, rfl⟩
      · simp only [glue, hx, hy, and_self, if_true]
        split
        · simp
        · simp [elemsOf_cons_mark hx]
      · rw [glue_right_elem]; simp [elemsOf_cons_mark hx]
    · rw [glue_left_elem]; simp

end Iodyn
