import Verif.Props.Fold
import Verif.Props.Canon
import Verif.Spec.Programs
import Verif.Model.Programs
/-
Reverse and filter over well-formed trees.
-/
namespace Iodyn.Eval
variable {E M N G : Type}

theorem vecTree_ok [RazMeta E N] (v : List E) :
    ∃ t : RazTree E N, vecTree v = .ok t ∧ t.items = v.map .elem ∧ t.Reachable .full ∧ Canon t.tree ∧ t.tree.level?.getD 0 = 0 := by
  by_cases hv : v = []
  · subst hv
    exact ⟨RazTree.empty, rfl, rfl, .empty, trivial, rfl⟩
  · obtain ⟨t, h1, h2, -, -⟩ := (C16_from_vec (M := N) v).2 hv
    refine ⟨t, ?_, h2, .fromVec h1, ?_⟩
    · simp [vecTree, h1, bind, Except.bind, pure, Except.pure]
    · have e : RazTree.fromVec v = .ok (some ⟨metaOf 0 none (leaf v none), leaf v none⟩ : Option (RazTree E N)) := by
        simp [RazTree.fromVec, hv, mkRazTree, leaf, treetopMeta, bind, Except.bind, pure, Except.pure, metaOf]
      rw [e] at h1
      simp only [Except.ok.injEq, Option.some.injEq] at h1
      subst h1
      exact ⟨⟨by simp [Tree.level?], by simp [Tree.level?], trivial, trivial⟩, rfl⟩

/-- Joining two sequences unless one is empty. -/
def merge (a : List (Item E)) (lev : Nat) (nm : Option Name) (b : List (Item E)) : List (Item E) :=
  if a = [] then b else if b = [] then a else a ++ .mark lev nm :: b

theorem items_eq_nil [RazMeta E N] {t : RazTree E N} (h : t.Reachable .full) : t.isEmpty = true ↔ t.items = [] := by
  rw [C16_is_empty_partial h]
  constructor
  · intro he; exact tidy_nil_of_elems ((Reach.t h).tidy rfl).1.1 he
  · intro he; rw [RazTree.elems, he]; rfl

theorem filterBin_ok [RazMeta E N] {t1 t2 : RazTree E N} (h1 : t1.Reachable .full) (h2 : t2.Reachable .full) {lev : Nat}
    (hlev : 1 ≤ lev) (nm : Option Name) :
    ∃ t, Filter.bin t1 lev nm t2 = .ok t ∧ t.items = merge t1.items lev nm t2.items ∧ t.Reachable .full ∧
      (Canon t1.tree → Canon t2.tree → (∀ x ∈ t1.tree.level?, x < lev) → (∀ x ∈ t2.tree.level?, x ≤ lev) →
        Canon t.tree ∧ ∀ x ∈ t.tree.level?, x ≤ lev) := by
  have e1 := items_eq_nil h1
  have e2 := items_eq_nil h2
  unfold merge
  cases b1 : t1.isEmpty <;> cases b2 : t2.isEmpty <;> rw [b1] at e1 <;> rw [b2] at e2
  · rw [if_neg (fun h => by simpa using e1.2 h), if_neg (fun h => by simpa using e2.2 h)]
    obtain ⟨t, g1, g2, -⟩ := C16_join (h1.mono (u' := .any) (fun _ => rfl) (fun _ => rfl))
      (h2.mono (u' := .any) (fun _ => rfl) (fun _ => rfl)) b1 b2 hlev nm
    refine ⟨t, ?_, g2, .join rfl h1 h2 hlev g1, fun c1 c2 l1 l2 => ?_⟩
    · simp only [Filter.bin, b1, b2, g1, bind, Except.bind, unwrap]
    · obtain ⟨i1, s1⟩ := t1
      obtain ⟨i2, s2⟩ := t2
      cases s1 with
      | nil => simp [RazTree.isEmpty, Tree.isSome] at b1
      | node => cases s2 with
        | nil => simp [RazTree.isEmpty, Tree.isSome] at b2
        | node =>
          simp only [RazTree.join] at g1
          obtain ⟨b, g3, g4⟩ := bind_ok.1 g1
          obtain ⟨z, g5, g6⟩ := bind_ok.1 g4
          simp only [pure, Except.pure, Except.ok.injEq, Option.some.injEq] at g6
          subst g6
          obtain ⟨d, -, g7⟩ := bind_ok.1 g3
          simp only [pure, Except.pure, Except.ok.injEq] at g7
          subst g7
          obtain ⟨m, -, g8⟩ := bind_ok.1 g5
          simp only [pure, Except.pure, Except.ok.injEq] at g8
          subst g8
          exact ⟨⟨l1, l2, c1, c2⟩, by simp [Tree.level?]⟩
  · rw [if_neg (fun h => by simpa using e1.2 h), if_pos (e2.1 rfl)]
    exact ⟨t1, by simp only [Filter.bin, b1, b2], rfl, h1, fun c1 _ l1 _ => ⟨c1, fun x hx => Nat.le_of_lt (l1 x hx)⟩⟩
  · rw [if_pos (e1.1 rfl)]
    exact ⟨t2, by simp only [Filter.bin, b1, b2], rfl, h2, fun _ c2 _ l2 => ⟨c2, l2⟩⟩
  · rw [if_pos (e1.1 rfl), e2.1 rfl]
    exact ⟨RazTree.empty, by simp only [Filter.bin, b1, b2], rfl, .empty, fun _ _ _ _ => ⟨trivial, by simp [RazTree.empty, Tree.level?]⟩⟩

theorem reverseBin_eq [RazMeta E N] (t1 t2 : RazTree E N) (lev : Nat) (nm : Option Name) :
    Reverse.bin t1 lev nm t2 = Filter.bin t2 lev nm t1 := by
  unfold Reverse.bin Filter.bin
  cases t1.isEmpty <;> cases t2.isEmpty <;> rfl

/-- The elements kept, and the archive points kept, of a whole tree: subtree by subtree. -/
def thinTree (p : E → Bool) : Tree (TreeData E M) → List (Item E)
  | .nil => []
  | .node _ _ (.leaf v) _ _ => (v.filter p).map .elem
  | .node lv nm _ l r => merge (thinTree p l) lv nm (thinTree p r)

theorem filter_wf [RazMeta E M] [RazMeta E N] (p : E → Bool) {t : Tree (TreeData E M)} (h : WF t) (m : M) :
    ∃ t' : RazTree E N, (RazTree.mk m t).foldUpGauged (Filter.init p) Filter.bin = .ok (some t') ∧ t'.items = thinTree p t ∧
      t'.Reachable .full ∧ (Canon t → Canon t'.tree ∧ ∀ x ∈ t'.tree.level?, x ≤ t.level?.getD 0) := by
  induction h with
  | leaf v =>
    obtain ⟨t', h1, h2, h3, h4, h5⟩ := vecTree_ok (N := N) (v.filter p)
    refine ⟨t', ?_, h2, h3, fun _ => ⟨h4, fun x hx => ?_⟩⟩
    · simp [RazTree.foldUpGauged, Tree.foldUpMeta, bind, Except.bind, pure, Except.pure, Filter.init, h1]
    · cases hl : t'.tree.level? with
      | none => rw [hl] at hx; cases hx
      | some y =>
        rw [hl] at hx h5
        cases hx
        simp at h5
        omega
  | @branch lv nm l r hlv hl hr ihl ihr =>
    obtain ⟨a, a1, a2, a3, a4⟩ := ihl
    obtain ⟨b, b1, b2, b3, b4⟩ := ihr
    obtain ⟨t', h1, h2, h3, h4⟩ := filterBin_ok a3 b3 hlv nm
    refine ⟨t', ?_, ?_, h3, fun ⟨c1, c2, c3, c4⟩ => ?_⟩
    · simp only [RazTree.foldUpGauged] at a1 b1 ⊢
      simp only [Tree.foldUpMeta, a1, b1, bind, Except.bind, pure, Except.pure, h1]
    · rw [h2, a2, b2]; rfl
    · obtain ⟨a5, a6⟩ := a4 c3
      obtain ⟨b5, b6⟩ := b4 c4
      refine h4 a5 b5 (fun x hx => ?_) (fun x hx => ?_)
      · have := a6 x hx
        cases hl' : l.level? with
        | none => rw [hl'] at this; simp at this; omega
        | some y => rw [hl'] at this; have := c1 y hl'; simp at *; omega
      · have := b6 x hx
        cases hl' : r.level? with
        | none => rw [hl'] at this; simp at this; omega
        | some y => rw [hl'] at this; have := c2 y hl'; simp at *; omega

theorem merge_elems (a b : List (Item E)) (lev nm) : elemsOf (merge a lev nm b) = elemsOf a ++ elemsOf b := by
  unfold merge
  split
  · next h => rw [h]; rfl
  · split
    · next h => rw [h]; simp
    · simp

theorem thinTree_elems [RazMeta E M] (p : E → Bool) {t : Tree (TreeData E M)} (h : WF t) :
    elemsOf (thinTree p t) = (elemsOf t.items).filter p := by
  induction h with
  | leaf v => simp [thinTree]
  | branch hlv hl hr ihl ihr =>
    rw [items_branch]
    simp only [thinTree, merge_elems, ihl, ihr, elemsOf_append, elemsOf_mark, List.filter_append]

theorem merge_sublist {a b a' b' : List (Item E)} (ha : a.Sublist a') (hb : b.Sublist b') (lev nm) :
    (merge a lev nm b).Sublist (a' ++ .mark lev nm :: b') := by
  unfold merge
  split
  · exact (hb.trans (List.sublist_cons_self _ _)).trans (List.sublist_append_right _ _)
  · split
    · exact ha.trans (List.sublist_append_left _ _)
    · exact ha.append (hb.cons_cons _)

theorem thinTree_sublist [RazMeta E M] (p : E → Bool) {t : Tree (TreeData E M)} (h : WF t) :
    (thinTree p t).Sublist t.items := by
  induction h with
  | leaf v => exact (List.filter_sublist).map _
  | branch hlv hl hr ihl ihr => exact merge_sublist ihl ihr _ _

theorem reverse_wf [RazMeta E M] [RazMeta E N] {t : Tree (TreeData E M)} (h : WF t) (m : M) :
    ∃ t' : RazTree E N, (RazTree.mk m t).foldUpGauged Reverse.init Reverse.bin = .ok (some t') ∧
      t'.elems = (elemsOf t.items).reverse ∧ t'.items.Sublist t.items.reverse ∧
      (TidySeq t.items → t.items ≠ [] → t'.items = t.items.reverse) ∧ t'.Reachable .full := by
  induction h with
  | leaf v =>
    obtain ⟨t', h1, h2, h3, -⟩ := vecTree_ok (N := N) v.reverse
    have h2' : t'.items = (Tree.items (.node 0 none (.leaf v) .nil .nil : Tree (TreeData E M))).reverse := by
      rw [h2]; simp
    refine ⟨t', ?_, ?_, by rw [h2'], fun _ _ => h2', h3⟩
    · simp [RazTree.foldUpGauged, Tree.foldUpMeta, bind, Except.bind, pure, Except.pure, Reverse.init, h1]
    · rw [RazTree.elems, h2', elemsOf_reverse]
  | @branch lv nm l r hlv hl hr ihl ihr =>
    obtain ⟨a, a1, a2, a3, a4, a5⟩ := ihl
    obtain ⟨b, b1, b2, b3, b4, b5⟩ := ihr
    obtain ⟨t', h1, h2, h3, -⟩ := filterBin_ok b5 a5 hlv nm
    rw [items_branch]
    refine ⟨t', ?_, ?_, ?_, fun ht hne => ?_, h3⟩
    · simp only [RazTree.foldUpGauged] at a1 b1 ⊢
      simp only [Tree.foldUpMeta, a1, b1, bind, Except.bind, pure, Except.pure]
      rw [reverseBin_eq, h1]
    · rw [RazTree.elems, h2, merge_elems]
      simp [RazTree.elems] at a2 b2
      simp [a2, b2]
    · rw [h2]
      have := merge_sublist b3 a3 lv nm
      simpa using this
    · obtain ⟨t1, t2, n1, n2⟩ := ht.branch
      rw [h2, a4 t1 n1, b4 t2 n2, merge, if_neg (by simpa using n2), if_neg (by simpa using n1)]
      simp

/-! ### The archive points that filter keeps -/

theorem thinFrom_not_started (p : E → Bool) (best) (l : List (Item E)) : thinFrom p false best l = thin p l := by
  unfold thin
  generalize (none : Option (Nat × Option Name)) = b
  induction l generalizing best b with
  | nil => rfl
  | cons i l ih =>
    cases i with
    | elem e => simp only [thinFrom, Bool.false_eq_true, if_false]; rw [ih best b]
    | mark => exact ih _ _
    | pend => exact ih _ _

theorem thin_nil (p : E → Bool) : thin p [] = [] := rfl
theorem thin_keep {p : E → Bool} {e : E} (hp : p e = true) (l) : thin p (.elem e :: l) = .elem e :: thinFrom p true none l := by
  simp [thin, thinFrom, hp]
theorem thin_drop {p : E → Bool} {e : E} (hp : ¬ p e = true) (l) : thin p (.elem e :: l) = thin p l := by
  simp [thin, thinFrom, hp]
theorem thin_mark (p : E → Bool) (a b) (l) : thin p (.mark a b :: l) = thin p l :=
  thinFrom_not_started p (higher none a b) l
theorem thin_pend (p : E → Bool) (a b) (l) : thin p (.pend a b :: l) = thin p l :=
  thinFrom_not_started p (higher none a b) l

theorem thin_eq_nil (p : E → Bool) (s best) (l : List (Item E)) : thinFrom p s best l = [] ↔ (elemsOf l).filter p = [] := by
  induction l generalizing s best with
  | nil => simp [thinFrom]
  | cons i l ih =>
    cases i with
    | elem e =>
      simp only [thinFrom, elemsOf_elem, List.filter_cons]
      by_cases hp : p e <;> simp [hp, ih]
    | mark => exact ih _ _
    | pend => exact ih _ _

theorem thin_after_mark (p : E → Bool) {lv : Nat} {nm} {l : List (Item E)} (h : ∀ x ∈ marksOf l, x.1 ≤ lv) :
    thinFrom p true (some (lv, nm)) l = if thin p l = [] then [] else .mark lv nm :: thin p l := by
  induction l with
  | nil => rfl
  | cons i l ih =>
    cases i with
    | elem e =>
      by_cases hp : p e
      · simp [thin_keep hp, thinFrom, hp]
      · simp only [thin_drop hp, thinFrom, hp, Bool.false_eq_true, if_false]; exact ih h
    | mark a b =>
      have := h (a, b) (by simp [marksOf])
      simp only [thinFrom, thin_mark, thin_pend, higher, if_pos this]
      exact ih (fun x hx => h x (by simp [marksOf] at hx ⊢; exact .inr hx))
    | pend a b =>
      have := h (a, b) (by simp [marksOf])
      simp only [thinFrom, thin_mark, thin_pend, higher, if_pos this]
      exact ih (fun x hx => h x (by simp [marksOf] at hx ⊢; exact .inr hx))

theorem thinFrom_append (p : E → Bool) {lv : Nat} {nm} {a b : List (Item E)} (ha : ∀ x ∈ marksOf a, x.1 < lv)
    (hb : ∀ x ∈ marksOf b, x.1 ≤ lv) (best : Option (Nat × Option Name)) (hbest : ∀ x ∈ best, x.1 < lv) :
    thinFrom p true best (a ++ .mark lv nm :: b) =
      if thin p b = [] then thinFrom p true best a
      else if thin p a = [] then .mark lv nm :: thin p b
      else thinFrom p true best a ++ .mark lv nm :: thin p b := by
  induction a generalizing best with
  | nil =>
    have : higher best lv nm = some (lv, nm) := by
      rcases best with _ | ⟨l, n⟩
      · rfl
      · have := hbest _ rfl
        simp only [higher]
        rw [if_neg (by simp at this; omega)]
    simp only [List.nil_append, thinFrom, this]
    rw [thin_after_mark p hb]
    simp [thin_nil]
  | cons i a ih =>
    cases i with
    | elem e =>
      simp only [List.cons_append, thinFrom]
      by_cases hp : p e
      · simp only [hp, if_true]
        rw [ih ha none (by simp)]
        by_cases h1 : thin p b = []
        · simp [h1]
        · simp only [h1, if_false]
          have h2 : thin p (.elem e :: a) ≠ [] := by simp [thin_keep hp]
          simp only [h2, if_false]
          by_cases h3 : thin p a = []
          · have : thinFrom p true none a = [] := by
              rw [thin_eq_nil]; exact (thin_eq_nil p false none a).1 h3
            simp [h3, this]
          · simp [h3]
      · simp only [hp, Bool.false_eq_true, if_false]
        rw [ih ha best hbest]
        simp only [thin_drop hp]
    | mark l n =>
      have hl := ha (l, n) (by simp [marksOf])
      simp only [List.cons_append, thinFrom]
      rw [ih (fun x hx => ha x (by simp [marksOf] at hx ⊢; exact .inr hx)) _ ?_]
      · simp only [thin_mark, thin_pend]
      · intro x hx
        rcases best with _ | ⟨l', n'⟩
        · simp [higher] at hx; subst hx; exact hl
        · simp only [higher] at hx
          split at hx
          · exact hbest x hx
          · cases hx; exact hl
    | pend l n =>
      have hl := ha (l, n) (by simp [marksOf])
      simp only [List.cons_append, thinFrom]
      rw [ih (fun x hx => ha x (by simp [marksOf] at hx ⊢; exact .inr hx)) _ ?_]
      · simp only [thin_mark, thin_pend]
      · intro x hx
        rcases best with _ | ⟨l', n'⟩
        · simp [higher] at hx; subst hx; exact hl
        · simp only [higher] at hx
          split at hx
          · exact hbest x hx
          · cases hx; exact hl

theorem thin_append (p : E → Bool) {lv : Nat} {nm} {a b : List (Item E)} (ha : ∀ x ∈ marksOf a, x.1 < lv)
    (hb : ∀ x ∈ marksOf b, x.1 ≤ lv) : thin p (a ++ .mark lv nm :: b) = merge (thin p a) lv nm (thin p b) := by
  unfold merge
  induction a with
  | nil => simp [thin_nil, thin_mark]
  | cons i a ih =>
    cases i with
    | elem e =>
      by_cases hp : p e
      · simp only [List.cons_append, thin_keep hp]
        rw [thinFrom_append p (a := a) ha hb none (by simp)]
        by_cases h1 : thin p b = []
        · simp [h1]
        · by_cases h3 : thin p a = []
          · have : thinFrom p true none a = [] := by
              rw [thin_eq_nil]; exact (thin_eq_nil p false none a).1 h3
            simp [h1, h3, this]
          · simp [h1, h3]
      · simp only [List.cons_append, thin_drop hp]
        exact ih ha
    | mark l n =>
      simp only [List.cons_append, thin_mark, thin_pend]
      exact ih (fun x hx => ha x (by simp [marksOf] at hx ⊢; exact .inr hx))
    | pend l n =>
      simp only [List.cons_append, thin_mark, thin_pend]
      exact ih (fun x hx => ha x (by simp [marksOf] at hx ⊢; exact .inr hx))

theorem marksOf_append' (a b : List (Item E)) : marksOf (a ++ b) = marksOf a ++ marksOf b := by simp [marksOf]

theorem canon_marks [RazMeta E M] {t : Tree (TreeData E M)} (h : WF t) (hc : Canon t) : ∀ x ∈ marksOf t.items, x.1 ≤ t.level?.getD 0 := by
  induction h with
  | leaf v =>
    intro x hx
    simp [marksOf] at hx
  | @branch lv nm l r hlv hl hr ihl ihr =>
    obtain ⟨c1, c2, c3, c4⟩ := hc
    intro x hx
    rw [items_branch, marksOf_append', List.mem_append] at hx
    simp only [Tree.level?, Option.getD_some]
    rcases hx with hx | hx
    · have := ihl c3 x hx
      cases hl' : l.level? with
      | none => rw [hl'] at this; simp at this; omega
      | some y => rw [hl'] at this; have := c1 y hl'; simp at *; omega
    · simp only [marksOf, List.filterMap_cons, List.mem_cons] at hx
      rcases hx with rfl | hx
      · exact Nat.le_refl _
      · have := ihr c4 x hx
        cases hl' : r.level? with
        | none => rw [hl'] at this; simp at this; omega
        | some y => rw [hl'] at this; have := c2 y hl'; simp at *; omega

theorem thinTree_canon [RazMeta E M] (p : E → Bool) {t : Tree (TreeData E M)} (h : WF t) (hc : Canon t) :
    thinTree p t = thin p t.items := by
  induction h with
  | leaf v =>
    have : ∀ (s : Bool) (v : List E), thinFrom p s none (v.map Item.elem) = (v.filter p).map .elem := by
      intro s v
      induction v generalizing s with
      | nil => rfl
      | cons e v ih =>
        simp only [List.map_cons, thinFrom, ih, List.filter_cons]
        by_cases hp : p e <;> simp [hp]
    exact (this _ _).symm
  | @branch lv nm l r hlv hl hr ihl ihr =>
    obtain ⟨c1, c2, c3, c4⟩ := hc
    rw [items_branch, thin_append, ← ihl c3, ← ihr c4]
    · rfl
    · intro x hx
      have := canon_marks hl c3 x hx
      cases hl' : l.level? with
      | none => rw [hl'] at this; simp at this; omega
      | some y => rw [hl'] at this; have := c1 y hl'; simp at *; omega
    · intro x hx
      have := canon_marks hr c4 x hx
      cases hl' : r.level? with
      | none => rw [hl'] at this; simp at this; omega
      | some y => rw [hl'] at this; have := c2 y hl'; simp at *; omega

end Iodyn.Eval
