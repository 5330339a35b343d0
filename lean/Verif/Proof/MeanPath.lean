import Verif.Spec.MeanWork
import Verif.Props.Focus
import Verif.Props.EditAny
/-
The branches above a place of a tree, and edits of lists.
-/
namespace Iodyn
variable {E M : Type}

/-! ### The path -/

theorem levelsOf_append (a b : List (Item E)) : levelsOf (a ++ b) = levelsOf a ++ levelsOf b := by simp [levelsOf, marksOf]
theorem levelsOf_mark (lv nm) (a : List (Item E)) : levelsOf (.mark lv nm :: a) = lv :: levelsOf a := rfl
theorem levelsOf_elems (v : List E) : levelsOf (v.map Item.elem) = [] := by induction v <;> simp_all [levelsOf, marksOf]
theorem levelsOf_reverse (a : List (Item E)) : levelsOf a.reverse = (levelsOf a).reverse := by simp [levelsOf, marksOf]
theorem mem_levelsOf {l : List (Item E)} {x : Nat} (h : x ∈ levelsOf l) : ∃ i ∈ l, i.isMark = true ∧ i.level = x := by
  simp only [levelsOf, marksOf, List.mem_map, List.mem_filterMap] at h
  obtain ⟨p, ⟨i, hi, hp⟩, rfl⟩ := h
  refine ⟨i, hi, ?_⟩
  cases i <;> simp only [Option.some.injEq, reduceCtorEq] at hp <;> subst hp <;> exact ⟨rfl, rfl⟩

theorem seenLe_skip {v : Nat} : ∀ (xs before rest : List Nat), v ∈ before → (∀ x ∈ xs, x < v) → seenLe before (xs ++ rest) = seenLe (xs.reverse ++ before) rest
  | [], before, rest, _, _ => rfl
  | x :: xs, before, rest, hv, hx => by
    have h1 : ¬ ∀ b ∈ before, b ≤ x := fun h => by
      have := h v hv
      have := hx x List.mem_cons_self
      omega
    simp only [List.cons_append, seenLe, if_neg h1, Nat.zero_add]
    rw [seenLe_skip xs (x :: before) rest (List.mem_cons_of_mem _ hv) (fun y hy => hx y (List.mem_cons_of_mem _ hy))]
    simp

theorem seenLt_skip {v : Nat} : ∀ (xs before rest : List Nat), v ∈ before → (∀ x ∈ xs, x ≤ v) → seenLt before (xs ++ rest) = seenLt (xs.reverse ++ before) rest
  | [], before, rest, _, _ => rfl
  | x :: xs, before, rest, hv, hx => by
    have h1 : ¬ ∀ b ∈ before, b < x := fun h => by
      have := h v hv
      have := hx x List.mem_cons_self
      omega
    simp only [List.cons_append, seenLt, if_neg h1, Nat.zero_add]
    rw [seenLt_skip xs (x :: before) rest (List.mem_cons_of_mem _ hv) (fun y hy => hx y (List.mem_cons_of_mem _ hy))]
    simp

theorem seenLt_le : ∀ (l before : List Nat), seenLt before l ≤ seenLe before l
  | [], _ => Nat.le_refl _
  | x :: l, before => by
    have := seenLt_le l (x :: before)
    simp only [seenLt, seenLe]
    by_cases h : ∀ b ∈ before, b < x
    · rw [if_pos h, if_pos (fun b hb => Nat.le_of_lt (h b hb))]; omega
    · rw [if_neg h]; omega

variable [RazMeta E M]

theorem leftSide_seen : ∀ (l : List (Bool × TNode (TreeData E M))), FL l → LC l → ∀ before : List Nat, (∀ b ∈ before, ∀ p ∈ l, b ≤ p.2.level) →
    seenLe before (levelsOf (Cursor.leftSide l)) = l.length
  | [], _, _, _, _ => rfl
  | p :: l, hf, hc, before, hb => by
    obtain ⟨d, lv, nm, dt, tl, tr⟩ := p
    have hg := hf _ List.mem_cons_self
    have hcn := hc.c _ List.mem_cons_self
    have hlt : ∀ x ∈ (levelsOf tl.items).reverse, x < lv := fun x hx => by
      obtain ⟨i, hi, h1, rfl⟩ := mem_levelsOf (List.mem_reverse.1 hx)
      exact items_lt_left hg.2.1 hcn i hi
    have e : levelsOf (Cursor.leftSide ((d, (⟨lv, nm, dt, tl, tr⟩ : TNode (TreeData E M))) :: l)) =
        lv :: ((levelsOf tl.items).reverse ++ levelsOf (Cursor.leftSide l)) := by
      simp only [Cursor.leftSide, List.flatMap_cons, List.cons_append, levelsOf_mark, levelsOf_append, levelsOf_reverse]
    rw [e]
    simp only [seenLe]
    rw [if_pos (fun b hb' => hb b hb' _ List.mem_cons_self), seenLe_skip _ _ _ List.mem_cons_self hlt,
      leftSide_seen l (fun q hq => hf q (List.mem_cons_of_mem _ hq)) hc.tail, List.length_cons, Nat.add_comm]
    intro b hb' q hq
    have hs := (List.pairwise_cons.1 hc.s).1 q hq
    simp only at hs
    simp only [List.mem_append, List.mem_cons, List.mem_reverse] at hb'
    rcases hb' with hb' | rfl | hb'
    · have := hlt b (List.mem_reverse.2 hb')
      omega
    · exact hs
    · exact hb b hb' q (List.mem_cons_of_mem _ hq)

theorem rightSide_seen : ∀ (l : List (Bool × TNode (TreeData E M))), FR l → RC l → ∀ before : List Nat, (∀ b ∈ before, ∀ p ∈ l, b < p.2.level) →
    seenLt before (levelsOf (Cursor.rightSide l)) = l.length
  | [], _, _, _, _ => rfl
  | p :: l, hf, hc, before, hb => by
    obtain ⟨d, lv, nm, dt, tl, tr⟩ := p
    have hg := hf _ List.mem_cons_self
    have hcn := hc.c _ List.mem_cons_self
    have hlt : ∀ x ∈ levelsOf tr.items, x ≤ lv := fun x hx => by
      obtain ⟨i, hi, h1, rfl⟩ := mem_levelsOf hx
      exact items_le_right hg.2.1 hcn i hi
    have e : levelsOf (Cursor.rightSide ((d, (⟨lv, nm, dt, tl, tr⟩ : TNode (TreeData E M))) :: l)) =
        lv :: (levelsOf tr.items ++ levelsOf (Cursor.rightSide l)) := by
      simp only [Cursor.rightSide, List.flatMap_cons, List.cons_append, levelsOf_mark, levelsOf_append]
    rw [e]
    simp only [seenLt]
    rw [if_pos (fun b hb' => hb b hb' _ List.mem_cons_self), seenLt_skip _ _ _ List.mem_cons_self hlt,
      rightSide_seen l (fun q hq => hf q (List.mem_cons_of_mem _ hq)) hc.tail, List.length_cons, Nat.add_comm]
    intro b hb' q hq
    have hs := (List.pairwise_cons.1 hc.s).1 q hq
    simp only at hs
    simp only [List.mem_append, List.mem_cons, List.mem_reverse] at hb'
    rcases hb' with hb' | rfl | hb'
    · have := hlt b hb'
      omega
    · exact hs
    · exact hb b hb' q (List.mem_cons_of_mem _ hq)

/-- The branches above the place of a zipper that has just been made by `focus`: those archive points that see the place. -/
theorem focus_seen [LawfulMeta E M] {t : RazTree E M} (ht : WFo t.tree) (hc : Canon t.tree) {i : RazMeta.Index E M} {z : Raz E M} (hf : t.focus i = .ok (some z)) :
    z.lForest.lForest.length + z.rForest.rForest.length = seenLe [] (levelsOf z.left) + seenLt [] (levelsOf z.right) := by
  obtain ⟨k1, -, -⟩ := focus_ok ht hf
  have k3 := focus_canon hc hf
  obtain ⟨-, p5, p6⟩ := focus_path hf
  have e1 : levelsOf z.left = levelsOf (Cursor.leftSide z.lForest.lForest) := by
    simp only [Raz.left, levelsOf_append, AStack.side, p5, List.flatMap_nil, List.append_nil, levelsOf_elems, List.nil_append]
  have e2 : levelsOf z.right = levelsOf (Cursor.rightSide z.rForest.rForest) := by
    simp only [Raz.right, levelsOf_append, AStack.side, p6, List.flatMap_nil, List.append_nil, levelsOf_elems, List.nil_append]
  rw [e1, e2, leftSide_seen _ k1.lf.l k3.l [] (fun b hb => by cases hb), rightSide_seen _ k1.rf.r k3.r [] (fun b hb => by cases hb)]

end Iodyn
