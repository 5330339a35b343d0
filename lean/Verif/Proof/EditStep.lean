import Verif.Proof.EditLocal
import Verif.Proof.Tidy
import Verif.Proof.Reach
/-
One edit over the store: which nodes of the new tree were in the old one.
-/
namespace Iodyn
open Heap
variable {E M : Type}

theorem glue_mem {l r : List (Item E)} {x : Item E} (h : x ∈ glue l r) : x ∈ l ∨ x ∈ r := by
  unfold glue at h
  split at h
  · cases h
  · split at h <;> simp at h ⊢ <;> tauto
  · split at h <;> simp at h ⊢ <;> tauto
  · split at h
    · split at h <;> simp at h ⊢ <;> tauto
    · simp at h ⊢; tauto

/-- An archive point of a stack. -/
theorem side_mark {s : AStack E Nat} {i : Item E} (hi : i ∈ s.side) {lv : Nat} {n : Name} (h : i.settle = .mark lv (some n)) : n ∈ pN .dcg s.archived := by
  simp only [AStack.side, List.mem_append, List.mem_map, List.mem_flatMap, List.mem_cons] at hi
  rcases hi with ⟨e, -, rfl⟩ | ⟨⟨m, q⟩, hp, rfl | ⟨e, -, rfl⟩⟩
  · cases h
  · simp only [Item.settle, Item.mark.injEq] at h
    generalize s.archived = a at hp
    induction a with
    | nil => cases hp
    | cons p a ih =>
      obtain ⟨n', q'⟩ := p
      simp only [pN, List.mem_append]
      rcases List.mem_cons.1 hp with hp | hp
      · cases hp
        simp [nm, tnm, h.2]
      · exact .inr (ih hp)
  · cases h

theorem side_elem {s : AStack E Nat} (h : StackOK s) (hs : s.isEmpty = false) : elemsOf s.side ≠ [] := by
  obtain ⟨cur, arch⟩ := s
  cases cur with
  | cons a b => simp [AStack.side, elemsOf, Item.elem?]
  | nil =>
    cases arch with
    | nil => simp [AStack.isEmpty, Stack.isEmpty] at hs
    | cons p a =>
      have := (h p (by simp)).2
      obtain ⟨n, m, v⟩ := p
      cases v with
      | nil => exact absurd rfl this
      | cons x v =>
        refine List.ne_nil_of_mem (a := x) (List.mem_filterMap.2 ⟨.elem x, ?_, rfl⟩)
        simp [AStack.side]

theorem settle_elems (l : List (Item E)) : elemsOf (l.map Item.settle) = elemsOf l := by
  induction l with
  | nil => rfl
  | cons i l ih =>
    cases i <;> simp only [elemsOf, List.map_cons, List.filterMap_cons, Item.settle, Item.elem?] at ih ⊢ <;> simp only [ih]

theorem map_self {A : Type} {f : A → A} : ∀ {l : List A}, l.map f = l → ∀ a ∈ l, f a = a
  | [], _, _, h => by cases h
  | x :: l, h, a, ha => by
    simp only [List.map_cons, List.cons.injEq] at h
    rcases List.mem_cons.1 ha with rfl | ha
    · exact h.1
    · exact map_self h.2 a ha

theorem leftSide_settle {l : List (Bool × TNode (TreeData E M))} {i : Item E} (hi : i ∈ Cursor.leftSide l) : i.settle = i := by
  simp only [Cursor.leftSide, List.mem_flatMap, List.mem_cons, List.mem_reverse] at hi
  obtain ⟨p, -, rfl | hi⟩ := hi
  · rfl
  · exact map_self (settle_items p.2.l) i hi

theorem rightSide_settle {l : List (Bool × TNode (TreeData E M))} {i : Item E} (hi : i ∈ Cursor.rightSide l) : i.settle = i := by
  simp only [Cursor.rightSide, List.mem_flatMap, List.mem_cons] at hi
  obtain ⟨p, -, rfl | hi⟩ := hi
  · rfl
  · exact map_self (settle_items p.2.r) i hi

variable [RazMeta E M]

/-- One edit: the old tree, the new one, the nodes in between and what the edit writes. -/
structure Edited (t t' : RazTree E M) (ops : List (LOp E)) (k : Nat) (S : List Name) (σ σ' : RMem E M) : Prop where
  inv : TInv t'
  canon : Canon t'.tree
  full : t'.tree ≠ .nil
  names : Sub (tN .dcg t'.tree) (tN .dcg t.tree ++ LOp.cells ops)
  len : S.length ≤ k
  keeps : Keeps (S ++ LOp.cells ops) σ σ'
  old : ∀ lv n, .mark lv (some n) ∈ t'.items → .mark lv (some n) ∈ t.items ∨ (n ∈ S ∧ n ∈ LOp.cells ops)
  apart : ∀ lv n d l r, .node lv (some n) d l r ∈ subs t.tree → n ∉ S → Dis (tN .dcg (.node lv (some n) d l r)) (S ++ LOp.cells ops)

/-- The edits from the zipper on; `S0` are the names of the path. -/
theorem close_sim {σ : RMem E M} {hz : HRaz E} {z z0 : Raz E M} {N : List Name} {k : Nat} (h : LInvs z0 z N k)
    (hs : z.lStack.isEmpty = false ∨ z.rStack.isEmpty = false) (hr : RepZ .dcg σ hz z)
    (hn : (cN .dcg z0.lForest ++ cN .dcg z0.rForest ++ N).Nodup) :
    Sim (hz.unfocus .dcg) σ z.unfocus (fun t' ht' σ' => RepRT .dcg σ' ht' t' ∧ TInv t' ∧ Canon t'.tree ∧ t'.tree ≠ .nil ∧
      Sub (tN .dcg t'.tree) (cN .dcg z0.lForest ++ cN .dcg z0.rForest ++ N) ∧
      Keeps ((eN .dcg z0.lForest.lForest ++ eN .dcg z0.rForest.rForest) ++ N) σ σ' ∧
      ∀ lv n, .mark lv (some n) ∈ t'.items → (.mark lv (some n) ∈ Cursor.leftSide z0.lForest.lForest ++ Cursor.rightSide z0.rForest.rForest) ∨
        n ∈ pN .dcg z.lStack.archived ++ pN .dcg z.rStack.archived) := by
  have hsub : Sub (zN .dcg z) (cN .dcg z0.lForest ++ cN .dcg z0.rForest ++ N) := fun x => by
    have := h.names x
    simp only [zN, h.lf, h.rf, List.count_append] at *
    omega
  refine (unfocus_fine hr (hsub.nodup hn) h.inv h.canon hs).mono ?_
  rintro t' ht' σ' hu ⟨g1, g2, g3⟩
  obtain ⟨t2, u1, u2, u3⟩ := unfocus_inv h.inv
  rw [hu] at u1
  cases u1
  refine ⟨g1, u2, unfocus_canon h.inv h.canon hu, ?_, Sub.trans g2 hsub, g3.mono ?_, ?_⟩
  · intro hnil
    have h1 : elemsOf t'.items = [] := by simp only [RazTree.items, hnil, Tree.items]; rfl
    rw [u3, settle_elems, glue_elems] at h1
    simp only [List.append_eq_nil_iff, List.reverse_eq_nil_iff, Raz.left, Raz.right, elemsOf, List.filterMap_append] at h1
    rcases hs with hs | hs
    · exact side_elem h.inv.ls hs h1.1.1
    · exact side_elem h.inv.rs hs h1.2.1
  · unfold fN
    rw [h.lf, h.rf]
    exact List.append_subset.2 ⟨List.subset_append_left _ _, List.Subset.trans h.names.subset (List.subset_append_right _ _)⟩
  · intro lv n hm
    rw [u3] at hm
    obtain ⟨i, hi, hs'⟩ := List.mem_map.1 hm
    simp only [List.mem_append]
    rcases glue_mem hi with hi | hi
    · rcases List.mem_append.1 hi with hi | hi
      · exact .inr (.inl (side_mark hi hs'))
      · rw [leftSide_settle hi] at hs'
        subst hs'
        rw [h.lf] at hi
        exact .inl (.inl hi)
    · rcases List.mem_append.1 hi with hi | hi
      · exact .inr (.inr (side_mark hi hs'))
      · rw [rightSide_settle hi] at hs'
        subst hs'
        rw [h.rf] at hi
        exact .inl (.inr hi)

omit [RazMeta E M] in
theorem eN_length {D : Type} : ∀ us : List (Bool × TNode D), (eN .dcg us).length ≤ us.length
  | [] => Nat.le_refl _
  | p :: us => by
    have := eN_length us
    obtain ⟨d, u⟩ := p
    simp only [eN, List.flatMap_cons, List.length_append, List.length_cons, nm] at this ⊢
    have h1 : u.name.toList.length ≤ 1 := by cases u.name <;> simp
    omega

/-- A whole edit, with the length of the path to its place. -/
theorem edit_path_sim [LawfulMeta E M] {σ : RMem E M} {ht : HTree M} {t : RazTree E M} (h : RepRT .dcg σ ht t) (hi : TInv t) (hc : Canon t.tree)
    {i : RazMeta.Index E M} {ops : List (LOp E)} (hl : ∀ z, t.focus i = .ok (some z) → z.Local ops) (hn : (tN .dcg t.tree ++ LOp.cells ops).Nodup) :
    Sim (ht.edit .dcg i ops) σ (t.edit i ops) (fun t' ht' σ' => RepRT .dcg σ' ht' t' ∧
      ∃ z, t.focus i = .ok (some z) ∧ ∃ S, Edited t t' ops (z.lForest.lForest.length + z.rForest.rForest.length + LOp.points ops) S σ σ') := by
  unfold HTree.edit RazTree.edit
  refine (focus_sim h i).bind ?_
  rintro b a σ1 hf ⟨hcase, rfl⟩
  rcases hcase with ⟨rfl, rfl⟩ | ⟨z, hz, rfl, rfl, hr, hsub⟩
  · exact Sim.error
  · refine Sim.step (fun f => rfl) ?_
    obtain ⟨k1, k2, -⟩ := focus_ok hi.wf hf
    have k3 := focus_canon hc hf
    obtain ⟨⟨s, S0, m, p1, p2, p3, p4⟩, p5, p6⟩ := focus_path hf
    have inv : LInvs z z [] 0 := ⟨k1, k3, rfl, rfl, fun x => by simp [aN, p5, p6, sN, pN], by simp [stackPoints, p5, p6, pN]⟩
    have hnn : ∀ x, (cN .dcg z.lForest).count x + (cN .dcg z.rForest).count x + (LOp.cells ops).count x ≤ 1 := fun x => by
      have := nodup_count hn x
      have := hsub x
      simp only [zN, List.count_append] at *
      omega
    refine (lops_sim ops inv (hl z hf) hr (count_nodup fun x => by
      have := hnn x; simp only [List.nil_append, List.count_append]; omega)).bind ?_
    rintro z' hz' σ2 - ⟨g1, g2, g3, g4⟩
    simp only [List.nil_append, Nat.zero_add] at g2
    refine (close_sim g2 g3 g1 (count_nodup fun x => by have := hnn x; simp only [List.count_append]; omega)).mono ?_
    rintro t' ht' σ3 - ⟨q1, q2, q3, q4, q5, q6, q7⟩
    have hpn : pN .dcg z'.lStack.archived ++ pN .dcg z'.rStack.archived ⊆ LOp.cells ops := by
      refine List.Subset.trans (Sub.subset fun x => ?_) g2.names.subset
      simp only [aN, List.count_append]; omega
    refine ⟨q1, z, hf, (eN .dcg z.lForest.lForest ++ eN .dcg z.rForest.rForest) ++ (pN .dcg z'.lStack.archived ++ pN .dcg z'.rStack.archived), ?_⟩
    refine ⟨q2, q3, q4, ?_, ?_, ?_, ?_, ?_⟩
    · refine Sub.trans q5 (fun x => ?_)
      have := hsub x
      simp only [zN, List.count_append] at *; omega
    · have e1 := eN_length z.lForest.lForest
      have e2 := eN_length z.rForest.rForest
      have e3 := g2.points
      simp only [stackPoints] at e3
      simp only [List.length_append]
      omega
    · refine (g4.mono ?_).trans (q6.mono ?_)
      · exact List.subset_append_right _ _
      · intro x; simp only [List.mem_append]; tauto
    · intro lv n hm
      rcases q7 lv n hm with hm | hm
      · left
        rw [← k2]
        simp only [List.mem_append, List.mem_reverse, Raz.left, Raz.right] at hm ⊢
        tauto
      · exact .inr ⟨List.mem_append_right _ hm, hpn hm⟩
    · intro lv n d l r hw hns x hx
      have h1 := p1.beside (List.Nodup.of_append_left hn) hw (fun hx => hns (List.mem_append_left _ ((p2 n).2 hx)))
      have h2 : x ∉ LOp.cells ops := by
        intro hx'
        have a1 := List.count_pos_iff.2 (subs_names hw hx)
        have a2 := List.count_pos_iff.2 hx'
        have := nodup_count hn x
        simp only [List.count_append] at this
        omega
      rw [List.mem_append, List.mem_append]
      rintro ((hx' | hx') | hx')
      · exact h1 x hx ((p2 x).1 hx')
      · exact h2 (hpn hx')
      · exact h2 hx'

/-- A whole edit. -/
theorem edit_sim [LawfulMeta E M] {σ : RMem E M} {ht : HTree M} {t : RazTree E M} (h : RepRT .dcg σ ht t) (hi : TInv t) (hc : Canon t.tree)
    {i : RazMeta.Index E M} {ops : List (LOp E)} (hl : ∀ z, t.focus i = .ok (some z) → z.Local ops) (hn : (tN .dcg t.tree ++ LOp.cells ops).Nodup) :
    Sim (ht.edit .dcg i ops) σ (t.edit i ops) (fun t' ht' σ' => RepRT .dcg σ' ht' t' ∧ ∃ S, Edited t t' ops (t.tree.depth + LOp.points ops) S σ σ') := by
  refine (edit_path_sim h hi hc hl hn).mono ?_
  rintro t' ht' σ' - ⟨h1, z, hf, S, h2⟩
  obtain ⟨⟨s, S0, m, p1, p2, p3, p4⟩, p5, p6⟩ := focus_path hf
  exact ⟨h1, S, { h2 with len := Nat.le_trans h2.len (by omega) }⟩

end Iodyn
