import Verif.Proof.UniqueWork
/-
How far an edit is seen by the updates after it.
-/
namespace Iodyn.Incr.Uq
open Iodyn.Heap (Tr Cell Mem)
open Iodyn.Skip
variable {E M X : Type} {L : Nat} {hash : E → Word}

/-- If something before shares more bits with `z` than `y` does, then it shares with `y` what `z` does. -/
theorem common_hidden {x y z : Word} (h : common L y z < common L x z) : common L y x = common L y z := by
  have hL := (le_common L x z).1
  have d := (common_eq (by omega) _ _).1 (rfl : common L y z = common L y z)
  have a := (((le_common L x z).2 (common L y z + 1)).1 h).2
  rw [common_eq (by omega)]
  exact (Diverge.of_agree a.symm d.symm).symm

/-- The first found in the list, whatever is in the middle. -/
theorem find_hidden {A : Type} (p : A → Bool) (D U V Q : List A) (h : ∀ z, z ∈ U ∨ z ∈ V → p z = true → ∃ x ∈ D, p x = true) :
    (D ++ (U ++ Q)).find? p = (D ++ (V ++ Q)).find? p := by
  rw [List.find?_append (xs := D) (ys := U ++ Q), List.find?_append (xs := D) (ys := V ++ Q)]
  cases hD : D.find? p with
  | some x => rfl
  | none =>
    rw [List.find?_eq_none] at hD
    have hz : ∀ z, z ∈ U ∨ z ∈ V → p z = false := fun z hz => by
      rw [Bool.eq_false_iff]
      intro hp
      obtain ⟨x, hx, hp'⟩ := h z hz hp
      exact hD x hx hp'
    rw [find_skip (fun z h => hz z (.inl h)), find_skip (fun z h => hz z (.inr h))]

/-- An update does not see what is hidden from it. -/
theorem sees_hidden {D U V Q : List (Loc × E)} {y : E} (h : ∀ z, z ∈ U ∨ z ∈ V → ∃ x ∈ D, common L (hash y) (hash z.2) < common L (hash x.2) (hash z.2)) :
    sees L hash (D ++ (U ++ Q)) y = sees L hash (D ++ (V ++ Q)) y := by
  have h' : ∀ z, z ∈ U ∨ z ∈ V → shares L hash y z < L ∧ ∃ x ∈ D, shares L hash y x = shares L hash y z := fun z hz => by
    obtain ⟨x, hx, hlt⟩ := h z hz
    have := (le_common L (hash x.2) (hash z.2)).1
    exact ⟨by unfold shares; omega, x, hx, common_hidden hlt⟩
  unfold sees
  congr 1
  · refine List.map_congr_left fun j _ => ?_
    rw [find_hidden _ D U V Q fun z hz hp => ?_]
    obtain ⟨-, x, hx, e⟩ := h' z hz
    exact ⟨x, hx, by rw [e]; exact hp⟩
  · refine List.map_congr_left fun j _ => ?_
    rw [find_hidden _ D U V Q fun z hz hp => ?_]
    obtain ⟨-, x, hx, e⟩ := h' z hz
    exact ⟨x, hx, by rw [e]; exact hp⟩
  · rw [List.filter_append, List.filter_append, List.filter_append, List.filter_append]
    have e : ∀ W : List (Loc × E), (∀ z ∈ W, z ∈ U ∨ z ∈ V) → W.filter (fun w => decide (shares L hash y w = L)) = [] := fun W hW => by
      rw [List.filter_eq_nil_iff]
      intro z hz
      have := (h' z (hW z hz)).1
      simp only [decide_eq_true_eq]
      omega
    rw [e U (fun _ => .inl), e V (fun _ => .inr)]

/-- Two stages that differ in something before. -/
structure Differ (zs : List E) (D U V Q : List (Loc × E)) (s t : Stage E) : Prop where
  left : s.before = D ++ (U ++ Q)
  right : t.before = D ++ (V ++ Q)
  name : s.name = t.name
  cntr : s.cntr = t.cntr
  mem : ∀ z, z ∈ U ∨ z ∈ V → z.2 ∈ zs

variable {zs : List E} {D U V Q : List (Loc × E)} {s t : Stage E}

theorem Differ.put (h : Differ zs D U V Q s t) (x : E) : Differ zs ((cellLoc s.name s.cntr, x) :: D) U V Q (s.put x) (t.put x) :=
  ⟨by rw [put_before, h.left]; rfl, by rw [put_before, h.right, h.name, h.cntr]; rfl, h.name, congrArg (· + 1) h.cntr, h.mem⟩

theorem Differ.arch (h : Differ zs D U V Q s t) (c : Option Name) : Differ zs D U V Q (s.arch c) (t.arch c) := by
  cases c with
  | none => exact h
  | some n => exact ⟨h.left, h.right, rfl, rfl, h.mem⟩

/-- The updates of some elements, the latest first. -/
def newCells (n : Name) : Nat → List E → List (Loc × E)
  | _, [] => []
  | i, x :: v => newCells n (i + 1) v ++ [(cellLoc n i, x)]

theorem newCells_elems (n : Name) (v : List E) : ∀ i, (newCells n i v).map (·.2) = v.reverse := by
  induction v with
  | nil => exact fun _ => rfl
  | cons x v ih => intro i; rw [newCells, List.map_append, ih, List.reverse_cons]; rfl

theorem Differ.puts (v : List E) : ∀ {D : List (Loc × E)} {s t : Stage E}, Differ zs D U V Q s t →
    Differ zs (newCells s.name s.cntr v ++ D) U V Q (v.foldl Stage.put s) (v.foldl Stage.put t) := by
  induction v with
  | nil => exact fun h => h
  | cons x v ih =>
    intro D s t h
    have := ih (h.put x)
    rw [newCells, List.append_assoc]
    exact this

theorem Differ.leaf (h : Differ zs D U V Q s t) (l : Leaf E) : Differ zs (newCells s.name s.cntr l.2.2 ++ D) U V Q (s.leaf l) (t.leaf l) := (h.puts l.2.2).arch l.1

theorem touched_append (a b : List E) : ∀ e : List E, touched L hash zs e (a ++ b) = touched L hash zs e a + touched L hash zs (a.reverse ++ e) b := by
  induction a with
  | nil => intro e; simp [touched]
  | cons x a ih => intro e; rw [List.cons_append, touched, ih, touched]; simp [Nat.add_assoc]

variable [DecidableEq E]

omit [DecidableEq E] in
theorem Differ.seesAll_eq (v : List E) : ∀ {D : List (Loc × E)} {s t : Stage E}, Differ zs D U V Q s t → touched L hash zs (D.map (·.2)) v = 0 →
    seesAll L hash s v = seesAll L hash t v := by
  induction v with
  | nil => exact fun _ _ => rfl
  | cons y v ih =>
    intro D s t h h0
    rw [touched] at h0
    have h1 : ¬ ∃ z ∈ zs, ∀ x ∈ D.map (·.2), common L (hash x) (hash z) ≤ common L (hash y) (hash z) := fun hz => by
      rw [if_pos hz] at h0; omega
    rw [if_neg h1, Nat.zero_add] at h0
    have e : sees L hash s.before y = sees L hash t.before y := by
      rw [h.left, h.right]
      refine sees_hidden fun z hz => ?_
      by_contra hno
      refine h1 ⟨z.2, h.mem z hz, fun x hx => ?_⟩
      obtain ⟨w, hw, rfl⟩ := List.mem_map.1 hx
      exact Nat.le_of_not_lt fun hlt => hno ⟨w, hw, hlt⟩
    rw [seesAll, seesAll, e, ih (h.put y) h0]

omit [DecidableEq E] in
theorem Differ.handle (h : Differ zs D U V Q s t) (hD : D ≠ []) : s.handle L = t.handle L := by
  unfold Stage.handle
  rw [h.left, h.right, h.name, h.cntr]
  cases D with
  | nil => exact absurd rfl hD
  | cons x D => rfl

/-- The leaves whose runs depend on something else after one stage than after the other. -/
def leafDiff (L : Nat) (hash : E → Word) : Stage E → Stage E → List (Leaf E) → Nat
  | _, _, [] => 0
  | s, t, l :: ls => (if leafView L hash s l = leafView L hash t l then 0 else 1) + leafDiff L hash (s.leaf l) (t.leaf l) ls

theorem Differ.leaves (hz : zs ≠ []) (ls : List (Leaf E)) : ∀ {D : List (Loc × E)} {s t : Stage E}, Differ zs D U V Q s t → (∀ l ∈ ls, l.2.2 ≠ []) →
    leafDiff L hash s t ls ≤ touched L hash zs (D.map (·.2)) (leafElems ls) := by
  induction ls with
  | nil => exact fun _ _ => Nat.zero_le _
  | cons l ls ih =>
    intro D s t h hne
    have h1 := ih (h.leaf l) fun l' hl => hne l' (List.mem_cons_of_mem _ hl)
    have e : leafElems (l :: ls) = l.2.2 ++ leafElems ls := rfl
    rw [List.map_append, newCells_elems] at h1
    rw [e, touched_append, leafDiff]
    have h2 : (if leafView L hash s l = leafView L hash t l then 0 else 1) ≤ touched L hash zs (D.map (·.2)) l.2.2 := by
      split
      · exact Nat.zero_le _
      · rename_i hv
        refine Nat.pos_of_ne_zero fun h0 => hv ?_
        have hD : D ≠ [] := by
          intro hD
          subst hD
          cases hl : l.2.2 with
          | nil => exact hne l List.mem_cons_self hl
          | cons y v =>
            rw [hl, List.map_nil, touched] at h0
            obtain ⟨z, hz⟩ := List.exists_mem_of_ne_nil _ hz
            rw [if_pos ⟨z, hz, fun x hx => by cases hx⟩] at h0
            omega
        unfold leafView
        rw [h.handle hD, h.seesAll_eq l.2.2 h0]
    omega

omit [DecidableEq E] in
theorem leaf_new (l : Leaf E) (s : Stage E) : (s.leaf l).before = newCells s.name s.cntr l.2.2 ++ s.before := by
  have : ∀ (v : List E) (s : Stage E), (v.foldl Stage.put s).before = newCells s.name s.cntr v ++ s.before := by
    intro v
    induction v with
    | nil => exact fun _ => rfl
    | cons x v ih => intro s; rw [List.foldl_cons, ih, newCells, List.append_assoc]; rfl
  unfold Stage.leaf
  rw [arch_before, this]

omit [DecidableEq E] in
theorem leaves_new (ls : List (Leaf E)) : ∀ s : Stage E, ∃ W : List (Loc × E), (ls.foldl Stage.leaf s).before = W ++ s.before ∧ ∀ w ∈ W, w.2 ∈ leafElems ls := by
  induction ls with
  | nil => exact fun s => ⟨[], rfl, fun _ h => by cases h⟩
  | cons l ls ih =>
    intro s
    obtain ⟨W, e, h⟩ := ih (s.leaf l)
    refine ⟨W ++ newCells s.name s.cntr l.2.2, by rw [List.foldl_cons, e, leaf_new, List.append_assoc], fun w hw => ?_⟩
    show w.2 ∈ l.2.2 ++ leafElems ls
    rw [List.mem_append]
    rcases List.mem_append.1 hw with hw | hw
    · exact .inr (h w hw)
    · refine .inl ?_
      have := List.mem_map_of_mem (f := (·.2)) hw
      rw [newCells_elems, List.mem_reverse] at this
      exact this

theorem diff_count (LV : List (LeafView E)) (ls : List (Leaf E)) : ∀ s t : Stage E, (∀ w ∈ leafViews L hash s ls, w ∈ LV) →
    (leafViews L hash t ls).countP (fun w => decide (w ∉ LV)) ≤ leafDiff L hash s t ls := by
  induction ls with
  | nil => exact fun _ _ _ => Nat.le_refl _
  | cons l ls ih =>
    intro s t h
    rw [leafViews] at h
    have h1 := ih (s.leaf l) (t.leaf l) fun w hw => h w (List.mem_cons_of_mem _ hw)
    rw [leafViews, List.countP_cons, leafDiff]
    by_cases e : leafView L hash s l = leafView L hash t l
    · have : decide (leafView L hash t l ∉ LV) = false := by
        rw [← e]
        simpa using h _ List.mem_cons_self
      rw [this, if_pos e]
      simpa using h1
    · rw [if_neg e]
      split <;> omega

/-- The leaves after an edit that depend on something else. -/
theorem changed_local {P A B S : List (Leaf E)} {l : Leaf E} {n : Name} (hl : l.1 = some n) (hne : ∀ l' ∈ l :: S, l'.2.2 ≠ []) (s0 : Stage E) :
    (leafViews L hash s0 (P ++ B ++ l :: S)).countP (fun w => decide (w ∉ leafViews L hash s0 (P ++ A ++ l :: S))) ≤
      B.length + 1 + touched L hash (leafElems (A ++ B ++ [l])) [] (leafElems S) := by
  have len : ∀ (ls : List (Leaf E)) (s : Stage E), (leafViews L hash s ls).length = ls.length := fun ls s => by
    have := congrArg List.length (views_length (L := L) (hash := hash) ls s)
    simpa using this
  obtain ⟨WA, eA, mA⟩ := leaves_new (A ++ [l]) (P.foldl Stage.leaf s0)
  obtain ⟨WB, eB, mB⟩ := leaves_new (B ++ [l]) (P.foldl Stage.leaf s0)
  have nm : ∀ (C : List (Leaf E)), ((C ++ [l]).foldl Stage.leaf (P.foldl Stage.leaf s0)).name = n ∧ ((C ++ [l]).foldl Stage.leaf (P.foldl Stage.leaf s0)).cntr = 0 := by
    intro C
    rw [List.foldl_append, List.foldl_cons, List.foldl_nil]
    unfold Stage.leaf
    rw [hl]
    exact ⟨rfl, rfl⟩
  have elems : ∀ (C C' : List (Leaf E)), leafElems (C ++ C') = leafElems C ++ leafElems C' := fun C C' => List.flatMap_append
  have hd : Differ (leafElems (A ++ B ++ [l])) [] WA WB (P.foldl Stage.leaf s0).before ((A ++ [l]).foldl Stage.leaf (P.foldl Stage.leaf s0))
      ((B ++ [l]).foldl Stage.leaf (P.foldl Stage.leaf s0)) := by
    refine ⟨eA, eB, (nm A).1.trans (nm B).1.symm, (nm A).2.trans (nm B).2.symm, fun z hz => ?_⟩
    rcases hz with hz | hz
    · have := mA z hz
      simp only [elems, List.mem_append] at this ⊢
      rcases this with h | h
      · exact .inl (.inl h)
      · exact .inr h
    · have := mB z hz
      simp only [elems, List.mem_append] at this ⊢
      rcases this with h | h
      · exact .inl (.inr h)
      · exact .inr h
  have hz : leafElems (A ++ B ++ [l]) ≠ [] := by
    rw [elems]
    intro h
    have h2 := (List.append_eq_nil_iff.1 h).2
    simp only [leafElems, List.flatMap_cons, List.flatMap_nil, List.append_nil] at h2
    exact hne l List.mem_cons_self h2
  have h1 := hd.leaves (L := L) (hash := hash) hz S fun l' h => hne l' (List.mem_cons_of_mem _ h)
  have split : ∀ C : List (Leaf E), leafViews L hash s0 (P ++ C ++ l :: S) = leafViews L hash s0 P ++ (leafViews L hash (P.foldl Stage.leaf s0) (C ++ [l]) ++
      leafViews L hash ((C ++ [l]).foldl Stage.leaf (P.foldl Stage.leaf s0)) S) := by
    intro C
    have : P ++ C ++ l :: S = P ++ ((C ++ [l]) ++ S) := by simp
    rw [this, leafViews_append, leafViews_append]
  have h2 := diff_count (L := L) (hash := hash) (leafViews L hash s0 (P ++ A ++ l :: S)) S ((A ++ [l]).foldl Stage.leaf (P.foldl Stage.leaf s0))
    ((B ++ [l]).foldl Stage.leaf (P.foldl Stage.leaf s0)) (fun w hw => by
      rw [split A]
      exact List.mem_append_right _ (List.mem_append_right _ hw))
  rw [split B, List.countP_append, List.countP_append]
  have h3 : (leafViews L hash s0 P).countP (fun w => decide (w ∉ leafViews L hash s0 (P ++ A ++ l :: S))) = 0 := by
    rw [List.countP_eq_zero]
    intro w hw
    rw [split A]
    simp [hw]
  have h4 := List.countP_le_length (p := fun w => decide (w ∉ leafViews L hash s0 (P ++ A ++ l :: S))) (l := leafViews L hash (P.foldl Stage.leaf s0) (B ++ [l]))
  rw [len, List.length_append, List.length_singleton] at h4
  have h1 : leafDiff L hash ((A ++ [l]).foldl Stage.leaf (P.foldl Stage.leaf s0)) ((B ++ [l]).foldl Stage.leaf (P.foldl Stage.leaf s0)) S ≤
    touched L hash (leafElems (A ++ B ++ [l])) [] (leafElems S) := h1
  omega

end Iodyn.Incr.Uq
