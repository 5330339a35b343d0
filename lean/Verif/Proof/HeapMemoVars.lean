import Verif.Proof.HeapMemoFrom
import Verif.Proof.HeapVars
import Verif.Spec.HeapMemoFrom
/-
Clients with sequences and archive stacks over one store.
-/
namespace Iodyn.Heap
variable {E M : Type} [RazMeta E M] {e : Engine}

/-! ### Lists of variables -/
section
variable {A : Type}

/-- Names of a variable. -/
def gN (g : A → List Name) (o : Option A) : List Name := o.elim [] g

/-- Names of all variables. -/
def gsN (g : A → List Name) (l : List (Option A)) : List Name := l.flatMap (gN g)

theorem gsN_get (g : A → List Name) (l : List (Option A)) (j : Nat) {a : A} (h : l[j]? = some (some a)) : Sub (g a) (gsN g l) := by
  induction l generalizing j with
  | nil => simp at h
  | cons o l ih =>
    intro x
    simp only [gsN, List.flatMap_cons, List.count_append]
    cases j with
    | zero => simp at h; subst h; simp [gN]
    | succ j =>
      have := ih j (by simpa using h) x
      simp only [gsN] at this; omega

theorem gsN_set (g : A → List Name) (l : List (Option A)) (j : Nat) {a : A} (h : l[j]? = some (some a)) (o : Option A) (x : Name) :
    (gsN g (l.set j o)).count x + (g a).count x = (gsN g l).count x + (gN g o).count x := by
  induction l generalizing j with
  | nil => simp at h
  | cons p l ih =>
    cases j with
    | zero =>
      simp at h; subst h
      simp only [gsN, List.set_cons_zero, List.flatMap_cons, List.count_append, gN, Option.elim]; omega
    | succ j =>
      have := ih j (by simpa using h)
      simp only [gsN, List.set_cons_succ, List.flatMap_cons, List.count_append] at this ⊢; omega

theorem gsN_two (g : A → List Name) (l : List (Option A)) {i j : Nat} (hij : i ≠ j) {a b : A} (h : l[i]? = some (some a))
    (h' : l[j]? = some (some b)) : Sub (g a ++ g b) (gsN g l) := by
  intro x
  have h1 := gsN_set g l i h none x
  have h2 := gsN_get g (l.set i none) j (a := b) (by rw [List.getElem?_set_ne hij]; exact h') x
  simp only [gN, Option.elim, List.count_nil] at h1
  simp only [List.count_append]; omega

end

/-! ### Representation -/

/-- Handles for a stack variable. -/
def RepAO (e : Engine) (σ : RMem E M) : Option (Option (ASt E)) → Option (Option (AStack E Nat)) → Prop
  | none, none => True
  | some none, some none => True
  | some (some hs), some (some s) => RepA e σ hs s
  | _, _ => False

/-- Named cells of a stack variable. -/
def skN (e : Engine) (s : AStack E Nat) : List Name := sN e s.archived

/-- Handles for all stacks. -/
def RepSs (e : Engine) (σ : RMem E M) (hss : List (Option (ASt E))) (ss : List (Option (AStack E Nat))) : Prop :=
  hss.length = ss.length ∧ ∀ j : Nat, RepAO e σ hss[j]? ss[j]?

/-- Handles for all variables. -/
structure RepM (e : Engine) (σ : RMem E M) (hst : HSSt E M) (st : SSt E M) : Prop where
  vars : RepV e σ hst.vars st.vars
  stacks : RepSs e σ hst.stacks st.stacks

omit [RazMeta E M] in
theorem RepSs.lookup {σ : RMem E M} {hss : List (Option (ASt E))} {ss : List (Option (AStack E Nat))} (h : RepSs e σ hss ss) (j : Nat) :
    (hss[j]? = none ∧ ss[j]? = none) ∨ (hss[j]? = some none ∧ ss[j]? = some none) ∨
      ∃ hs s, hss[j]? = some (some hs) ∧ ss[j]? = some (some s) ∧ RepA e σ hs s := by
  have := h.2 j
  rcases h1 : hss[j]? with _ | _ | hs <;> rcases h2 : ss[j]? with _ | _ | s <;> rw [h1, h2] at this
  all_goals first
    | exact this.elim
    | exact .inr (.inr ⟨_, _, rfl, rfl, this⟩)
    | exact .inl ⟨rfl, rfl⟩
    | exact .inr (.inl ⟨rfl, rfl⟩)

omit [RazMeta E M] in
theorem RepSs.keep {σ σ' : RMem E M} {hss : List (Option (ASt E))} {ss : List (Option (AStack E Nat))} (h : RepSs e σ hss ss) {N : List Name}
    (hk : Keeps N σ σ') (hd : Dis (gsN (skN e) ss) N) : RepSs e σ' hss ss := by
  refine ⟨h.1, fun j => ?_⟩
  have := h.2 j
  rcases h1 : hss[j]? with _ | _ | hs <;> rcases h2 : ss[j]? with _ | _ | s <;> rw [h1, h2] at this
  all_goals first
    | exact this
    | exact RepA.keep hk this (hd.mono (gsN_get (skN e) ss j h2).subset (List.Subset.refl _))

omit [RazMeta E M] in
theorem RepSs.set {σ σ' : RMem E M} {hss : List (Option (ASt E))} {ss : List (Option (AStack E Nat))} (h : RepSs e σ hss ss) {j : Nat}
    {s : AStack E Nat} (hj : ss[j]? = some (some s)) {ho : Option (ASt E)} {o : Option (AStack E Nat)}
    (hr : RepAO e σ' (some ho) (some o)) {N : List Name} (hk : Keeps N σ σ')
    (hN : ∀ x, (gsN (skN e) ss).count x + N.count x ≤ 1 + (skN e s).count x) : RepSs e σ' (hss.set j ho) (ss.set j o) := by
  have hlt : j < ss.length := by
    rcases Nat.lt_or_ge j ss.length with h | h
    · exact h
    · rw [List.getElem?_eq_none h] at hj; cases hj
  refine ⟨by simp [h.1], fun i => ?_⟩
  by_cases hij : j = i
  · subst hij
    rw [List.getElem?_set_self (by rw [h.1]; exact hlt), List.getElem?_set_self hlt]
    exact hr
  · rw [List.getElem?_set_ne hij, List.getElem?_set_ne hij]
    have := h.2 i
    rcases h1 : hss[i]? with _ | _ | hs <;> rcases h2 : ss[i]? with _ | _ | s' <;> rw [h1, h2] at this
    all_goals first
      | exact this
      | exact RepA.keep hk this (dis_count fun x => by
          have a1 := gsN_two (skN e) ss hij hj h2 x
          have := hN x
          simp only [List.count_append] at a1
          simp only [skN] at *; omega)

omit [RazMeta E M] in
theorem RepSs.append {σ : RMem E M} {hss : List (Option (ASt E))} {ss : List (Option (AStack E Nat))} (h : RepSs e σ hss ss)
    {hs : ASt E} {s : AStack E Nat} (hr : RepA e σ hs s) : RepSs e σ (hss ++ [some hs]) (ss ++ [some s]) := by
  refine ⟨by simp [h.1], fun i => ?_⟩
  rcases Nat.lt_or_ge i ss.length with hl | hl
  · rw [List.getElem?_append_left (by rw [h.1]; exact hl), List.getElem?_append_left hl]
    exact h.2 i
  · rw [List.getElem?_append_right (by rw [h.1]; exact hl), List.getElem?_append_right hl, h.1]
    cases i - ss.length with
    | zero => exact hr
    | succ k => exact trivial

omit [RazMeta E M] in
theorem gsN_append {A : Type} (g : A → List Name) (l : List (Option A)) (a : A) : gsN g (l ++ [some a]) = gsN g l ++ g a := by
  simp [gsN, gN]

/-- All names in use. -/
def allN (e : Engine) (st : SSt E M) : List Name := vN e st.vars ++ gsN (skN e) st.stacks

/-- Names an event brings in. -/
def evN {I : Type} (e : Engine) : SEv E I → List Name
  | .stmt c => cmdN e c
  | .sarch _ n _ => nm e n
  | _ => []

theorem conv_sim {Q : NsPath → Prop} {σ : RMem E M} {hs : ASt E} {s : AStack E Nat} (hA : @RepA ⟨Q⟩ _ E e σ hs s) (hn : (sN e s.archived).Nodup) (w : End) :
    Sim (convH e w hs) σ (w.conv s) (fun b a σ' => RepRT e σ' a b ∧ Sub (tN e b.tree) (sN e s.archived) ∧ Keeps (sN e s.archived) σ σ') := by
  cases w with
  | tail => exact memoFromTail_sim hA hn
  | head => exact memoFromHead_sim hA hn

omit [RazMeta E M] in
theorem archive_names (s : AStack E Nat) (n : Option Name) (m : Nat) : Sub (skN e (s.archive n m).1) (skN e s ++ nm e n) := by
  intro x
  unfold AStack.archive skN
  split
  · simp only [List.count_append]; omega
  · simp only [Stack.push, sN, List.count_append]; omega

theorem sev_sim {σ : RMem E M} {hst : HSSt E M} {st : SSt E M} (h : RepM e σ hst st) (ev : SEv E (RazMeta.Index E M))
    (hn : (allN e st ++ evN e ev).Nodup) :
    Sim (hst.step e ev) σ (st.step ev) (fun b a σ' => RepM e σ' a.1 b.1 ∧ a.2 = b.2 ∧
      Sub (allN e b.1) (allN e st ++ (evN e ev ++ if ev.isClone then allN e st else []))) := by
  have hcn := nodup_count hn
  simp only [allN, List.count_append] at hcn
  have nop : ∀ w : List Name, Sub (allN e st) (allN e st ++ w) := fun w x => by simp only [List.count_append]; omega
  obtain ⟨hvs, hss⟩ := hst
  obtain ⟨vs, ss⟩ := st
  obtain ⟨hV, hS⟩ := h
  simp only at hV hS hcn
  cases ev with
  | stmt c =>
    unfold HSSt.step SSt.step
    refine (vars_step_keeps hV c (count_nodup fun x => by
      have := hcn x; simp only [evN] at this; simp only [List.count_append]; omega)).bind ?_
    rintro ⟨vs', o⟩ ⟨hvs', o'⟩ σ' - ⟨k1, k2, k3, k4⟩
    simp only at k1 k2 k3; subst k2
    refine Sim.pure ⟨⟨k1, hS.keep k4 (dis_count fun x => ?_)⟩, rfl, fun x => ?_⟩
    · have := hcn x; simp only [evN] at this; simp only [List.count_append]; omega
    · have := k3 x
      simp only [allN, evN, SEv.isClone, List.count_append] at *
      by_cases hc : c.isClone = true <;> simp only [hc, Bool.false_eq_true, if_true, if_false, List.count_append, List.count_nil] at * <;> omega
  | stack =>
    refine Sim.pure ⟨⟨hV, hS.append RepA.new⟩, rfl, fun x => ?_⟩
    simp only [allN, gsN_append, List.count_append]
    have : (skN e (AStack.new : AStack E Nat)).count x = 0 := by simp [skN, AStack.new, sN]
    omega
  | sclone j =>
    unfold HSSt.step SSt.step
    rcases hS.lookup j with ⟨h1, h2⟩ | ⟨h1, h2⟩ | ⟨hs, s, h1, h2, h3⟩ <;> simp only [h1, h2]
    · exact Sim.pure ⟨⟨hV, hS⟩, rfl, nop _⟩
    · exact Sim.pure ⟨⟨hV, hS⟩, rfl, nop _⟩
    · refine Sim.pure ⟨⟨hV, hS.append h3⟩, rfl, fun x => ?_⟩
      have := gsN_get (skN e) ss j h2 x
      simp only [allN, gsN_append, SEv.isClone, if_true, List.count_append]; omega
  | spush j y =>
    unfold HSSt.step SSt.step
    rcases hS.lookup j with ⟨h1, h2⟩ | ⟨h1, h2⟩ | ⟨hs, s, h1, h2, h3⟩ <;> simp only [h1, h2]
    · exact Sim.pure ⟨⟨hV, hS⟩, rfl, nop _⟩
    · exact Sim.pure ⟨⟨hV, hS⟩, rfl, nop _⟩
    · refine Sim.pure ⟨⟨hV, hS.set h2 (o := some (s.push y)) (ho := some (hs.push y)) (RepA.push h3 y) (Keeps.refl [] _) (fun x => ?_)⟩, rfl, fun x => ?_⟩
      · have := hcn x; simp only [List.count_nil]; omega
      · have := gsN_set (skN e) ss j h2 (some (s.push y)) x
        have : (gN (skN e) (some (s.push y))).count x = (skN e s).count x := rfl
        simp only [allN, List.count_append]; omega
  | sarch j n lev =>
    unfold HSSt.step SSt.step
    rcases hS.lookup j with ⟨h1, h2⟩ | ⟨h1, h2⟩ | ⟨hs, s, h1, h2, h3⟩ <;> simp only [h1, h2]
    · exact Sim.pure ⟨⟨hV, hS⟩, rfl, nop _⟩
    · exact Sim.pure ⟨⟨hV, hS⟩, rfl, nop _⟩
    · have hg := gsN_get (skN e) ss j h2
      obtain ⟨hs', σ', a1, a2, a3⟩ := archive_run h3 n lev (dis_count fun x => by
        have := hcn x; have := hg x; simp only [evN, skN] at *; omega)
      refine Sim.step a1 (Sim.pure ⟨⟨hV.keep a3 (dis_count fun x => ?_), hS.set h2 (o := some _) (ho := some hs') a2 a3 (fun x => ?_)⟩, rfl, fun x => ?_⟩)
      · have := hcn x; simp only [evN] at this; omega
      · have := hcn x; simp only [evN] at this; omega
      · have q1 := gsN_set (skN e) ss j h2 (some (s.archive n lev).1) x
        have q2 : (gN (skN e) (some (s.archive n lev).1)).count x = (skN e (s.archive n lev).1).count x := rfl
        have q3 := archive_names (e := e) s n lev x
        simp only [allN, evN, List.count_append] at *; omega
  | conv w j =>
    unfold HSSt.step SSt.step
    rcases hS.lookup j with ⟨h1, h2⟩ | ⟨h1, h2⟩ | ⟨hs, s, h1, h2, h3⟩ <;> simp only [h1, h2]
    · exact Sim.pure ⟨⟨hV, hS⟩, rfl, nop _⟩
    · exact Sim.pure ⟨⟨hV, hS⟩, rfl, nop _⟩
    · have hg := gsN_get (skN e) ss j h2
      refine (conv_sim h3 (count_nodup fun x => by have := hcn x; have := hg x; simp only [skN] at *; omega) w).bind ?_
      rintro t ht σ' - ⟨k1, k2, k3⟩
      refine Sim.pure ⟨⟨(hV.keep k3 (dis_count fun x => ?_)).append (o := some (.tree t)) (ho := some (.tree ht)) k1,
        hS.set h2 (o := none) (ho := none) trivial k3 (fun x => ?_)⟩, rfl, fun x => ?_⟩
      · have := hcn x; have := hg x; simp only [skN] at *; omega
      · have := hcn x; simp only [skN] at *; omega
      · have q1 := gsN_set (skN e) ss j h2 none x
        have q2 := k2 x
        simp only [allN, vN_append, oN, stN, Option.elim, gN, skN, List.count_append, List.count_nil] at *; omega

/-! ### Whole programs -/

/-- Programs for which the variables never share a named cell, cf. `Fine`. -/
def FineM (e : Engine) (st : SSt E M) (l : List (SEv E (RazMeta.Index E M))) : Prop :=
  (allN e st = [] ∧ l.flatMap (evN e) = []) ∨ ((∀ ev ∈ l, ev.isClone = false) ∧ (allN e st ++ l.flatMap (evN e)).Nodup)

theorem FineM.head {st : SSt E M} {ev : SEv E (RazMeta.Index E M)} {l : List (SEv E (RazMeta.Index E M))}
    (hf : FineM e st (ev :: l)) : (allN e st ++ evN e ev).Nodup := by
  rcases hf with ⟨h1, h2⟩ | ⟨-, h2⟩
  · simp only [List.flatMap_cons, List.append_eq_nil_iff] at h2
    rw [h1, h2.1]; simp
  · rw [List.flatMap_cons, ← List.append_assoc] at h2
    exact (List.nodup_append.1 h2).1

theorem FineM.tail {st st' : SSt E M} {ev : SEv E (RazMeta.Index E M)} {l : List (SEv E (RazMeta.Index E M))}
    (hf : FineM e st (ev :: l)) (k3 : Sub (allN e st') (allN e st ++ (evN e ev ++ if ev.isClone then allN e st else []))) :
    FineM e st' l := by
  rcases hf with ⟨h1, h2⟩ | ⟨h1, h2⟩
  · simp only [List.flatMap_cons, List.append_eq_nil_iff] at h2
    refine .inl ⟨sub_nil ?_, h2.2⟩
    rw [h1, h2.1] at k3
    simpa using k3
  · refine .inr ⟨fun x hx => h1 x (List.mem_cons_of_mem _ hx), count_nodup fun x => ?_⟩
    rw [h1 ev List.mem_cons_self] at k3
    have := k3 x
    have := nodup_count h2 x
    simp only [List.flatMap_cons, List.count_append, Bool.false_eq_true, if_false, List.count_nil] at *; omega

theorem mrun_sim : ∀ (l : List (SEv E (RazMeta.Index E M))) {σ : RMem E M} {hst : HSSt E M} {st : SSt E M}, RepM e σ hst st →
    FineM e st l → Sim (hst.run e l) σ (st.run l) (fun b a σ' => RepM e σ' a.1 b.1 ∧ a.2 = b.2) := by
  intro l
  induction l with
  | nil => intro σ hst st h _; exact Sim.pure ⟨h, rfl⟩
  | cons ev l ih =>
    intro σ hst st h hf
    unfold HSSt.run SSt.run
    refine (sev_sim h ev hf.head).bind ?_
    rintro ⟨st', o⟩ ⟨hst', o'⟩ σ' - ⟨k1, k2, k3⟩
    simp only at k1 k2 k3; subst k2
    refine (ih k1 (hf.tail k3)).bind ?_
    rintro ⟨st'', os⟩ ⟨hst'', os'⟩ σ'' - ⟨q1, q2⟩
    simp only at q1 q2; subst q2
    exact Sim.pure ⟨q1, rfl⟩

theorem RepM.empty : RepM e (Store.empty : RMem E M) ⟨[], []⟩ ⟨[], []⟩ :=
  ⟨⟨rfl, fun i h1 _ => by simp at h1⟩, rfl, fun j => trivial⟩

omit [RazMeta E M] in
theorem evN_naive {I : Type} (ev : SEv E I) : evN .naive ev = [] := by
  cases ev with
  | stmt c => exact naive_nil c
  | _ => rfl

omit [RazMeta E M] in
theorem evN_count {I : Type} (ev : SEv E I) (x : Name) :
    (evN .dcg ev).count x ≤ ev.names.count x + (match x with | .pair m (.str "tree") => ev.names.count m | _ => 0) := by
  cases ev with
  | stmt c => exact cmdN_count c x
  | sarch j n lev => simp only [evN, SEv.names, nm]; omega
  | _ => simp [evN]

theorem ssafe_fine {l : List (SEv E (RazMeta.Index E M))} (h : SSafe e l) : FineM e (⟨[], []⟩ : SSt E M) l := by
  cases e with
  | naive => exact .inl ⟨rfl, by rw [List.flatMap_eq_nil_iff]; intro c _; exact evN_naive c⟩
  | dcg =>
    have hcnt : ∀ (x : Name) (l : List (SEv E (RazMeta.Index E M))), (l.flatMap (evN .dcg)).count x ≤ (l.flatMap SEv.names).count x +
        (match x with | .pair m (.str "tree") => (l.flatMap SEv.names).count m | _ => 0) := by
      intro x l
      induction l with
      | nil => simp
      | cons c l ih =>
        have h1 := evN_count c x
        simp only [List.flatMap_cons, List.count_append]
        split at ih <;> simp_all <;> omega
    rcases h with h | h | ⟨h1, h2, h3⟩
    · cases h
    · refine .inl ⟨rfl, sub_nil fun x => ?_⟩
      have := hcnt x l
      rw [h] at this
      split at this <;> simpa using this
    · refine .inr ⟨h3, count_nodup fun x => ?_⟩
      have hx := hcnt x l
      have hd := nodup_count h1
      have e0 : (allN .dcg (⟨[], []⟩ : SSt E M)).count x = 0 := rfl
      rw [List.count_append, e0]
      split at hx
      · rename_i m
        have : (l.flatMap SEv.names).count (.pair m (.str "tree")) = 0 := by
          rw [List.count_eq_zero]
          intro hm
          exact h2 _ hm m rfl
        have := hd m
        omega
      · have := hd x
        omega

end Iodyn.Heap
