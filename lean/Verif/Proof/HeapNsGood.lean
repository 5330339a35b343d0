import Verif.Proof.HeapNs
/-
Programs that are `Owned`: each name used once and no clones; a version of a sequence edited in a namespace.
-/
namespace Iodyn
variable {E M : Type} [RazMeta E M]

namespace Heap

/-- From one state to another. -/
inductive Runs : Vars E M → Feet → List (NsPath × Cmd E (RazMeta.Index E M)) → Vars E M → Feet → Prop
  | nil {vs : Vars E M} {g : Feet} : Runs vs g [] vs g
  | cons {vs vs' vs'' : Vars E M} {g g' g'' : Feet} {p : NsPath} {c : Cmd E (RazMeta.Index E M)} {o : Out E} {cs} :
    g.step vs p c = some g' → vs.step c = .ok (vs', o) → Runs vs' g' cs vs'' g'' → Runs vs g ((p, c) :: cs) vs'' g''

theorem owned_append {b : List (NsPath × Cmd E (RazMeta.Index E M))} : ∀ (a : List (NsPath × Cmd E (RazMeta.Index E M))) {vs : Vars E M} {g : Feet},
    owned vs g a = true → (∀ vs' g', Runs vs g a vs' g' → owned vs' g' b = true) → owned vs g (a ++ b) = true := by
  intro a
  induction a with
  | nil => intro vs g _ h; exact h _ _ .nil
  | cons c a ih =>
    obtain ⟨p, c⟩ := c
    intro vs g h h'
    unfold owned at h
    show owned vs g ((p, c) :: (a ++ b)) = true
    unfold owned
    cases hg : g.step vs p c with
    | none => rw [hg] at h; cases h
    | some g' =>
      rw [hg] at h
      simp only at h ⊢
      cases hs : vs.step c with
      | error q => rfl
      | ok r =>
        obtain ⟨vs', o⟩ := r
        rw [hs] at h
        exact ih h (fun vs'' g'' hr => h' _ _ (.cons hg hs hr))

/-- All names of the variables. -/
def footN (g : Feet) : List Name := g.flatMap (fun o => o.elim [] Foot.names)

theorem footN_set (g : Feet) : ∀ (i : Nat), i < g.length → ∀ (o : Option Foot) (x : Name),
    (footN (g.set i o)).count x + (g[i]?.join.elim [] Foot.names).count x = (footN g).count x + (o.elim [] Foot.names).count x := by
  induction g with
  | nil => intro i h; simp at h
  | cons a g ih =>
    intro i h o x
    cases i with
    | zero => simp [footN]; omega
    | succ i =>
      have := ih i (by simpa using h) o x
      simp only [footN, List.set_cons_succ, List.flatMap_cons, List.count_append, List.getElem?_cons_succ] at this ⊢
      omega

theorem footN_get (g : Feet) (i : Nat) (x : Name) : (g[i]?.join.elim [] Foot.names).count x ≤ (footN g).count x := by
  by_cases h : i < g.length
  · have := footN_set g i h none x
    simp only [Option.elim, List.count_nil] at this ⊢; omega
  · rw [List.getElem?_eq_none (by omega)]; simp

theorem footN_two (g : Feet) {i j : Nat} (hij : i ≠ j) (x : Name) :
    (g[i]?.join.elim [] Foot.names).count x + (g[j]?.join.elim [] Foot.names).count x ≤ (footN g).count x := by
  by_cases h : i < g.length
  · have h1 := footN_set g i h none x
    have h2 := footN_get (g.set i none) j x
    rw [join_set, if_neg (by omega)] at h2
    have h3 : ((none : Option Foot).elim [] Foot.names).count x = 0 := rfl
    omega
  · rw [List.getElem?_eq_none (by omega)]
    have := footN_get g j x
    simpa using this

theorem footN_write (g : Feet) (p : NsPath) (w : List Name) (x : Name) : (footN (g.write p w)).count x ≤ (footN g).count x := by
  induction g with
  | nil => simp [footN, Feet.write]
  | cons a g ih =>
    simp only [footN, Feet.write, List.map_cons, List.flatMap_cons, List.count_append] at ih ⊢
    have : ((a.filter (fun f => !f.hit p w)).elim [] Foot.names).count x ≤ (a.elim [] Foot.names).count x := by
      cases a with
      | none => simp
      | some f =>
        simp only [Option.filter]
        split <;> simp
    omega

/-- All variables but `k` are usable, in the namespaces `S`, and no name of theirs or in `W` occurs twice. -/
structure Good (k : Nat) (S : List NsPath) (vs : Vars E M) (g : Feet) (W : List Name) : Prop where
  len : g.length = vs.length
  live : ∀ j s, j ≠ k → vs[j]? = some (some s) → ∃ f, g[j]?.join = some f
  spaces : ∀ j f, j ≠ k → g[j]?.join = some f → f.spaces ⊆ S
  once : ∀ x, (footN (g.set k none)).count x + W.count x ≤ 1

omit [RazMeta E M] in
theorem Good.mono {k : Nat} {S : List NsPath} {vs : Vars E M} {g : Feet} {W W' : List Name} (h : Good k S vs g W) (hW : Sub W' W) : Good k S vs g W' :=
  ⟨h.len, h.live, h.spaces, fun x => by have := h.once x; have := hW x; omega⟩

omit [RazMeta E M] in
theorem Good.append {k : Nat} {S : List NsPath} {vs : Vars E M} {g : Feet} {W : List Name} (h : Good k S vs g W) (s : St E M) {f : Foot}
    (hn : f.names = []) (hf : f.spaces ⊆ S) : Good k S (vs ++ [some s]) (g ++ [some f]) W := by
  refine ⟨by simp [h.len], fun j s' hj hs => ?_, fun j f' hj hf' => ?_, fun x => ?_⟩
  · rw [join_append, h.len]
    by_cases hl : j < vs.length
    · rw [if_pos hl]
      rw [List.getElem?_append_left hl] at hs
      exact h.live j s' hj hs
    · rw [if_neg hl]
      have : j < (vs ++ [some s]).length := (List.getElem?_eq_some_iff.1 hs).1
      rw [if_pos (by simp at this; omega)]
      exact ⟨f, rfl⟩
  · rw [join_append] at hf'
    split at hf'
    · exact h.spaces j f' hj hf'
    · split at hf'
      · cases hf'; exact hf
      · cases hf'
  · have := h.once x
    by_cases hk : k < g.length
    · rw [List.set_append_left _ _ hk]
      simpa [footN, hn] using this
    · by_cases hk' : k = g.length
      · subst hk'
        rw [List.set_append_right _ _ (by omega)]
        rw [List.set_eq_of_length_le (by omega)] at this
        simpa [footN] using this
      · rw [List.set_eq_of_length_le (by simp; omega)]
        rw [List.set_eq_of_length_le (by omega)] at this
        simpa [footN, hn] using this

theorem Good.step {k : Nat} {S : List NsPath} {vs : Vars E M} {g : Feet} {W : List Name} {p : NsPath} {c : Cmd E (RazMeta.Index E M)}
    (h : Good k S vs g (c.cells ++ W)) (hp : p ∈ S) (hc : c.isClone = false) (hk : c.uses k = false) :
    ∃ g', g.step vs p c = some g' ∧ ∀ vs' o, vs.step c = .ok (vs', o) → Good k S vs' g' W := by
  have hW : Good k S vs g W := h.mono (fun x => by simp only [List.count_append]; omega)
  have once := h.once
  simp only [List.count_append] at once
  -- names of the feet other than `k`
  have hget : ∀ j, j ≠ k → ∀ x, (g[j]?.join.elim [] Foot.names).count x ≤ (footN (g.set k none)).count x := fun j hj x => by
    have := footN_get (g.set k none) j x
    rwa [join_set, if_neg (by omega)] at this
  have htwo : ∀ i j, i ≠ k → j ≠ k → i ≠ j → ∀ x, (g[i]?.join.elim [] Foot.names).count x + (g[j]?.join.elim [] Foot.names).count x ≤
      (footN (g.set k none)).count x := fun i j hi hj hij x => by
    have := footN_two (g.set k none) hij x
    rwa [join_set, if_neg (by omega), join_set, if_neg (by omega)] at this
  have hwr : ∀ (q : NsPath) (w : List Name) (j : Nat), (g.write q w)[j]?.join = g[j]?.join.filter (fun f => !f.hit q w) := by
    intro q w j
    simp only [Feet.write, List.getElem?_map]
    rcases g[j]? with _ | (_ | f) <;> rfl
  have hws : ∀ (q : NsPath) (w : List Name), (g.write q w).set k none = Feet.write (g.set k none) q w := by
    intro q w; simp [Feet.write, List.map_set]
  cases c with
  | new =>
    refine ⟨_, rfl, fun vs' o hs => ?_⟩
    cases hs
    exact hW.append _ rfl (by simpa using hp)
  | fromVec v =>
    refine ⟨_, rfl, fun vs' o hs => ?_⟩
    simp only [Vars.step, RazTree.fromVec] at hs
    cases v with
    | nil => cases hs; exact hW
    | cons x v =>
      simp only [reduceCtorEq, if_false, bind, Except.bind] at hs
      split at hs
      · cases hs
      · rename_i r hr
        split at hr
        · cases hr
        · cases hr
          cases hs
          exact hW.append _ rfl (by simpa using hp)
  | clone i => cases hc
  | op i o =>
    have hik : i ≠ k := by simpa [Cmd.uses] using hk
    simp only [Feet.step, Vars.step]
    rcases hv : vs[i]? with _ | (_ | s)
    · exact ⟨_, rfl, fun vs' o hs => by cases hs; exact hW⟩
    · exact ⟨_, rfl, fun vs' o hs => by cases hs; exact hW⟩
    · obtain ⟨f, hf⟩ := h.live i s hik hv
      have hi : i < g.length := by rw [h.len]; exact (List.getElem?_eq_some_iff.1 hv).1
      have hfn : ∀ x, f.names.count x ≤ (footN (g.set k none)).count x := fun x => by have := hget i hik x; rwa [hf] at this
      have hnd : (f.names ++ (Cmd.op i o).cells).Nodup := count_nodup fun x => by
        have := once x; have := hfn x; simp only [List.count_append]; omega
      simp only [hf, if_pos hnd]
      refine ⟨_, rfl, fun vs' o' hs => ?_⟩
      obtain ⟨s', hs'⟩ : ∃ s', vs' = vs.set i (some s') := by
        simp only [bind, Except.bind] at hs
        split at hs
        · cases hs
        · cases hs; exact ⟨_, rfl⟩
      subst hs'
      have hother : ∀ j, j ≠ i → j ≠ k → (g.write p (f.names ++ (Cmd.op i o).cells))[j]?.join = g[j]?.join := by
        intro j hj hjk
        rw [hwr]
        cases hg : g[j]?.join with
        | none => rfl
        | some f' =>
          rw [Option.filter_eq_some_iff]
          refine ⟨rfl, ?_⟩
          have : ∀ x ∈ f.names ++ (Cmd.op i o).cells, x ∉ f'.names := fun x hx hx' => by
            have h1 := htwo i j hik hjk (fun e => hj e.symm) x
            rw [hf, hg] at h1
            simp only [Option.elim] at h1
            have h2 := once x
            have h3 : 0 < f'.names.count x := List.count_pos_iff.2 hx'
            have h4 : 0 < (f.names ++ (Cmd.op i o).cells).count x := List.count_pos_iff.2 hx
            simp only [List.count_append] at h4
            omega
          simp only [Foot.hit, Bool.not_eq_true', Bool.and_eq_false_iff, List.any_eq_false, decide_eq_true_eq]
          exact .inr this
      refine ⟨by simp [Feet.write, h.len], fun j s2 hj hs2 => ?_, fun j f2 hj hf2 => ?_, fun x => ?_⟩
      · by_cases hji : j = i
        · subst hji
          rw [join_set, if_pos ⟨rfl, by simpa [Feet.write] using hi⟩]
          exact ⟨_, rfl⟩
        · rw [join_set, if_neg (by omega), hother j hji hj]
          rw [List.getElem?_set_ne (by omega)] at hs2
          exact h.live j s2 hj hs2
      · by_cases hji : j = i
        · subst hji
          rw [join_set, if_pos ⟨rfl, by simpa [Feet.write] using hi⟩] at hf2
          cases hf2
          exact List.cons_subset.2 ⟨hp, h.spaces j f hj hf⟩
        · rw [join_set, if_neg (by omega), hother j hji hj] at hf2
          exact h.spaces j f2 hj hf2
      · have hcomm : ((g.write p (f.names ++ (Cmd.op i o).cells)).set i (some ⟨f.names ++ (Cmd.op i o).cells, p :: f.spaces⟩)).set k none =
            (Feet.write (g.set k none) p (f.names ++ (Cmd.op i o).cells)).set i (some ⟨f.names ++ (Cmd.op i o).cells, p :: f.spaces⟩) := by
          rw [List.set_comm _ _ hik, hws]
        rw [hcomm]
        have h1 := footN_set (Feet.write (g.set k none) p (f.names ++ (Cmd.op i o).cells)) i (by simpa [Feet.write] using hi)
          (some ⟨f.names ++ (Cmd.op i o).cells, p :: f.spaces⟩) x
        -- the names of the others
        have h2 := footN_set (g.set k none) i (by simpa using hi) none x
        have h3 : (footN ((Feet.write (g.set k none) p (f.names ++ (Cmd.op i o).cells)).set i none)).count x ≤ (footN ((g.set k none).set i none)).count x := by
          have : (Feet.write (g.set k none) p (f.names ++ (Cmd.op i o).cells)).set i none =
              Feet.write ((g.set k none).set i none) p (f.names ++ (Cmd.op i o).cells) := by simp [Feet.write, List.map_set]
          rw [this]; exact footN_write _ _ _ x
        have h4 := footN_set (Feet.write (g.set k none) p (f.names ++ (Cmd.op i o).cells)) i (by simpa [Feet.write] using hi) none x
        rw [join_set, if_neg (by omega), hf] at h2
        simp only [Option.elim, List.count_append, List.count_nil] at h1 h2 h4
        have := once x
        omega
  | join i lev nm j =>
    have hik : i ≠ k := by intro e; simp [Cmd.uses, e] at hk
    have hjk : j ≠ k := by intro e; simp [Cmd.uses, e] at hk
    simp only [Feet.step, Vars.step]
    split
    · rename_i a b hvi hvj
      simp only [hvi, hvj]
      by_cases hij : i = j
      · rw [if_pos hij, if_pos hij]
        exact ⟨_, rfl, fun vs' o hs => by cases hs; exact hW⟩
      · rw [if_neg hij, if_neg hij]
        obtain ⟨fa, hfa⟩ := h.live i _ hik hvi
        obtain ⟨fb, hfb⟩ := h.live j _ hjk hvj
        have hi : i < g.length := by rw [h.len]; exact (List.getElem?_eq_some_iff.1 hvi).1
        have hj : j < g.length := by rw [h.len]; exact (List.getElem?_eq_some_iff.1 hvj).1
        have hab : ∀ x, fa.names.count x + fb.names.count x ≤ (footN (g.set k none)).count x := fun x => by
          have := htwo i j hik hjk hij x; rwa [hfa, hfb] at this
        have hnd : (fa.names ++ fb.names ++ (Cmd.join (E := E) (I := RazMeta.Index E M) i lev nm j).cells).Nodup := count_nodup fun x => by
          have := once x; have := hab x; simp only [List.count_append]; omega
        simp only [hfa, hfb, if_pos hnd]
        refine ⟨_, rfl, fun vs' o' hs => ?_⟩
        generalize hw : (Cmd.join (E := E) (I := RazMeta.Index E M) i lev nm j).cells = w at *
        obtain ⟨s', hs'⟩ : ∃ s', vs' = (vs.set i none).set j s' := by
          simp only [bind, Except.bind] at hs
          split at hs
          · cases hs
          · split at hs
            · cases hs; exact ⟨_, rfl⟩
            · cases hs; exact ⟨_, rfl⟩
        subst hs'
        have hother : ∀ l, l ≠ k → (g.write p w)[l]?.join = g[l]?.join := by
          intro l hlk
          rw [hwr]
          cases hg : g[l]?.join with
          | none => rfl
          | some f' =>
            rw [Option.filter_eq_some_iff]
            refine ⟨rfl, ?_⟩
            have : ∀ x ∈ w, x ∉ f'.names := fun x hx hx' => by
              have h1 := hget l hlk x
              rw [hg] at h1
              simp only [Option.elim] at h1
              have h2 := once x
              have h3 : 0 < f'.names.count x := List.count_pos_iff.2 hx'
              have h4 : 0 < w.count x := List.count_pos_iff.2 hx
              omega
            simp only [Foot.hit, Bool.not_eq_true', Bool.and_eq_false_iff, List.any_eq_false, decide_eq_true_eq]
            exact .inr this
        refine ⟨by simp [Feet.write, h.len], fun l s2 hl hs2 => ?_, fun l f2 hl hf2 => ?_, fun x => ?_⟩
        · by_cases hlj : l = j
          · subst hlj
            rw [join_set, if_pos ⟨rfl, by simpa [Feet.write] using hj⟩]
            exact ⟨_, rfl⟩
          · rw [List.getElem?_set_ne (by omega)] at hs2
            by_cases hli : l = i
            · subst hli
              rw [List.getElem?_set_self (by rw [← h.len]; exact hi)] at hs2
              cases hs2
            · rw [List.getElem?_set_ne (by omega)] at hs2
              rw [join_set, if_neg (by omega), join_set, if_neg (by omega), hother l hl]
              exact h.live l s2 hl hs2
        · by_cases hlj : l = j
          · subst hlj
            rw [join_set, if_pos ⟨rfl, by simpa [Feet.write] using hj⟩] at hf2
            cases hf2
            exact List.cons_subset.2 ⟨hp, List.append_subset.2 ⟨h.spaces i fa hik hfa, h.spaces l fb hl hfb⟩⟩
          · rw [join_set, if_neg (by omega)] at hf2
            by_cases hli : l = i
            · subst hli
              rw [join_set, if_pos ⟨rfl, by simpa [Feet.write] using hi⟩] at hf2
              cases hf2
            · rw [join_set, if_neg (by omega), hother l hl] at hf2
              exact h.spaces l f2 hl hf2
        · have hcomm : ((List.set (g.write p w) i none).set j (some ⟨fa.names ++ fb.names ++ w, p :: (fa.spaces ++ fb.spaces)⟩)).set k none =
              (Feet.write ((g.set k none).set i none) p w).set j (some ⟨fa.names ++ fb.names ++ w, p :: (fa.spaces ++ fb.spaces)⟩) := by
            rw [List.set_comm _ _ hjk]
            show ((List.set (g.write p w) i none).set k none).set j _ = _
            rw [List.set_comm _ _ hik, hws]
            simp [Feet.write, List.map_set]
          show (footN (((List.set (g.write p w) i none).set j _).set k none)).count x + _ ≤ 1
          rw [hcomm]
          have h1 := footN_set (Feet.write ((g.set k none).set i none) p w) j (by simpa [Feet.write] using hj)
            (some ⟨fa.names ++ fb.names ++ w, p :: (fa.spaces ++ fb.spaces)⟩) x
          have h2 := footN_set (Feet.write ((g.set k none).set i none) p w) j (by simpa [Feet.write] using hj) none x
          have h3 : (footN ((Feet.write ((g.set k none).set i none) p w).set j none)).count x ≤ (footN (((g.set k none).set i none).set j none)).count x := by
            have : (Feet.write ((g.set k none).set i none) p w).set j none =
                Feet.write (((g.set k none).set i none).set j none) p w := by simp [Feet.write, List.map_set]
            rw [this]; exact footN_write _ _ _ x
          have h4 := footN_set (g.set k none) i (by simpa using hi) none x
          have h5 := footN_set ((g.set k none).set i none) j (by simpa using hj) none x
          rw [join_set, if_neg (by omega), hfa] at h4
          rw [join_set, if_neg (by omega), join_set, if_neg (by omega), hfb] at h5
          simp only [Option.elim, List.count_append, List.count_nil] at h1 h2 h4 h5
          have := once x
          omega
    · rename_i hno
      refine ⟨_, rfl, fun vs' o hs => ?_⟩
      split at hs
      · rename_i a b h1 h2; exact absurd h2 (hno a b h1)
      · cases hs; exact hW

theorem good_owned {k : Nat} {S : List NsPath} : ∀ (cs : List (NsPath × Cmd E (RazMeta.Index E M))) {vs : Vars E M} {g : Feet} {W : List Name},
    Good k S vs g (cs.flatMap (fun c => c.2.cells) ++ W) → (∀ c ∈ cs, c.1 ∈ S ∧ c.2.isClone = false ∧ c.2.uses k = false) →
    owned vs g cs = true ∧ ∀ vs' g', Runs vs g cs vs' g' → Good k S vs' g' W := by
  intro cs
  induction cs with
  | nil =>
    intro vs g W h _
    refine ⟨rfl, fun vs' g' hr => ?_⟩
    cases hr
    simpa using h
  | cons c cs ih =>
    obtain ⟨p, c⟩ := c
    intro vs g W h hc
    obtain ⟨h1, h2, h3⟩ := hc _ List.mem_cons_self
    rw [List.flatMap_cons, List.append_assoc] at h
    obtain ⟨g', hg, hgood⟩ := h.step h1 h2 h3
    refine ⟨?_, fun vs'' g'' hr => ?_⟩
    · unfold owned
      rw [hg]
      simp only
      cases hs : vs.step c with
      | error q => rfl
      | ok r => exact (ih (hgood _ _ hs) (fun c hc' => hc c (List.mem_cons_of_mem _ hc'))).1
    · cases hr with
      | cons a b r =>
        rw [hg] at a
        cases a
        exact (ih (hgood _ _ b) (fun c hc' => hc c (List.mem_cons_of_mem _ hc'))).2 _ _ r

/-! ### A version of a sequence -/

/-- Edits of variable `k` outside of the namespaces of the others. -/
theorem edits_owned {k : Nat} {S : List NsPath} {W : List Name} : ∀ (es : List (NsPath × ApiOp E (RazMeta.Index E M))) {vs : Vars E M} {g : Feet},
    Good k S vs g W → (∀ s, vs[k]? = some (some s) → ∃ f, g[k]?.join = some f ∧ (f.names ++ es.flatMap (fun c => (Cmd.op k c.2).cells)).Nodup) →
    (∀ c ∈ es, c.1 ∉ S) →
    owned vs g (es.map (fun c => (c.1, Cmd.op k c.2))) = true ∧
      ∀ vs' g', Runs vs g (es.map (fun c => (c.1, Cmd.op k c.2))) vs' g' → Good k S vs' g' W := by
  intro es
  induction es with
  | nil =>
    intro vs g h _ _
    refine ⟨rfl, fun vs' g' hr => ?_⟩
    cases hr; exact h
  | cons c es ih =>
    obtain ⟨p, o⟩ := c
    intro vs g h hv hS
    have hpS := hS _ List.mem_cons_self
    have hS' : ∀ c ∈ es, c.1 ∉ S := fun c hc => hS c (List.mem_cons_of_mem _ hc)
    -- the state after the first edit
    obtain ⟨g', hg, hgood⟩ : ∃ g', g.step vs p (Cmd.op k o) = some g' ∧ ∀ vs' o', vs.step (Cmd.op k o) = .ok (vs', o') → Good k S vs' g' W ∧
        (∀ s, vs'[k]? = some (some s) → ∃ f, g'[k]?.join = some f ∧ (f.names ++ es.flatMap (fun c => (Cmd.op k c.2).cells)).Nodup) := by
      simp only [Feet.step, Vars.step]
      rcases hvk : vs[k]? with _ | (_ | s)
      · exact ⟨_, rfl, fun vs' o' hs => by cases hs; exact ⟨h, fun s hs => by rw [hvk] at hs; cases hs⟩⟩
      · exact ⟨_, rfl, fun vs' o' hs => by cases hs; exact ⟨h, fun s hs => by rw [hvk] at hs; cases hs⟩⟩
      · obtain ⟨f, hf, hn⟩ := hv s hvk
        have hk : k < g.length := by rw [h.len]; exact (List.getElem?_eq_some_iff.1 hvk).1
        rw [List.flatMap_cons, ← List.append_assoc] at hn
        simp only [hf, if_pos (List.nodup_append.1 hn).1]
        refine ⟨_, rfl, fun vs' o' hs => ?_⟩
        obtain ⟨s', hs'⟩ : ∃ s', vs' = vs.set k (some s') := by
          simp only [bind, Except.bind] at hs
          split at hs
          · cases hs
          · cases hs; exact ⟨_, rfl⟩
        subst hs'
        have hother : ∀ j, j ≠ k → (g.write p (f.names ++ (Cmd.op k o).cells))[j]?.join = g[j]?.join := by
          intro j hj
          have hwr : (g.write p (f.names ++ (Cmd.op k o).cells))[j]?.join =
              g[j]?.join.filter (fun f' => !f'.hit p (f.names ++ (Cmd.op k o).cells)) := by
            simp only [Feet.write, List.getElem?_map]
            rcases g[j]? with _ | (_ | f) <;> rfl
          rw [hwr]
          cases hg : g[j]?.join with
          | none => rfl
          | some f' =>
            rw [Option.filter_eq_some_iff]
            refine ⟨rfl, ?_⟩
            simp only [Foot.hit, Bool.not_eq_true', Bool.and_eq_false_iff, decide_eq_false_iff_not]
            exact .inl (fun hp => hpS (h.spaces j f' hj hg hp))
        refine ⟨⟨by simp [Feet.write, h.len], fun j s2 hj hs2 => ?_, fun j f2 hj hf2 => ?_, fun x => ?_⟩, fun s2 _ => ?_⟩
        · rw [join_set, if_neg (by omega), hother j hj]
          rw [List.getElem?_set_ne (by omega)] at hs2
          exact h.live j s2 hj hs2
        · rw [join_set, if_neg (by omega), hother j hj] at hf2
          exact h.spaces j f2 hj hf2
        · rw [List.set_set]
          have hws : (g.write p (f.names ++ (Cmd.op k o).cells)).set k none = Feet.write (g.set k none) p (f.names ++ (Cmd.op k o).cells) := by
            simp [Feet.write, List.map_set]
          have h1 := footN_write (g.set k none) p (f.names ++ (Cmd.op k o).cells) x
          have := h.once x
          rw [← hws] at h1
          omega
        · refine ⟨_, by rw [join_set, if_pos ⟨rfl, by simpa [Feet.write] using hk⟩], hn⟩
    refine ⟨?_, fun vs'' g'' hr => ?_⟩
    · rw [List.map_cons]
      unfold owned
      rw [hg]
      simp only
      cases hs : vs.step (Cmd.op k o) with
      | error q => rfl
      | ok r => exact (ih (hgood _ _ hs).1 (hgood _ _ hs).2 hS').1
    · rw [List.map_cons] at hr
      cases hr with
      | cons a b r =>
        rw [hg] at a
        cases a
        exact (ih (hgood _ _ b).1 (hgood _ _ b).2 hS').2 _ _ r

omit [RazMeta E M] in
theorem exists_unused {I : Type} (n : Nat) (cs : List (NsPath × Cmd E I)) : ∃ K, n ≤ K ∧ ∀ c ∈ cs, c.2.uses K = false := by
  suffices ∃ m, n ≤ m ∧ ∀ K, m ≤ K → ∀ c ∈ cs, c.2.uses K = false by
    obtain ⟨m, h1, h2⟩ := this; exact ⟨m, h1, h2 m (Nat.le_refl _)⟩
  induction cs with
  | nil => exact ⟨n, Nat.le_refl _, fun _ _ c hc => by cases hc⟩
  | cons c cs ih =>
    obtain ⟨m, h1, h2⟩ := ih
    obtain ⟨p, c⟩ := c
    obtain ⟨m', h3⟩ : ∃ m', ∀ K, m' ≤ K → c.uses K = false := by
      cases c with
      | new => exact ⟨0, fun _ _ => rfl⟩
      | fromVec v => exact ⟨0, fun _ _ => rfl⟩
      | clone i => exact ⟨i + 1, fun K hK => by simp [Cmd.uses]; omega⟩
      | op i o => exact ⟨i + 1, fun K hK => by simp [Cmd.uses]; omega⟩
      | join i lev nm j => exact ⟨i + j + 1, fun K hK => by simp [Cmd.uses]; omega⟩
    refine ⟨m + m', by omega, fun K hK d hd => ?_⟩
    rcases List.mem_cons.1 hd with rfl | hd
    · exact h3 K (by omega)
    · exact h2 K (by omega) d hd

omit [RazMeta E M] in
theorem Good.start {K : Nat} {S : List NsPath} {W : List Name} (h : W.Nodup) : Good (E := E) (M := M) K S [] [] W :=
  ⟨rfl, fun j s _ hs => by simp at hs, fun j f _ hf => by simp at hf, fun x => by have := nodup_count h x; simpa [footN] using this⟩

theorem Runs.vars {vs vs' : Vars E M} {g g' : Feet} {cs : List (NsPath × Cmd E (RazMeta.Index E M))} (h : Runs vs g cs vs' g') :
    ∃ os, vs.run (cs.map (·.2)) = .ok (vs', os) := by
  induction h with
  | nil => exact ⟨[], rfl⟩
  | cons a b r ih =>
    rename_i o _
    obtain ⟨os, ih⟩ := ih
    refine ⟨o :: os, ?_⟩
    simp only [List.map_cons, Vars.run, b, bind, Except.bind, ih]
    rfl

/-- Names used once, no clones, any namespaces. -/
theorem owned_of_once {cs : List (NsPath × Cmd E (RazMeta.Index E M))} (h : (cs.flatMap (fun c => c.2.cells)).Nodup)
    (hc : ∀ c ∈ cs, c.2.isClone = false) : Owned M cs := by
  obtain ⟨K, -, hK⟩ := exists_unused 0 cs
  refine (good_owned (k := K) (S := cs.map (·.1)) (W := []) cs (Good.start (by simpa using h)) (fun c hc' => ⟨List.mem_map_of_mem hc', hc c hc', hK c hc'⟩)).1

/-- A clone edited in namespaces that the original was not made in. -/
theorem owned_version {S : List NsPath} {cs fs : List (NsPath × Cmd E (RazMeta.Index E M))} {es : List (NsPath × ApiOp E (RazMeta.Index E M))}
    {i k : Nat} {p0 : NsPath} (hk : ∀ r, Vars.run (M := M) [] (cs.map (·.2)) = .ok r → r.1.length = k)
    (hcs : ∀ c ∈ cs, c.1 ∈ S ∧ c.2.isClone = false) (hfs : ∀ c ∈ fs, c.1 ∈ S ∧ c.2.isClone = false ∧ c.2.uses k = false) (hes : ∀ c ∈ es, c.1 ∉ S)
    (hn1 : (cs.flatMap (fun c => c.2.cells) ++ es.flatMap (fun c => (Cmd.op k c.2).cells)).Nodup)
    (hn2 : (cs.flatMap (fun c => c.2.cells) ++ fs.flatMap (fun c => c.2.cells)).Nodup) :
    Owned M (cs ++ (p0, .clone i) :: (es.map (fun c => (c.1, Cmd.op k c.2)) ++ fs)) := by
  obtain ⟨K, hkK, hK⟩ := exists_unused k cs
  obtain ⟨o1, r1⟩ := good_owned (k := K) (S := S) (M := M) cs (Good.start hn1) (fun c hc => ⟨(hcs c hc).1, (hcs c hc).2, hK c hc⟩)
  obtain ⟨-, r2⟩ := good_owned (k := K) (S := S) (M := M) cs (Good.start hn2) (fun c hc => ⟨(hcs c hc).1, (hcs c hc).2, hK c hc⟩)
  refine owned_append _ o1 (fun vs g hr => ?_)
  have a1 := r1 _ _ hr
  have a2 := r2 _ _ hr
  have hl : vs.length = k := by
    obtain ⟨os, ho⟩ := hr.vars
    exact hk _ ho
  have hgl : g.length = k := by rw [a1.len, hl]
  have hset : ∀ n, k ≤ n → List.set g n none = g := fun n hn => List.set_eq_of_length_le (by omega)
  have once1 := a1.once
  have once2 := a2.once
  rw [hset K hkK] at once1 once2
  -- all variables are good
  have live : ∀ j s, vs[j]? = some (some s) → ∃ f, g[j]?.join = some f := fun j s hs => by
    have : j < vs.length := (List.getElem?_eq_some_iff.1 hs).1
    exact a1.live j s (by omega) hs
  have spaces : ∀ (j : Nat) (f : Foot), g[j]?.join = some f → f.spaces ⊆ S := fun j f hf => by
    have : j < g.length := by
      by_cases hj : j < g.length
      · exact hj
      · rw [List.getElem?_eq_none (by omega)] at hf; cases hf
    exact a1.spaces j f (by omega) hf
  have hgood : Good k S vs g (fs.flatMap (fun c => c.2.cells) ++ []) :=
    ⟨a2.len, fun j s _ => live j s, fun j f _ => spaces j f, fun x => by rw [hset k (Nat.le_refl _)]; simpa using once2 x⟩
  -- the clone
  obtain ⟨g', vs', hg, hs, hgood', hver⟩ : ∃ g' vs', g.step vs p0 (.clone i : Cmd E (RazMeta.Index E M)) = some g' ∧ vs.step (.clone i) = .ok (vs', .unit) ∧
      Good k S vs' g' (fs.flatMap (fun c => c.2.cells) ++ []) ∧
      (∀ s, vs'[k]? = some (some s) → ∃ f, g'[k]?.join = some f ∧ (f.names ++ es.flatMap (fun c => (Cmd.op k c.2).cells)).Nodup) := by
    simp only [Feet.step, Vars.step]
    have hdead : ∀ s, vs[k]? ≠ some (some s) := fun s hs => by rw [List.getElem?_eq_none (by omega)] at hs; cases hs
    rcases hv : vs[i]? with _ | (_ | s)
    · exact ⟨_, _, rfl, rfl, hgood, fun s hs => absurd hs (hdead s)⟩
    · exact ⟨_, _, rfl, rfl, hgood, fun s hs => absurd hs (hdead s)⟩
    · refine ⟨_, _, rfl, rfl, ⟨by simp [a1.len], fun j s' hj hs' => ?_, fun j f hj hf => ?_, fun x => ?_⟩, fun s' _ => ?_⟩
      · have hj' : j < vs.length := by
          have := (List.getElem?_eq_some_iff.1 hs').1
          simp at this; omega
        rw [join_append, if_pos (by omega)]
        rw [List.getElem?_append_left hj'] at hs'
        exact live j s' hs'
      · rw [join_append] at hf
        split at hf
        · exact spaces j f hf
        · rw [if_neg (by omega)] at hf; cases hf
      · have h1 : ((g ++ [g[i]?.join]).set k none) = g ++ [none] := by
          rw [List.set_append_right _ _ (by omega), hgl]; simp
        rw [h1]
        have := once2 x
        simpa [footN] using this
      · obtain ⟨f, hf⟩ := live i s hv
        refine ⟨f, ?_, count_nodup fun x => ?_⟩
        · rw [join_append, if_neg (by omega), if_pos (by omega), hf]
        · have h1 := footN_get g i x
          rw [hf] at h1
          simp only [Option.elim] at h1
          have := once1 x
          simp only [List.count_append]; omega
  unfold owned
  rw [hg]
  simp only [hs]
  obtain ⟨q1, q2⟩ := edits_owned es hgood' hver hes
  exact owned_append _ q1 (fun vs'' g'' hr' => (good_owned fs (q2 _ _ hr') hfs).1)

omit [RazMeta E M] in
theorem cells_eq {I : Type} (c : Cmd E I) : c.cells = cmdN .dcg c := by
  cases c with
  | op i o => cases o <;> first | rfl | (rename_i lev n; cases n <;> rfl)
  | join i lev n j => cases n <;> rfl
  | _ => rfl

theorem cells_once {cs : List (Cmd E (RazMeta.Index E M))} (h : GoodNames cs) (hc : NoClones cs) : (cs.flatMap Cmd.cells).Nodup := by
  have e1 : cs.flatMap Cmd.cells = cs.flatMap (cmdN .dcg) := by
    congr 1; funext c; exact cells_eq c
  rw [e1]
  rcases fine_goodNames (E := E) (M := M) cs h hc with ⟨-, h2⟩ | ⟨-, h2⟩
  · rw [h2]; simp
  · simpa [vN] using h2

/-! ### Without names -/

theorem step_plain [Spaces] {σ : RMem E M} {hvs : HVars E M} {vs : Vars E M} (h : RepV e σ hvs vs) (hp : σ.path = []) (hn : vN e vs = [])
    (c : Cmd E (RazMeta.Index E M)) (hc : cmdN e c = []) (p : NsPath) :
    Sim (inNs p (HVars.step e hvs c)) σ (vs.step c) (fun b a σ' => RepV e σ' a.1 b.1 ∧ a.2 = b.2 ∧ vN e b.1 = [] ∧ σ'.path = []) := by
  refine inNs_sim p ?_
  rw [hp, List.append_nil]
  have mv : ∀ {τ : RMem E M} {hws : HVars E M} {ws : Vars E M} (q : NsPath), RepV e τ hws ws → vN e ws = [] → RepV e (τ.at q) hws ws := by
    intro τ hws ws q h hn
    refine ⟨h.len, fun i h1 h2 => ?_⟩
    have hg := h.get i h1 h2
    have hoN : oN e ws[i] = [] := sub_nil (fun x => by have := vN_get (e := e) ws i h2 x; rw [hn] at this; exact this)
    cases e1 : hws[i] <;> cases e2 : ws[i] <;> rw [e1, e2] at hg
    · exact trivial
    · exact hg
    · exact hg
    · rename_i s
      rw [e2] at hoN
      have hg' : RepSt e τ _ s := hg
      show RepSt e (τ.at q) _ s
      refine carry_St (e := e) (F := ‹Spaces›) (σ := τ) (σ' := τ.at q) (N := []) (fun n l hn hl => ⟨?_, rfl⟩) hg' (by rw [show stN e s = [] from hoN]; exact List.Subset.refl _)
      cases e <;> cases n <;> first
        | exact hl
        | (rename_i x; have := @hn x (by simp [nm]); cases this)
  refine (vars_step_keeps (mv p h hn) c (by rw [hn, hc]; simp)).mono ?_
  rintro b a σ' - ⟨k1, k2, k3, k4⟩
  rw [hn, hc] at k3
  have hb : vN e b.1 = [] := sub_nil (by simpa using k3)
  exact ⟨k4.path, mv [] k1 hb, k2, hb, rfl⟩

theorem runNs_plain : ∀ (cs : List (NsPath × Cmd E (RazMeta.Index E M))) {σ : RMem E M} {hvs : HVars E M} {vs : Vars E M},
    RepV e σ hvs vs → σ.path = [] → vN e vs = [] → (∀ c ∈ cs, cmdN e c.2 = []) →
    Sim (HVars.runNs e hvs cs) σ (vs.run (cs.map (·.2))) (fun b a _ => a.2 = b.2) := by
  intro cs
  induction cs with
  | nil => intro σ hvs vs h _ _ _; exact Sim.pure rfl
  | cons c cs ih =>
    obtain ⟨p, c⟩ := c
    intro σ hvs vs h hp hn hc
    unfold HVars.runNs Vars.run
    simp only [List.map_cons]
    refine (step_plain h hp hn c (hc _ List.mem_cons_self) p).bind ?_
    rintro ⟨vs', o⟩ ⟨hvs', o'⟩ σ' hx ⟨k1, k2, k3, k4⟩
    simp only at k1 k2; subst k2
    refine (ih k1 k4 k3 (fun c hc' => hc c (List.mem_cons_of_mem _ hc'))).bind ?_
    rintro ⟨vs'', os⟩ ⟨hvs'', os'⟩ σ'' - q2
    simp only at q2; subst q2
    exact Sim.pure rfl

theorem answersNs_plain {cs : List (NsPath × Cmd E (RazMeta.Index E M))} (h : ∀ c ∈ cs, cmdN e c.2 = []) :
    AnswersNs (M := M) e cs (answers M (cs.map (·.2))) :=
  answersNs_of_sim (runNs_plain cs ⟨rfl, fun i h1 _ => by simp at h1⟩ rfl rfl h)

end Heap
end Iodyn
