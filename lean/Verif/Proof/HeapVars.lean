import Verif.Proof.HeapFocus
import Verif.Spec.Heap
/-
Programs over several variables: the store simulates the values as long as the variables share no named cell.
-/
namespace Iodyn.Heap
section
variable [Spaces] {E M : Type} [RazMeta E M] {e : Engine}

/-- Handles for a value. -/
def RepSt (e : Engine) (σ : RMem E M) : HSt E M → St E M → Prop
  | .cursor hz, .cursor z => RepZ e σ hz z
  | .tree ht, .tree t => RepRT e σ ht t
  | _, _ => False

/-- Names of a value. -/
def stN (e : Engine) : St E M → List Name
  | .cursor z => zN e z
  | .tree t => tN e t.tree

/-- Names a call brings in. -/
def opN {I : Type} (e : Engine) : ApiOp E I → List Name
  | .archL _ nm => archN e nm
  | .archR _ nm => archN e nm
  | _ => []

theorem RepSt.keep {σ σ' : RMem E M} {N : List Name} {hs : HSt E M} {s : St E M} (h : RepSt e σ hs s) (hk : Keeps N σ σ')
    (hd : Dis (stN e s) N) : RepSt e σ' hs s := by
  cases hs <;> cases s
  · exact RepZ.keep h hk hd
  · exact h
  · exact h
  · exact RepRT.keep h hk hd

theorem step_sim {σ : RMem E M} {hs : HSt E M} {s : St E M} (h : RepSt e σ hs s) (o : ApiOp E (RazMeta.Index E M))
    (hn : (stN e s ++ opN e o).Nodup) :
    Sim (hs.step e o) σ (s.step o) (fun b a σ' => RepSt e σ' a.1 b.1 ∧ a.2 = b.2 ∧ Sub (stN e b.1) (stN e s ++ opN e o) ∧
      Keeps (stN e s ++ opN e o) σ σ') := by
  have hn1 : (stN e s).Nodup := (List.nodup_append.1 hn).1
  have sub1 : ∀ l : List Name, Sub l (stN e s) → Sub l (stN e s ++ opN e o) := fun l hl x => by
    have := hl x; simp only [List.count_append]; omega
  have ks : ∀ {σ' : RMem E M}, Keeps (stN e s) σ σ' → Keeps (stN e s ++ opN e o) σ σ' := fun hk => hk.mono (List.subset_append_left _ _)
  have ka : ∀ {σ' : RMem E M}, Keeps (opN e o) σ σ' → Keeps (stN e s ++ opN e o) σ σ' := fun hk => hk.mono (List.subset_append_right _ _)
  cases hs with
  | cursor hz =>
    cases s with
    | tree t => exact h.elim
    | cursor z =>
      have h' : RepZ e σ hz z := h
      have same : Sim (pure (HSt.cursor hz, Out.unit) : HR E M (HSt E M × Out E)) σ (.ok (St.cursor z, Out.unit))
          (fun b a σ' => RepSt e σ' a.1 b.1 ∧ a.2 = b.2 ∧ Sub (stN e b.1) (stN e (St.cursor z) ++ opN e o) ∧
            Keeps (stN e (St.cursor z) ++ opN e o) σ σ') := Sim.pure ⟨h, rfl, sub1 _ (Sub.refl _), Keeps.refl _ _⟩
      cases o with
      | pushL x =>
        obtain ⟨h1, h2, h3⟩ := pushLeft_rep h' x
        exact Sim.pure ⟨h1, by rw [h2], sub1 _ (by rw [stN, h3]; exact Sub.refl _), Keeps.refl _ _⟩
      | pushR x =>
        obtain ⟨h1, h2, h3⟩ := pushRight_rep h' x
        exact Sim.pure ⟨h1, by rw [h2], sub1 _ (by rw [stN, h3]; exact Sub.refl _), Keeps.refl _ _⟩
      | popL =>
        refine (popLeft_sim h' hn1).bind ?_
        rintro ⟨z', x⟩ ⟨hz', x'⟩ σ' - ⟨h1, h2, h3, h4⟩
        simp only at h1 h2; subst h2
        exact Sim.pure ⟨h1, rfl, sub1 _ h3, ks h4⟩
      | popR =>
        refine (popRight_sim h' hn1).bind ?_
        rintro ⟨z', x⟩ ⟨hz', x'⟩ σ' - ⟨h1, h2, h3, h4⟩
        simp only at h1 h2; subst h2
        exact Sim.pure ⟨h1, rfl, sub1 _ h3, ks h4⟩
      | peekL =>
        refine (peekLeft_sim h' hn1).bind ?_
        rintro x x' σ' - ⟨rfl, h3, h4⟩
        exact Sim.pure ⟨h3, rfl, sub1 _ (Sub.refl _), ks h4⟩
      | peekR =>
        refine (peekRight_sim h' hn1).bind ?_
        rintro x x' σ' - ⟨rfl, h3, h4⟩
        exact Sim.pure ⟨h3, rfl, sub1 _ (Sub.refl _), ks h4⟩
      | archL lev nm =>
        obtain ⟨hz', σ', h1, h2, h3, h4⟩ := archiveLeft_run h' lev nm hn
        refine Sim.step h1 (Sim.pure ⟨h2, rfl, h3, ka h4⟩)
      | archR lev nm =>
        obtain ⟨hz', σ', h1, h2, h3, h4⟩ := archiveRight_run h' lev nm hn
        refine Sim.step h1 (Sim.pure ⟨h2, rfl, h3, ka h4⟩)
      | unfocus =>
        refine (unfocus_sim h' hn1).bind ?_
        rintro t ht σ' - ⟨h1, h2, h3⟩
        exact Sim.pure ⟨h1, rfl, sub1 _ h2, ks h3⟩
      | focus i => exact same
      | focusLeft => exact same
  | tree ht =>
    cases s with
    | cursor z => exact h.elim
    | tree t =>
      have h' : RepRT e σ ht t := h
      have same : Sim (pure (HSt.tree ht, Out.unit) : HR E M (HSt E M × Out E)) σ (.ok (St.tree t, Out.unit))
          (fun b a σ' => RepSt e σ' a.1 b.1 ∧ a.2 = b.2 ∧ Sub (stN e b.1) (stN e (St.tree t) ++ opN e o) ∧
            Keeps (stN e (St.tree t) ++ opN e o) σ σ') := Sim.pure ⟨h, rfl, sub1 _ (Sub.refl _), Keeps.refl _ _⟩
      cases o with
      | focus i =>
        refine (focus_sim h' i).bind ?_
        rintro b a σ' - ⟨⟨rfl, rfl⟩ | ⟨z, hz, rfl, rfl, h1, h2⟩, rfl⟩
        · exact Sim.pure ⟨h, rfl, sub1 _ (Sub.refl _), Keeps.refl _ _⟩
        · exact Sim.pure ⟨h1, rfl, sub1 _ h2, Keeps.refl _ _⟩
      | focusLeft =>
        refine (focusLeft_sim h').bind ?_
        rintro z hz σ' - ⟨h1, h2, rfl⟩
        exact Sim.pure ⟨h1, rfl, sub1 _ h2, Keeps.refl _ _⟩
      | _ => exact same

/-! ### Variables -/

/-- Handles for a variable. -/
def RepO (e : Engine) (σ : RMem E M) : Option (HSt E M) → Option (St E M) → Prop
  | none, none => True
  | some hs, some s => RepSt e σ hs s
  | _, _ => False

/-- Names of a variable. -/
def oN (e : Engine) (o : Option (St E M)) : List Name := o.elim [] (stN e)

/-- Names of all variables. -/
def vN (e : Engine) (vs : Vars E M) : List Name := vs.flatMap (oN e)

/-- Handles for all variables. -/
structure RepV (e : Engine) (σ : RMem E M) (hvs : HVars E M) (vs : Vars E M) : Prop where
  len : hvs.length = vs.length
  get : ∀ i (h1 : i < hvs.length) (h2 : i < vs.length), RepO e σ hvs[i] vs[i]

theorem RepO.keep {σ σ' : RMem E M} {N : List Name} {hs : Option (HSt E M)} {s : Option (St E M)} (h : RepO e σ hs s) (hk : Keeps N σ σ')
    (hd : Dis (oN e s) N) : RepO e σ' hs s := by
  cases hs <;> cases s
  · trivial
  · exact h
  · exact h
  · exact RepSt.keep h hk hd

omit [RazMeta E M] in
theorem vN_set (vs : Vars E M) : ∀ (i : Nat) (h : i < vs.length) (o : Option (St E M)) (x : Name),
    (vN e (vs.set i o)).count x + (oN e vs[i]).count x = (vN e vs).count x + (oN e o).count x := by
  induction vs with
  | nil => intro i h; simp at h
  | cons a vs ih =>
    intro i h o x
    cases i with
    | zero => simp [vN]; omega
    | succ i =>
      have := ih i (by simpa using h) o x
      simp only [vN, List.set_cons_succ, List.flatMap_cons, List.count_append, List.getElem_cons_succ] at this ⊢
      omega

omit [RazMeta E M] in
theorem vN_get (vs : Vars E M) : ∀ (i : Nat) (h : i < vs.length) (x : Name), (oN e vs[i]).count x ≤ (vN e vs).count x := by
  intro i h x
  have := vN_set (e := e) vs i h none x
  simp only [oN, Option.elim, List.count_nil] at this ⊢
  omega

omit [RazMeta E M] in
theorem vN_two (vs : Vars E M) {i j : Nat} (hi : i < vs.length) (hj : j < vs.length) (hij : i ≠ j) (x : Name) :
    (oN e vs[i]).count x + (oN e vs[j]).count x ≤ (vN e vs).count x := by
  have h1 := vN_set (e := e) vs i hi none x
  have h2 := vN_get (e := e) (vs.set i none) j (by simpa using hj) x
  rw [List.getElem_set_of_ne hij] at h2
  have h3 : (oN e (none : Option (St E M))).count x = 0 := rfl
  omega

/-- Changing one variable. -/
theorem RepV.set {σ σ' : RMem E M} {hvs : HVars E M} {vs : Vars E M} (h : RepV e σ hvs vs) {i : Nat} (hi : i < vs.length)
    {ho : Option (HSt E M)} {o : Option (St E M)} (hr : RepO e σ' ho o) {N : List Name} (hk : Keeps N σ σ')
    (hN : ∀ x, (vN e vs).count x + N.count x ≤ 1 + (oN e vs[i]).count x) : RepV e σ' (hvs.set i ho) (vs.set i o) := by
  refine ⟨by simp [h.len], fun j h1 h2 => ?_⟩
  simp only [List.length_set] at h1 h2
  by_cases hij : i = j
  · subst hij; simpa using hr
  · rw [List.getElem_set_of_ne hij, List.getElem_set_of_ne hij]
    refine (h.get j h1 h2).keep hk (dis_count fun x => ?_)
    have := vN_two (e := e) vs hi h2 hij x
    have := hN x
    omega

/-- All variables stay. -/
theorem RepV.keep {σ σ' : RMem E M} {hvs : HVars E M} {vs : Vars E M} (h : RepV e σ hvs vs) {N : List Name} (hk : Keeps N σ σ')
    (hd : Dis (vN e vs) N) : RepV e σ' hvs vs := by
  refine ⟨h.len, fun j h1 h2 => (h.get j h1 h2).keep hk (hd.mono ?_ (List.Subset.refl _))⟩
  exact Sub.subset (fun x => vN_get vs j h2 x)

theorem RepV.append {σ : RMem E M} {hvs : HVars E M} {vs : Vars E M} (h : RepV e σ hvs vs) {ho : Option (HSt E M)}
    {o : Option (St E M)} (hr : RepO e σ ho o) : RepV e σ (hvs ++ [ho]) (vs ++ [o]) := by
  refine ⟨by simp [h.len], fun j h1 h2 => ?_⟩
  simp only [List.length_append, List.length_singleton] at h1 h2
  by_cases hj : j < vs.length
  · rw [List.getElem_append_left (by rw [h.len]; exact hj), List.getElem_append_left hj]
    exact h.get j (by rw [h.len]; exact hj) hj
  · have e1 : j = vs.length := by omega
    subst e1
    rw [List.getElem_append_right (by rw [h.len]; exact Nat.le_refl _), List.getElem_append_right (by omega)]
    simpa [h.len] using hr

omit [RazMeta E M] in
theorem vN_append (vs : Vars E M) (o : Option (St E M)) : vN e (vs ++ [o]) = vN e vs ++ oN e o := by
  simp [vN]

/-- Names a statement brings in. -/
def cmdN {I : Type} (e : Engine) : Cmd E I → List Name
  | .op _ o => opN e o
  | .join _ _ nm' _ => nm e nm'
  | _ => []

/-- Looking up a variable on both sides. -/
theorem RepV.lookup {σ : RMem E M} {hvs : HVars E M} {vs : Vars E M} (h : RepV e σ hvs vs) (i : Nat) :
    (hvs[i]? = none ∧ vs[i]? = none) ∨ (hvs[i]? = some none ∧ vs[i]? = some none) ∨
      ∃ hs s, hvs[i]? = some (some hs) ∧ vs[i]? = some (some s) ∧ RepSt e σ hs s ∧ ∃ hi : i < vs.length, vs[i] = some s := by
  by_cases hi : i < vs.length
  · have hi' : i < hvs.length := by rw [h.len]; exact hi
    have hg := h.get i hi' hi
    rw [List.getElem?_eq_getElem hi', List.getElem?_eq_getElem hi]
    cases h1 : hvs[i] with
    | none =>
      cases h2 : vs[i] with
      | none => exact .inr (.inl ⟨rfl, rfl⟩)
      | some s => rw [h1, h2] at hg; exact hg.elim
    | some hs =>
      cases h2 : vs[i] with
      | none => rw [h1, h2] at hg; exact hg.elim
      | some s => rw [h1, h2] at hg; exact .inr (.inr ⟨hs, s, rfl, rfl, hg, hi, h2⟩)
  · exact .inl ⟨by rw [List.getElem?_eq_none]; rw [h.len]; omega, by rw [List.getElem?_eq_none]; omega⟩

theorem vars_step_keeps {σ : RMem E M} {hvs : HVars E M} {vs : Vars E M} (h : RepV e σ hvs vs) (c : Cmd E (RazMeta.Index E M))
    (hn : (vN e vs ++ cmdN e c).Nodup) :
    Sim (HVars.step e hvs c) σ (vs.step c) (fun b a σ' => RepV e σ' a.1 b.1 ∧ a.2 = b.2 ∧
      Sub (vN e b.1) (vN e vs ++ (cmdN e c ++ if c.isClone then vN e vs else [])) ∧
      Keeps (vN e vs ++ cmdN e c) σ σ') := by
  have hcn := nodup_count hn
  simp only [List.count_append] at hcn
  have nop : ∀ w : List Name, Sub (vN e vs) (vN e vs ++ w) := fun w x => by simp only [List.count_append]; omega
  cases c with
  | new =>
    refine Sim.pure ⟨h.append (o := some (.cursor Raz.new)) (ho := some (.cursor HRaz.new)) (RepZ.empty : RepZ e σ _ _), rfl, fun x => ?_, Keeps.refl _ _⟩
    rw [vN_append]
    cases e <;> simp [oN, stN, zN, Raz.new, RazTree.emptyRaz, cN, Cursor.new, lN, rN, tN, aN, AStack.new, sN, pN]
  | fromVec v =>
    unfold HVars.step Vars.step
    refine (fromVec_sim v).bind ?_
    rintro b a σ' - ⟨⟨rfl, rfl⟩ | ⟨t, ht, rfl, rfl, h1, h2⟩, hk⟩
    · exact Sim.pure ⟨h.keep hk (by simp [Dis]), rfl, nop _, hk.mono (by simp)⟩
    · refine Sim.pure ⟨(h.keep hk (by simp [Dis])).append (o := some (.tree t)) (ho := some (.tree ht)) h1, rfl, fun x => ?_, hk.mono (by simp)⟩
      rw [vN_append]
      simp [oN, stN, h2]
  | clone i =>
    unfold HVars.step Vars.step
    rcases h.lookup i with ⟨h1, h2⟩ | ⟨h1, h2⟩ | ⟨hs, s, h1, h2, h3, hi, h4⟩ <;> simp only [h1, h2]
    · exact Sim.pure ⟨h, rfl, nop _, Keeps.refl _ _⟩
    · exact Sim.pure ⟨h, rfl, nop _, Keeps.refl _ _⟩
    · refine Sim.pure ⟨h.append (o := some s) (ho := some hs) h3, rfl, fun x => ?_, Keeps.refl _ _⟩
      have := vN_get (e := e) vs i hi x
      rw [h4] at this
      rw [vN_append]
      simp only [Cmd.isClone, if_true, List.count_append]; omega
  | op i o =>
    unfold HVars.step Vars.step
    rcases h.lookup i with ⟨h1, h2⟩ | ⟨h1, h2⟩ | ⟨hs, s, h1, h2, h3, hi, h4⟩ <;> simp only [h1, h2]
    · exact Sim.pure ⟨h, rfl, nop _, Keeps.refl _ _⟩
    · exact Sim.pure ⟨h, rfl, nop _, Keeps.refl _ _⟩
    · have hg : ∀ x, (stN e s).count x ≤ (vN e vs).count x := fun x => by
        have := vN_get (e := e) vs i hi x; rwa [h4] at this
      have hcn' : ∀ x, (vN e vs).count x + (opN e o).count x ≤ 1 := hcn
      refine (step_sim h3 o (count_nodup fun x => by have := hg x; have := hcn' x; simp only [List.count_append]; omega)).bind ?_
      rintro ⟨s', out⟩ ⟨hs', out'⟩ σ' - ⟨k1, k2, k3, k4⟩
      simp only at k1 k2 k3; subst k2
      refine Sim.pure ⟨h.set hi (o := some s') (ho := some hs') k1 k4 (fun x => ?_), rfl, fun x => ?_, k4.mono (Sub.subset fun x => ?_)⟩
      · rw [h4]
        have := hcn' x
        simp only [oN, Option.elim, List.count_append]; omega
      · have := vN_set (e := e) vs i hi (some s') x
        have := k3 x
        rw [h4] at *
        simp only [oN, Option.elim, List.count_append, cmdN] at *; omega
      · have := hg x
        simp only [List.count_append, cmdN]; omega
  | join i lev name j =>
    unfold HVars.step Vars.step
    rcases h.lookup i with ⟨h1, h2⟩ | ⟨h1, h2⟩ | ⟨hs, s, h1, h2, h3, hi, h4⟩ <;> simp only [h1, h2]
    · exact Sim.pure ⟨h, rfl, nop _, Keeps.refl _ _⟩
    · exact Sim.pure ⟨h, rfl, nop _, Keeps.refl _ _⟩
    · rcases h.lookup j with ⟨g1, g2⟩ | ⟨g1, g2⟩ | ⟨hs', s', g1, g2, g3, hj, g4⟩
      · simp only [g1, g2]
        cases hs <;> cases s <;> exact Sim.pure ⟨h, rfl, nop _, Keeps.refl _ _⟩
      · simp only [g1, g2]
        cases hs <;> cases s <;> exact Sim.pure ⟨h, rfl, nop _, Keeps.refl _ _⟩
      · simp only [g1, g2]
        cases hs with
        | cursor hz =>
          cases s with
          | cursor z => exact Sim.pure ⟨h, rfl, nop _, Keeps.refl _ _⟩
          | tree t => exact h3.elim
        | tree ht =>
          cases s with
          | cursor z => exact h3.elim
          | tree t =>
            cases hs' with
            | cursor hz =>
              cases s' with
              | cursor z => exact Sim.pure ⟨h, rfl, nop _, Keeps.refl _ _⟩
              | tree t => exact g3.elim
            | tree ht' =>
              cases s' with
              | cursor z => exact g3.elim
              | tree t' =>
                simp only
                split
                · exact Sim.pure ⟨h, rfl, nop _, Keeps.refl _ _⟩
                · rename_i hij
                  have hcn' : ∀ x, (vN e vs).count x + (nm e name).count x ≤ 1 := hcn
                  have htwo : ∀ x, (tN e t.tree).count x + (tN e t'.tree).count x ≤ (vN e vs).count x := fun x => by
                    have := vN_two (e := e) vs hi hj hij x
                    rw [h4, g4] at this; exact this
                  have hset1 : ∀ x, (vN e (vs.set i none)).count x + (tN e t.tree).count x = (vN e vs).count x := fun x => by
                    have := vN_set (e := e) vs i hi none x
                    rw [h4] at this
                    simpa [oN, stN] using this
                  have hgj : (vs.set i none)[j]'(by simpa using hj) = some (.tree t') := by
                    rw [List.getElem_set_of_ne hij]; exact g4
                  refine (join_tree_sim h3 g3 lev name (dis_count fun x => by
                    have := hcn' x; have := htwo x; simp only [List.count_append]; omega)).bind ?_
                  rintro b a σ' - ⟨hcase, hk⟩
                  have hkv : Keeps (vN e vs ++ nm e name) σ σ' := hk.mono (fun x hx => List.mem_append_right _ hx)
                  have hV1 : RepV e σ' (hvs.set i none) (vs.set i none) := h.set hi (o := none) (ho := none) trivial hk
                    (fun x => by have := hcn' x; omega)
                  rcases hcase with ⟨rfl, rfl⟩ | ⟨t2, ht2, rfl, rfl, q1, q2⟩
                  · refine Sim.pure ⟨hV1.set (by simpa using hj) (o := none) (ho := none) trivial (Keeps.refl [] _)
                      (fun x => by have := hset1 x; have := hcn' x; simp only [List.count_nil]; omega), rfl, fun x => ?_, hkv⟩
                    have := vN_set (e := e) (vs.set i none) j (by simpa using hj) none x
                    rw [hgj] at this
                    have := hset1 x
                    simp only [oN, stN, Option.elim, List.count_append, List.count_nil] at *; omega
                  · refine Sim.pure ⟨hV1.set (by simpa using hj) (o := some (.tree t2)) (ho := some (.tree ht2)) q1 (Keeps.refl [] _)
                      (fun x => by have := hset1 x; have := hcn' x; simp only [List.count_nil]; omega), rfl, fun x => ?_, hkv⟩
                    have := vN_set (e := e) (vs.set i none) j (by simpa using hj) (some (.tree t2)) x
                    rw [hgj] at this
                    have := hset1 x
                    simp only [oN, stN, Option.elim, List.count_append, q2, cmdN] at *; omega

theorem vars_step_sim {σ : RMem E M} {hvs : HVars E M} {vs : Vars E M} (h : RepV e σ hvs vs) (c : Cmd E (RazMeta.Index E M))
    (hn : (vN e vs ++ cmdN e c).Nodup) :
    Sim (HVars.step e hvs c) σ (vs.step c) (fun b a σ' => RepV e σ' a.1 b.1 ∧ a.2 = b.2 ∧
      Sub (vN e b.1) (vN e vs ++ (cmdN e c ++ if c.isClone then vN e vs else []))) :=
  (vars_step_keeps h c hn).mono fun _ _ _ _ h => ⟨h.1, h.2.1, h.2.2.1⟩

/-! ### Whole programs -/

/-- Both kinds of programs for which the variables never share a named cell: no names at all, or no clones and fresh names. -/
def Fine (e : Engine) (vs : Vars E M) (cs : List (Cmd E (RazMeta.Index E M))) : Prop :=
  (vN e vs = [] ∧ cs.flatMap (cmdN e) = []) ∨ (NoClones cs ∧ (vN e vs ++ cs.flatMap (cmdN e)).Nodup)

omit [RazMeta E M] in
theorem sub_nil {a : List Name} (h : Sub a []) : a = [] := by
  cases a with
  | nil => rfl
  | cons x a => have := h x; simp at this

theorem Fine.head {vs : Vars E M} {c : Cmd E (RazMeta.Index E M)} {cs : List (Cmd E (RazMeta.Index E M))}
    (hf : Fine e vs (c :: cs)) : (vN e vs ++ cmdN e c).Nodup := by
  rcases hf with ⟨h1, h2⟩ | ⟨-, h2⟩
  · simp only [List.flatMap_cons, List.append_eq_nil_iff] at h2
    rw [h1, h2.1]; simp
  · rw [List.flatMap_cons, ← List.append_assoc] at h2
    exact (List.nodup_append.1 h2).1

theorem Fine.tail {vs vs' : Vars E M} {c : Cmd E (RazMeta.Index E M)} {cs : List (Cmd E (RazMeta.Index E M))}
    (hf : Fine e vs (c :: cs)) (k3 : Sub (vN e vs') (vN e vs ++ (cmdN e c ++ if c.isClone then vN e vs else []))) : Fine e vs' cs := by
  rcases hf with ⟨h1, h2⟩ | ⟨h1, h2⟩
  · simp only [List.flatMap_cons, List.append_eq_nil_iff] at h2
    refine .inl ⟨sub_nil ?_, h2.2⟩
    rw [h1, h2.1] at k3
    simpa using k3
  · refine .inr ⟨fun x hx => h1 x (List.mem_cons_of_mem _ hx), count_nodup fun x => ?_⟩
    rw [h1 c List.mem_cons_self] at k3
    have := k3 x
    have := nodup_count h2 x
    simp only [List.flatMap_cons, List.count_append, Bool.false_eq_true, if_false, List.count_nil] at *; omega

theorem run_sim : ∀ (cs : List (Cmd E (RazMeta.Index E M))) {σ : RMem E M} {hvs : HVars E M} {vs : Vars E M}, RepV e σ hvs vs →
    Fine e vs cs → Sim (HVars.run e hvs cs) σ (vs.run cs) (fun b a σ' => RepV e σ' a.1 b.1 ∧ a.2 = b.2) := by
  intro cs
  induction cs with
  | nil => intro σ hvs vs h _; exact Sim.pure ⟨h, rfl⟩
  | cons c cs ih =>
    intro σ hvs vs h hf
    unfold HVars.run Vars.run
    refine (vars_step_sim h c hf.head).bind ?_
    rintro ⟨vs', o⟩ ⟨hvs', o'⟩ σ' - ⟨k1, k2, k3⟩
    simp only at k1 k2 k3; subst k2
    refine (ih k1 (hf.tail k3)).bind ?_
    rintro ⟨vs'', os⟩ ⟨hvs'', os'⟩ σ'' - ⟨q1, q2⟩
    simp only at q1 q2; subst q2
    exact Sim.pure ⟨q1, rfl⟩

theorem answers_of_fine (cs : List (Cmd E (RazMeta.Index E M))) (h : Fine e ([] : Vars E M) cs) :
    Answers (M := M) e cs (answers M cs) := by
  have h1 := run_sim cs (e := e) (σ := (Store.empty : RMem E M)) (hvs := []) (vs := []) ⟨rfl, fun i h1 _ => by simp at h1⟩ h
  unfold answers
  unfold Sim at h1
  cases hx : Vars.run (M := M) [] cs with
  | error p =>
    rw [hx] at h1
    obtain ⟨f0, hf⟩ := h1
    exact ⟨f0, fun f hle => by rw [hf f hle]; rfl⟩
  | ok b =>
    rw [hx] at h1
    obtain ⟨a, σ', ⟨f0, hf⟩, -, h3⟩ := h1
    exact ⟨f0, fun f hle => by rw [hf f hle]; exact congrArg Except.ok h3⟩

omit [RazMeta E M] in
theorem naive_nil {I : Type} (c : Cmd E I) : cmdN .naive c = [] := by
  cases c with
  | op i o => cases o <;> rfl
  | join => rfl
  | _ => rfl

theorem fine_naive (cs : List (Cmd E (RazMeta.Index E M))) : Fine .naive ([] : Vars E M) cs :=
  .inl ⟨rfl, by rw [List.flatMap_eq_nil_iff]; intro c _; exact naive_nil c⟩

omit [RazMeta E M] in
theorem noNames_nil {I : Type} (c : Cmd E I) (h : c.names = []) : cmdN .dcg c = [] := by
  cases c with
  | op i o =>
    cases o with
    | archL lev n => cases n <;> first | rfl | simp [Cmd.names] at h
    | archR lev n => cases n <;> first | rfl | simp [Cmd.names] at h
    | _ => rfl
  | join i lev n j => cases n <;> first | rfl | simp [Cmd.names] at h
  | _ => rfl

theorem fine_noNames (cs : List (Cmd E (RazMeta.Index E M))) (h : NoNames cs) : Fine .dcg ([] : Vars E M) cs := by
  refine .inl ⟨rfl, ?_⟩
  rw [List.flatMap_eq_nil_iff]
  intro c hc
  unfold NoNames at h
  rw [List.flatMap_eq_nil_iff] at h
  exact noNames_nil c (h c hc)

omit [RazMeta E M] in
theorem cmdN_count {I : Type} (c : Cmd E I) (x : Name) :
    (cmdN .dcg c).count x ≤ (c.names).count x + (match x with | .pair m (.str "tree") => (c.names).count m | _ => 0) := by
  have key : ∀ n : Option Name, (archN .dcg n).count x ≤ n.toList.count x + (match x with | .pair m (.str "tree") => n.toList.count m | _ => 0) := by
    intro n
    cases n with
    | none => simp [archN, nm, tnm]
    | some n =>
      simp only [archN, nm, tnm, Option.map_some, List.count_append, Option.toList]
      by_cases hx : x = .pair n (.str "tree")
      · subst hx; simp [List.count_cons]
      · have : [Name.pair n (.str "tree")].count x = 0 := by
          rw [List.count_eq_zero]; simp [hx]
        omega
  cases c with
  | op i o =>
    cases o with
    | archL lev n => exact key n
    | archR lev n => exact key n
    | _ => simp [cmdN, opN]
  | join i lev n j => cases n <;> simp [cmdN, nm, Cmd.names]
  | _ => simp [cmdN]

theorem fine_goodNames (cs : List (Cmd E (RazMeta.Index E M))) (h : GoodNames cs) (hc : NoClones cs) : Fine .dcg ([] : Vars E M) cs := by
  refine .inr ⟨hc, count_nodup fun x => ?_⟩
  have hcnt : ∀ cs' : List (Cmd E (RazMeta.Index E M)), (cs'.flatMap (cmdN .dcg)).count x ≤ (cs'.flatMap Cmd.names).count x +
      (match x with | .pair m (.str "tree") => (cs'.flatMap Cmd.names).count m | _ => 0) := by
    intro cs'
    induction cs' with
    | nil => simp
    | cons c cs' ih =>
      have h1 := cmdN_count c x
      simp only [List.flatMap_cons, List.count_append]
      split at ih <;> simp_all <;> omega
  have h1 := hcnt cs
  have h2 := nodup_count h.1
  simp only [vN, List.flatMap_nil, List.nil_append]
  split at h1
  · rename_i m
    have h3 := h2 m
    have h4 : (cs.flatMap Cmd.names).count (.pair m (.str "tree")) = 0 := by
      rw [List.count_eq_zero]; intro hm; exact h.2 _ hm m rfl
    omega
  · have := h2 x; omega

end
end Iodyn.Heap
