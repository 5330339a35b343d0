import Verif.Spec.IncrWork
import Verif.Proof.IncrObs
/-
The work of a memoised run is what is new in the record of its calls.
-/
namespace Iodyn.Incr.Obs
variable {V W Q O K R A : Type}

/-! ### Records -/

theorem thenT_ok {rd : List (Loc × V)} {fs : List (Fact W Q O)} {x : Option (P (Rec V W Q O K R A))} {c : Rec V W Q O K R A} (h : thenT rd fs x = some (.ok c)) :
    ∃ o, x = some (.ok o) ∧ c = { o with reads := rd ++ o.reads, facts := fs ++ o.facts } := by
  rcases x with _ | (q | o)
  · cases h
  · cases h
  · cases h; exact ⟨o, rfl, rfl⟩

theorem thenCall_ok {n : Option Name} {key : K} {d : Rec V W Q O K R R} {x : Option (P (Rec V W Q O K R A))} {c : Rec V W Q O K R A} (h : thenCall n key d x = some (.ok c)) :
    ∃ o, x = some (.ok o) ∧ c = { o with reads := d.reads ++ o.reads, facts := d.facts ++ o.facts, calls := .cons n key d.reads d.facts d.val d.calls o.calls } := by
  rcases x with _ | (q | o)
  · cases h
  · cases h
  · cases h; exact ⟨o, rfl, rfl⟩

/-- What a run without memoisation does does not depend on the record. -/
theorem texec_plain {view : Q → Loc → W → P O} {σ : Store V} {callee : K → Store W → Option (P (Rec V W Q O K R R))} {c2 : K → Store W → Option (P (R × Store W))}
    (h : ∀ key τ, c2 key τ = (callee key τ).map fun r => r.map fun c => (c.val, c.mem)) : ∀ (prog : OProg V W Q O K R A) (τ : Store W),
    sexec view c2 σ prog τ = (texec view callee σ prog τ).map fun r => r.map fun c => (c.val, c.mem) := by
  have t1 : ∀ {rd : List (Loc × V)} {fs : List (Fact W Q O)} (x : Option (P (Rec V W Q O K R A))),
      (thenT rd fs x).map (fun r => r.map fun c => (c.val, c.mem)) = x.map fun r => r.map fun c => (c.val, c.mem) := by
    intro rd fs x
    rcases x with _ | (q | o) <;> rfl
  have t2 : ∀ {n : Option Name} {key : K} {d : Rec V W Q O K R R} (x : Option (P (Rec V W Q O K R A))),
      (thenCall n key d x).map (fun r => r.map fun c => (c.val, c.mem)) = x.map fun r => r.map fun c => (c.val, c.mem) := by
    intro n key d x
    rcases x with _ | (q | o) <;> rfl
  intro prog
  induction prog with
  | ret a => intro τ; rfl
  | fail q => intro τ; rfl
  | force l k ih =>
    intro τ
    unfold sexec texec
    cases σ.cells l with
    | none => rfl
    | some v => simp only; rw [t1]; exact ih v τ
  | look l q k ih =>
    intro τ
    unfold sexec texec
    cases τ.cells l with
    | none => rfl
    | some w =>
      simp only
      cases view q l w with
      | error p => rfl
      | ok o => simp only; rw [t1]; exact ih o τ
  | alloc n v k ih => intro τ; unfold sexec texec; rw [t1]; exact ih _ _
  | call n key k ih =>
    intro τ
    unfold sexec texec
    rw [h]
    rcases callee key τ with _ | (q | c)
    · rfl
    · rfl
    · exact (ih _ _).trans (t2 (n := n) (key := key) (d := c) (texec view callee σ (k c.val) c.mem)).symm

theorem trun_plain (view : Q → Loc → W → P O) (body : K → OProg V W Q O K R R) (σ : Store V) : ∀ (n : Nat) (key : K) (τ : Store W),
    srun view body σ n key τ = (trun view body σ n key τ).map fun r => r.map fun c => (c.val, c.mem) := by
  intro n
  induction n with
  | zero => intro key τ; rfl
  | succ n ih => intro key τ; exact texec_plain ih _ _

section
variable [DecidableEq V] [DecidableEq W] [DecidableEq O] [DecidableEq K]

theorem still_seen {view : Q → Loc → W → P O} {l : Loc} {q : Q} {o : O} {τ : Store W} : (Fact.seen l q o : Fact W Q O).still view τ = true ↔
    ∃ w, τ.cells l = some w ∧ view q l w = .ok o := by
  cases hl : τ.cells l with
  | none => simp [Fact.still, hl]
  | some w =>
    cases hv : view q l w with
    | error x => simp [Fact.still, hl, hv]
    | ok o' => simp [Fact.still, hl, hv]

theorem still_made {view : Q → Loc → W → P O} {l : Loc} {v : W} {τ : Store W} : (Fact.made l v : Fact W Q O).still view τ = true ↔ τ.cells l = some v := by
  simp [Fact.still]

theorem stills_cons {view : Q → Loc → W → P O} {f : Fact W Q O} {fs : List (Fact W Q O)} {τ : Store W} :
    Stills view (f :: fs) τ ↔ f.still view τ = true ∧ Stills view fs τ := List.forall_mem_cons

/-- Wherever this is still so, the function makes this record and changes nothing. -/
def Good (view : Q → Loc → W → P O) (body : K → OProg V W Q O K R R) (p : NsPath) (key : K) (rd : List (Loc × V)) (fs : List (Fact W Q O)) (r : R) (cs : Calls V W Q O K R) : Prop :=
  ∃ n, ∀ (σ : Store V) (τ : Store W), τ.path = p → Reads rd σ → Stills view fs τ → ∀ m, n ≤ m → trun view body σ m key τ = some (.ok ⟨r, rd, fs, cs, τ⟩)

/-- All calls are good. -/
def AllGood (view : Q → Loc → W → P O) (body : K → OProg V W Q O K R R) (p : NsPath) : Calls V W Q O K R → Prop
  | .nil => True
  | .cons _ key rd fs r sub rest => Good view body p key rd fs r sub ∧ AllGood view body p sub ∧ AllGood view body p rest

theorem AllGood.mem {view : Q → Loc → W → P O} {body : K → OProg V W Q O K R R} {p : NsPath} {nm : Name} {e : OEntry V W Q O K R} :
    ∀ {cs : Calls V W Q O K R}, AllGood view body p cs → (nm, e) ∈ cs.entries → ∃ sub, Good view body p e.key e.reads e.facts e.res sub ∧ ∀ x ∈ sub.entries, x ∈ cs.entries := by
  intro cs
  induction cs with
  | nil => intro _ h; cases h
  | cons n key rd fs r sub rest ih1 ih2 =>
    intro ⟨h1, h2, h3⟩ h
    unfold Calls.entries at h
    rw [List.mem_append, List.mem_append] at h
    rcases h with (h | h) | h
    · obtain ⟨m, hm, he⟩ := List.mem_map.1 h
      cases he
      exact ⟨sub, h1, fun x hx => by unfold Calls.entries; simp [hx]⟩
    · obtain ⟨sub', g1, g2⟩ := ih1 h2 h
      exact ⟨sub', g1, fun x hx => by unfold Calls.entries; simp [g2 x hx]⟩
    · obtain ⟨sub', g1, g2⟩ := ih2 h3 h
      exact ⟨sub', g1, fun x hx => by unfold Calls.entries; simp [g2 x hx]⟩

/-- What is known of a record. -/
structure RecGood (view : Q → Loc → W → P O) (body : K → OProg V W Q O K R R) (σ : Store V) (τ : Store W) (c : Rec V W Q O K R A) : Prop where
  path : c.mem.path = τ.path
  calls : AllGood view body τ.path c.calls
  reads : Reads c.reads σ
  /-- what is not made is as before -/
  kept : ∀ l, l ∉ (madeBy c.facts).map (·.1) → c.mem.cells l = τ.cells l
  /-- what is made once is there at the end -/
  there : ((madeBy c.facts).map (·.1)).Nodup → ∀ x ∈ madeBy c.facts, c.mem.cells x.1 = some x.2
  /-- what the calls make is made -/
  inner : ∀ x ∈ c.calls.entries, ∀ y ∈ madeBy x.2.facts, y ∈ madeBy c.facts
  /-- if all that is made is there already, nothing changes and all is still so -/
  quiet : (∀ x ∈ madeBy c.facts, τ.cells x.1 = some x.2) → c.mem = τ ∧ Stills view c.facts τ

omit [DecidableEq V] [DecidableEq W] [DecidableEq O] [DecidableEq K] in
theorem madeBy_append (a b : List (Fact W Q O)) : madeBy (a ++ b) = madeBy a ++ madeBy b := by
  induction a with
  | nil => rfl
  | cons f a ih => cases f <;> simp [madeBy, ih]

theorem texec_good {view : Q → Loc → W → P O} {body : K → OProg V W Q O K R R} {n : Nat}
    (hc : ∀ σ key τ (c : Rec V W Q O K R R), trun view body σ n key τ = some (.ok c) → RecGood view body σ τ c ∧
      ∀ (σ' : Store V) (τ' : Store W), τ'.path = τ.path → Reads c.reads σ' → Stills view c.facts τ' → ∀ m, n ≤ m → trun view body σ' m key τ' = some (.ok { c with mem := τ' })) :
    ∀ (prog : OProg V W Q O K R A) (σ : Store V) (τ : Store W) (c : Rec V W Q O K R A), texec view (trun view body σ n) σ prog τ = some (.ok c) →
      RecGood view body σ τ c ∧
      ∀ (σ' : Store V) (τ' : Store W), τ'.path = τ.path → Reads c.reads σ' → Stills view c.facts τ' → ∀ m, n ≤ m →
        texec view (trun view body σ' m) σ' prog τ' = some (.ok { c with mem := τ' }) := by
  intro prog
  induction prog with
  | ret a =>
    intro σ τ c h
    cases h
    exact ⟨⟨rfl, trivial, (fun _ h => by cases h), fun _ _ => rfl, (fun _ _ h => by cases h), (fun _ h => by cases h), fun _ => ⟨rfl, (fun _ h => by cases h)⟩⟩,
      fun _ _ _ _ _ _ _ => rfl⟩
  | fail q => intro σ τ c h; cases h
  | force l k ih =>
    intro σ τ c h
    unfold texec at h
    cases hl : σ.cells l with
    | none => rw [hl] at h; cases h
    | some v =>
      rw [hl] at h
      obtain ⟨o, h1, rfl⟩ := thenT_ok h
      obtain ⟨g, gr⟩ := ih v σ τ o h1
      refine ⟨⟨g.path, g.calls, ?_, g.kept, g.there, g.inner, g.quiet⟩, fun σ' τ' hp hr hf m hm => ?_⟩
      · intro x hx
        rcases List.mem_cons.1 hx with rfl | hx
        · exact hl
        · exact g.reads x hx
      · have hr := reads_append.1 hr
        unfold texec
        rw [hr.1 (l, v) (List.mem_singleton.2 rfl)]
        simp only
        rw [gr σ' τ' hp hr.2 hf m hm]
        rfl
  | look l q k ih =>
    intro σ τ c h
    unfold texec at h
    cases hl : τ.cells l with
    | none => rw [hl] at h; cases h
    | some w =>
      rw [hl] at h
      simp only at h
      cases hv : view q l w with
      | error x => rw [hv] at h; cases h
      | ok x =>
        rw [hv] at h
        obtain ⟨o, h1, rfl⟩ := thenT_ok h
        obtain ⟨g, gr⟩ := ih x σ τ o h1
        refine ⟨⟨g.path, g.calls, g.reads, g.kept, g.there, g.inner, fun hx => ?_⟩, fun σ' τ' hp hr hf m hm => ?_⟩
        · obtain ⟨q1, q2⟩ := g.quiet hx
          exact ⟨q1, stills_cons.2 ⟨still_seen.2 ⟨w, hl, hv⟩, q2⟩⟩
        · have hf := stills_cons.1 hf
          obtain ⟨w', w1, w2⟩ := still_seen.1 hf.1
          unfold texec
          simp only [w1, w2]
          rw [gr σ' τ' hp hr hf.2 m hm]
          rfl
  | alloc nm v k ih =>
    intro σ τ c h
    unfold texec at h
    obtain ⟨o, h1, rfl⟩ := thenT_ok h
    obtain ⟨g, gr⟩ := ih _ σ _ o h1
    have hcell : τ.cell .dcg nm v = (τ.set (.named nm τ.path) v, .named nm τ.path) := rfl
    rw [hcell] at g gr
    simp only at g gr
    have set_ne : ∀ l, l ≠ .named nm τ.path → (τ.set (.named nm τ.path) v).cells l = τ.cells l := fun l hl => by simp [Store.set, hl]
    have set_eq : (τ.set (.named nm τ.path) v).cells (.named nm τ.path) = some v := by simp [Store.set]
    refine ⟨⟨g.path, g.calls, g.reads, ?_, ?_, ?_, ?_⟩, fun σ' τ' hp hr hf m hm => ?_⟩
    · intro l hl
      simp only [List.singleton_append, madeBy, List.map_cons, List.mem_cons, not_or] at hl
      rw [g.kept l hl.2]
      exact set_ne l hl.1
    · intro hn x hx
      simp only [List.singleton_append, madeBy, List.map_cons, List.nodup_cons] at hn
      simp only [List.singleton_append, madeBy, List.mem_cons] at hx
      rcases hx with rfl | hx
      · simp only
        rw [g.kept _ hn.1]
        exact set_eq
      · exact g.there hn.2 x hx
    · intro x hx y hy
      exact List.mem_cons_of_mem _ (g.inner x hx y hy)
    · intro hx
      have h0 : τ.cells (.named nm τ.path) = some v := hx (.named nm τ.path, v) List.mem_cons_self
      have e : τ.set (.named nm τ.path) v = τ := set_same h0
      obtain ⟨q1, q2⟩ := g.quiet (by rw [e]; exact fun y hy => hx y (List.mem_cons_of_mem _ hy))
      rw [e] at q1 q2
      exact ⟨q1, stills_cons.2 ⟨still_made.2 h0, q2⟩⟩
    · have hf := stills_cons.1 hf
      have h0 := still_made.1 hf.1
      rw [hcell] at h0
      simp only at h0
      have e : τ'.cell .dcg nm v = (τ', .named nm τ.path) := by
        show (τ'.set (.named nm τ'.path) v, Loc.named nm τ'.path) = _
        rw [hp, set_same h0]
      unfold texec
      rw [e]
      simp only
      rw [gr σ' τ' hp hr hf.2 m hm]
      rfl
  | call nm key k ih =>
    intro σ τ c h
    unfold texec at h
    rcases hk : trun view body σ n key τ with _ | (q | d)
    · rw [hk] at h; cases h
    · rw [hk] at h; cases h
    · rw [hk] at h
      obtain ⟨o, h1, rfl⟩ := thenCall_ok h
      obtain ⟨gd, gdr⟩ := hc σ key τ d hk
      obtain ⟨g, gr⟩ := ih _ σ _ o h1
      refine ⟨⟨g.path.trans gd.path, ⟨⟨n, fun σ' τ' hp hr hf m hm => gdr σ' τ' hp hr hf m hm⟩, gd.calls, by rw [← gd.path]; exact g.calls⟩,
        reads_append.2 ⟨gd.reads, g.reads⟩, ?_, ?_, ?_, ?_⟩, fun σ' τ' hp hr hf m hm => ?_⟩
      · intro l hl
        simp only [madeBy_append, List.map_append, List.mem_append, not_or] at hl
        rw [g.kept l hl.2, gd.kept l hl.1]
      · intro hn x hx
        simp only [madeBy_append, List.map_append, List.nodup_append] at hn
        simp only [madeBy_append, List.mem_append] at hx
        rcases hx with hx | hx
        · rw [← gd.there hn.1 x hx]
          refine g.kept _ fun hm => ?_
          exact hn.2.2 _ (List.mem_map_of_mem hx) _ hm rfl
        · exact g.there hn.2.1 x hx
      · intro x hx y hy
        simp only [madeBy_append, List.mem_append]
        unfold Calls.entries at hx
        rw [List.mem_append, List.mem_append] at hx
        rcases hx with (hx | hx) | hx
        · obtain ⟨m, -, rfl⟩ := List.mem_map.1 hx
          exact .inl hy
        · exact .inl (gd.inner x hx y hy)
        · exact .inr (g.inner x hx y hy)
      · intro hx
        simp only [madeBy_append, List.mem_append] at hx
        obtain ⟨q1, q2⟩ := gd.quiet fun x h => hx x (.inl h)
        rw [q1] at g
        obtain ⟨q3, q4⟩ := g.quiet fun x h => hx x (.inr h)
        exact ⟨q3, stills_append.2 ⟨q2, q4⟩⟩
      · have hr := reads_append.1 hr
        have hf := stills_append.1 hf
        unfold texec
        rw [gdr σ' τ' hp hr.1 hf.1 m hm]
        simp only
        rw [gr σ' τ' (hp.trans gd.path.symm) hr.2 hf.2 m hm]
        rfl

theorem trun_good {view : Q → Loc → W → P O} {body : K → OProg V W Q O K R R} : ∀ (n : Nat) (σ : Store V) (key : K) (τ : Store W) (c : Rec V W Q O K R R),
    trun view body σ n key τ = some (.ok c) → RecGood view body σ τ c ∧
      ∀ (σ' : Store V) (τ' : Store W), τ'.path = τ.path → Reads c.reads σ' → Stills view c.facts τ' → ∀ m, n ≤ m → trun view body σ' m key τ' = some (.ok { c with mem := τ' }) := by
  intro n
  induction n with
  | zero => intro σ key τ c h; cases h
  | succ n ih =>
    intro σ key τ c h
    unfold trun at h
    obtain ⟨g, gr⟩ := texec_good ih _ _ _ _ h
    refine ⟨g, fun σ' τ' hp hr hf m hm => ?_⟩
    obtain ⟨m, rfl⟩ : ∃ j, m = j + 1 := ⟨m - 1, by omega⟩
    unfold trun
    exact gr σ' τ' hp hr hf m (by omega)

/-! ### Work -/

variable [DecidableEq Q] [DecidableEq R]

/-- For some names the stored calls are those of the list. -/
def Known (s : OSpace V W Q O K R) (old : List (Name × OEntry V W Q O K R)) (names : List Name) : Prop := ∀ nm ∈ names, ∀ e, s.table nm = some e ↔ (nm, e) ∈ old

/-- The last run: its calls and the cells that it made. -/
structure Last (view : Q → Loc → W → P O) (body : K → OProg V W Q O K R R) (p : NsPath) (old : Calls V W Q O K R) (made : List (Loc × W)) : Prop where
  good : AllGood view body p old
  names : old.names.Nodup
  inner : ∀ x ∈ old.entries, ∀ y ∈ madeBy x.2.facts, y ∈ made

omit [DecidableEq V] [DecidableEq W] [DecidableEq O] [DecidableEq K] [DecidableEq Q] [DecidableEq R] in
theorem entries_unique {cs : Calls V W Q O K R} (hn : cs.names.Nodup) {nm : Name} {e e' : OEntry V W Q O K R} (h : (nm, e) ∈ cs.entries) (h' : (nm, e') ∈ cs.entries) : e = e' := by
  unfold Calls.names at hn
  generalize cs.entries = l at hn h h'
  induction l with
  | nil => cases h
  | cons x l ih =>
    simp only [List.map_cons, List.nodup_cons, List.mem_map, not_exists, not_and] at hn
    rcases List.mem_cons.1 h with rfl | h
    · rcases List.mem_cons.1 h' with h' | h'
      · cases h'; rfl
      · exact (hn.1 (nm, e') h' rfl).elim
    · rcases List.mem_cons.1 h' with rfl | h'
      · exact (hn.1 (nm, e) (by assumption) rfl).elim
      · exact ih hn.2 h h'

/-- What is known after a memoised run. -/
structure Worked (s : OSpace V W Q O K R) (old : List (Name × OEntry V W Q O K R)) (c : Rec V W Q O K R A) (o : OOut V W Q O K R A) (w : Nat) : Prop where
  val : o.val = c.val
  reads : o.reads = c.reads
  facts : o.facts = c.facts
  mem : o.space.mem = c.mem
  work : o.work = w
  known : Known o.space c.calls.entries c.calls.names
  other : ∀ nm, nm ∉ c.calls.names → o.space.table nm = s.table nm

theorem exec_work {view : Q → Loc → W → P O} {body : K → OProg V W Q O K R R} {p : NsPath} {σ : Store V} {n : Nat} {old : Calls V W Q O K R} {made : List (Loc × W)}
    (hl : Last view body p old made)
    (hc : ∀ key (s : OSpace V W Q O K R) (c : Rec V W Q O K R R), s.mem.path = p → trun view body σ n key s.mem = some (.ok c) → c.Once → Known s old.entries c.calls.names →
      (∀ x ∈ made, x.1 ∈ (madeBy c.facts).map (·.1) → s.mem.cells x.1 = some x.2) →
      ∃ o, orun view body σ n key s = some (.ok o) ∧ Worked s old.entries c o (1 + c.calls.fresh old.entries)) :
    ∀ (prog : OProg V W Q O K R A) (s : OSpace V W Q O K R) (c : Rec V W Q O K R A), s.mem.path = p → texec view (trun view body σ n) σ prog s.mem = some (.ok c) → c.Once →
      Known s old.entries c.calls.names → (∀ x ∈ made, x.1 ∈ (madeBy c.facts).map (·.1) → s.mem.cells x.1 = some x.2) →
      ∃ o, oexec view (orun view body σ n) σ prog s = some (.ok o) ∧ Worked s old.entries c o (c.calls.fresh old.entries) := by
  intro prog
  induction prog with
  | ret a =>
    intro s c hp h h1 hk hm
    cases h
    exact ⟨_, rfl, rfl, rfl, rfl, rfl, rfl, (fun _ h => by cases h), fun _ _ => rfl⟩
  | fail q => intro s c hp h; cases h
  | force l k ih =>
    intro s c hp h h1 hk hm
    unfold texec at h
    cases hl : σ.cells l with
    | none => rw [hl] at h; cases h
    | some v =>
      rw [hl] at h
      obtain ⟨d, h2, rfl⟩ := thenT_ok h
      obtain ⟨o, o1, o2⟩ := ih v s d hp h2 h1 hk hm
      unfold oexec
      rw [hl]
      simp only [o1, thenO]
      exact ⟨_, rfl, o2.val, by simp [o2.reads], by simp [o2.facts], o2.mem, by simp [o2.work], o2.known, o2.other⟩
  | look l q k ih =>
    intro s c hp h h1 hk hm
    unfold texec at h
    cases hl : s.mem.cells l with
    | none => rw [hl] at h; cases h
    | some w =>
      rw [hl] at h
      simp only at h
      cases hv : view q l w with
      | error x => rw [hv] at h; cases h
      | ok x =>
        rw [hv] at h
        obtain ⟨d, h2, rfl⟩ := thenT_ok h
        obtain ⟨o, o1, o2⟩ := ih x s d hp h2 h1 hk hm
        unfold oexec
        simp only [hl, hv, o1, thenO]
        exact ⟨_, rfl, o2.val, by simp [o2.reads], by simp [o2.facts], o2.mem, by simp [o2.work], o2.known, o2.other⟩
  | alloc nm v k ih =>
    intro s c hp h h1 hk hm
    unfold texec at h
    obtain ⟨d, h2, rfl⟩ := thenT_ok h
    have h1' : ((Loc.named nm s.mem.path) :: (madeBy d.facts).map (·.1)).Nodup := h1.2
    obtain ⟨o, o1, o2⟩ := ih (.named nm s.mem.path) { s with mem := s.mem.set (.named nm s.mem.path) v } d hp h2 ⟨h1.1, (List.nodup_cons.1 h1').2⟩ hk (by
      intro x hx hy
      have := hm x hx (List.mem_cons_of_mem _ hy)
      have hne : x.1 ≠ .named nm s.mem.path := by rintro e; rw [e] at hy; exact (List.nodup_cons.1 h1').1 hy
      simp [Store.set, hne, this])
    unfold oexec
    have e : s.mem.cell .dcg nm v = (s.mem.set (.named nm s.mem.path) v, .named nm s.mem.path) := rfl
    rw [e]
    simp only
    rw [o1]
    exact ⟨_, rfl, o2.val, by simp [o2.reads], by simp [o2.facts], o2.mem, by simp [o2.work], o2.known, o2.other⟩
  | call nm key k ih =>
    intro s c hp h h1 hk hm
    unfold texec at h
    rcases hd : trun view body σ n key s.mem with _ | (q | d)
    · rw [hd] at h; cases h
    · rw [hd] at h; cases h
    rw [hd] at h
    obtain ⟨c2, h2, rfl⟩ := thenCall_ok h
    obtain ⟨gd, -⟩ := trun_good n _ _ _ _ hd
    obtain ⟨n1, n2⟩ := h1
    simp only [Calls.names, Calls.entries, List.map_append] at n1
    simp only [madeBy_append, List.map_append] at n2
    rw [List.nodup_append] at n1 n2
    obtain ⟨n1a, n1b, n1c⟩ := n1
    rw [List.nodup_append] at n1a
    obtain ⟨-, n1d, n1e⟩ := n1a
    have d1 : d.Once := ⟨n1d, n2.1⟩
    have c1 : c2.Once := ⟨n1b, n2.2.1⟩
    have names_eq : ∀ x, x ∈ (Calls.cons nm key d.reads d.facts d.val d.calls c2.calls).names ↔ x ∈ nm.toList ∨ x ∈ d.calls.names ∨ x ∈ c2.calls.names := by
      intro x
      simp only [Calls.names, Calls.entries, List.map_append, List.mem_append, List.map_map, or_assoc]
      cases nm <;> simp [eq_comm]
    have sep1 : ∀ x ∈ c2.calls.names, x ∉ d.calls.names := fun x hx hy => n1c x (List.mem_append.2 (.inr hy)) x hx rfl
    have sep2 : ∀ x ∈ c2.calls.names, x ∉ nm.toList := fun x hx hy => n1c x (List.mem_append.2 (.inl (by simpa using hy))) x hx rfl
    have sep3 : ∀ x ∈ d.calls.names, x ∉ nm.toList := fun x hx hy => n1e x (by simpa using hy) x hx rfl
    -- the part after the call
    have rest : ∀ (s2 : OSpace V W Q O K R) (w : Nat), s2.mem = d.mem → (∀ x, x ∉ nm.toList → x ∉ d.calls.names → s2.table x = s.table x) →
        Known s2 d.calls.entries d.calls.names → (∀ m ∈ nm.toList, s2.table m = some ⟨key, d.reads, d.facts, d.val⟩) →
        (Calls.cons nm key d.reads d.facts d.val d.calls c2.calls).fresh old.entries = w + c2.calls.fresh old.entries →
        ∃ o, thenO d.reads d.facts w (oexec view (orun view body σ n) σ (k d.val) s2) = some (.ok o) ∧
          Worked s old.entries { c2 with reads := d.reads ++ c2.reads, facts := d.facts ++ c2.facts, calls := .cons nm key d.reads d.facts d.val d.calls c2.calls } o
            ((Calls.cons nm key d.reads d.facts d.val d.calls c2.calls).fresh old.entries) := by
      intro s2 w e1 e2 e3 e4 e5
      obtain ⟨o, o1, o2⟩ := ih d.val s2 c2 (by rw [e1, gd.path, hp]) (by rw [e1]; exact h2) c1
        (fun x hx e => by
          rw [e2 x (sep2 x hx) (sep1 x hx)]
          exact hk x ((names_eq x).2 (.inr (.inr hx))) e)
        (fun x hx hy => by
          rw [e1, gd.kept x.1 (fun hz => n2.2.2 _ hz _ hy rfl)]
          refine hm x hx ?_
          simp only [madeBy_append, List.map_append, List.mem_append]
          exact .inr hy)
      rw [o1]
      refine ⟨_, rfl, o2.val, by simp [o2.reads], by simp [o2.facts], o2.mem, by simp [o2.work, e5], ?_, ?_⟩
      · intro x hx e
        have hx := (names_eq x).1 hx
        have ent : (x, e) ∈ (Calls.cons nm key d.reads d.facts d.val d.calls c2.calls).entries ↔ (x ∈ nm.toList ∧ e = ⟨key, d.reads, d.facts, d.val⟩) ∨ (x, e) ∈ d.calls.entries ∨ (x, e) ∈ c2.calls.entries := by
          simp only [Calls.entries, List.mem_append, or_assoc]
          cases nm <;> simp [eq_comm]
        rw [ent]
        have in_names : ∀ {cs : Calls V W Q O K R}, (x, e) ∈ cs.entries → x ∈ cs.names := fun h => List.mem_map.2 ⟨_, h, rfl⟩
        show o.space.table x = some e ↔ _
        rcases hx with hx | hx | hx
        · have a1 : x ∉ d.calls.names := fun h => sep3 x h hx
          have a2 : x ∉ c2.calls.names := fun h => sep2 x h hx
          rw [o2.other x a2, e4 x hx]
          constructor
          · intro h; cases h; exact .inl ⟨hx, rfl⟩
          · rintro (h | h | h)
            · rw [h.2]
            · exact absurd (in_names h) a1
            · exact absurd (in_names h) a2
        · have a1 : x ∉ nm.toList := sep3 x hx
          have a2 : x ∉ c2.calls.names := fun h => sep1 x h hx
          rw [o2.other x a2, e3 x hx e]
          constructor
          · exact fun h => .inr (.inl h)
          · rintro (h | h | h)
            · exact absurd h.1 a1
            · exact h
            · exact absurd (in_names h) a2
        · rw [o2.known x hx e]
          constructor
          · exact fun h => .inr (.inr h)
          · rintro (h | h | h)
            · exact absurd h.1 (sep2 x hx)
            · exact absurd (in_names h) (sep1 x hx)
            · exact h
      · intro x hx
        have hx : ¬ (x ∈ nm.toList ∨ x ∈ d.calls.names ∨ x ∈ c2.calls.names) := fun h => hx ((names_eq x).2 h)
        simp only [not_or] at hx
        rw [← e2 x hx.1 hx.2.1]
        exact o2.other x hx.2.2
    obtain ⟨od, od1, od2⟩ := hc key s d hp hd d1 (fun x hx e => hk x ((names_eq x).2 (.inr (.inl hx))) e)
      (fun x hx hy => hm x hx (by simp only [madeBy_append, List.map_append, List.mem_append]; exact .inl hy))
    cases nm with
    | none =>
      unfold oexec
      rw [od1]
      simp only
      have := rest od.space od.work od2.mem (fun x _ hx => od2.other x hx) od2.known (fun _ h => by cases h) (by simp [Calls.fresh, od2.work])
      rw [← od2.reads, ← od2.facts, ← od2.val] at this
      rw [← od2.reads, ← od2.facts, ← od2.val]
      exact this
    | some nm =>
      have hnm := hk nm ((names_eq nm).2 (.inl (by simp)))
      unfold oexec
      cases hlk : s.lookup view nm σ key with
      | some e =>
        obtain ⟨l1, l2, l3, l4⟩ := lookup_some hlk
        have hin := (hnm e).1 l1
        obtain ⟨sub, ⟨m0, g1⟩, g2⟩ := hl.good.mem hin
        have r1 := g1 σ s.mem hp l3 l4 (max m0 n) (Nat.le_max_left _ _)
        rw [l2] at r1
        have hq := (trun_good n _ _ _ _ hd).2
        -- the record is the same at any depth
        have mono : trun view body σ (max m0 n) key s.mem = some (.ok d) := by
          have : ∀ (k j : Nat) (key : K) (τ : Store W) (c : Rec V W Q O K R R), trun view body σ k key τ = some (.ok c) → k ≤ j → trun view body σ j key τ = some (.ok c) := by
            have ex : ∀ {B : Type} {c1 c2 : K → Store W → Option (P (Rec V W Q O K R R))}, (∀ key τ c, c1 key τ = some (.ok c) → c2 key τ = some (.ok c)) →
                ∀ (prog : OProg V W Q O K R B) (τ : Store W) (c : Rec V W Q O K R B), texec view c1 σ prog τ = some (.ok c) → texec view c2 σ prog τ = some (.ok c) := by
              intro B c1 c2 hcc prog
              induction prog with
              | ret a => intro τ c h; exact h
              | fail q => intro τ c h; exact h
              | force l k ih =>
                intro τ c h
                unfold texec at h ⊢
                cases hl : σ.cells l with
                | none => rw [hl] at h; cases h
                | some v =>
                  rw [hl] at h
                  obtain ⟨d, h2, rfl⟩ := thenT_ok h
                  simp only
                  rw [ih v τ d h2]; rfl
              | look l q k ih =>
                intro τ c h
                unfold texec at h ⊢
                cases hl : τ.cells l with
                | none => rw [hl] at h; cases h
                | some w =>
                  rw [hl] at h
                  simp only at h ⊢
                  cases hv : view q l w with
                  | error x => rw [hv] at h; cases h
                  | ok x =>
                    rw [hv] at h
                    obtain ⟨d, h2, rfl⟩ := thenT_ok h
                    simp only
                    rw [ih x τ d h2]; rfl
              | alloc nm v k ih =>
                intro τ c h
                unfold texec at h ⊢
                obtain ⟨d, h2, rfl⟩ := thenT_ok h
                rw [ih _ _ d h2]; rfl
              | call nm key k ih =>
                intro τ c h
                unfold texec at h ⊢
                rcases hd : c1 key τ with _ | (q | d)
                · rw [hd] at h; cases h
                · rw [hd] at h; cases h
                · rw [hd] at h
                  obtain ⟨d2, h2, rfl⟩ := thenCall_ok h
                  rw [hcc key τ d hd]
                  simp only
                  rw [ih _ _ d2 h2]; rfl
            intro k
            induction k with
            | zero => intro j key τ c h; cases h
            | succ k ih =>
              intro j key τ c h hj
              obtain ⟨j, rfl⟩ : ∃ i, j = i + 1 := ⟨j - 1, by omega⟩
              unfold trun at h ⊢
              exact ex (fun key τ c h => ih j key τ c h (by omega)) _ _ _ h
          exact this n _ key s.mem d hd (Nat.le_max_right _ _)
        rw [mono] at r1
        have r2 := Except.ok.inj (Option.some.inj r1)
        have e_eq : e = ⟨key, d.reads, d.facts, d.val⟩ := by rw [r2, ← l2]
        have hsub : d.calls = sub := by rw [r2]
        have hmem : d.mem = s.mem := by rw [r2]
        simp only
        have e_reads : e.reads = d.reads := by rw [e_eq]
        have e_facts : e.facts = d.facts := by rw [e_eq]
        have e_res : e.res = d.val := by rw [e_eq]
        rw [e_reads, e_facts, e_res]
        refine rest s 0 hmem.symm (fun _ _ _ => rfl) (fun x hx e' => ?_) (fun m hm' => ?_) ?_
        · rw [hk x ((names_eq x).2 (.inr (.inl hx))) e']
          constructor
          · intro h
            obtain ⟨⟨x', e''⟩, y1, rfl⟩ := List.mem_map.1 hx
            have y2 := g2 _ (hsub ▸ y1)
            rw [entries_unique hl.names h y2]
            exact y1
          · exact fun h => g2 _ (hsub ▸ h)
        · cases Option.mem_toList.1 hm'
          rw [← e_eq]; exact l1
        · have : (nm, (⟨key, d.reads, d.facts, d.val⟩ : OEntry V W Q O K R)) ∈ old.entries := by rw [← e_eq]; exact hin
          simp [Calls.fresh, this]
      | none =>
        have hnot : (nm, (⟨key, d.reads, d.facts, d.val⟩ : OEntry V W Q O K R)) ∉ old.entries := by
          intro hin
          have l1 := (hnm _).2 hin
          have st : Stills view d.facts s.mem := (gd.quiet fun x hx => by
            refine hm x (hl.inner _ hin x hx) ?_
            simp only [madeBy_append, List.map_append, List.mem_append]
            exact .inl (List.mem_map_of_mem hx)).2
          have : s.lookup view nm σ key = some ⟨key, d.reads, d.facts, d.val⟩ := by
            unfold OSpace.lookup
            rw [l1, Option.filter_eq_some_iff]
            refine ⟨rfl, ?_⟩
            simp only [OEntry.usable, Bool.and_eq_true, decide_eq_true_eq, List.all_eq_true, decide_true, true_and]
            exact ⟨gd.reads, st⟩
          rw [this] at hlk
          cases hlk
        rw [od1]
        simp only
        rw [od2.reads, od2.facts, od2.val]
        refine rest _ od.work od2.mem (fun x hx hy => ?_) (fun x hx e => ?_) (fun m hm' => ?_) ?_
        · have : x ≠ nm := fun h => hx (by simp [h])
          simp only [OSpace.set, if_neg this]
          exact od2.other x hy
        · have : x ≠ nm := fun h => sep3 x hx (by simp [h])
          simp only [OSpace.set, if_neg this]
          exact od2.known x hx e
        · cases Option.mem_toList.1 hm'
          simp [OSpace.set]
        · simp [Calls.fresh, hnot, od2.work]

theorem run_work {view : Q → Loc → W → P O} {body : K → OProg V W Q O K R R} {p : NsPath} {σ : Store V} {old : Calls V W Q O K R} {made : List (Loc × W)}
    (hl : Last view body p old made) : ∀ (n : Nat) (key : K) (s : OSpace V W Q O K R) (c : Rec V W Q O K R R), s.mem.path = p → trun view body σ n key s.mem = some (.ok c) → c.Once →
      Known s old.entries c.calls.names → (∀ x ∈ made, x.1 ∈ (madeBy c.facts).map (·.1) → s.mem.cells x.1 = some x.2) →
      ∃ o, orun view body σ n key s = some (.ok o) ∧ Worked s old.entries c o (1 + c.calls.fresh old.entries) := by
  intro n
  induction n with
  | zero => intro key s c _ h; cases h
  | succ n ih =>
    intro key s c hp h h1 hk hm
    obtain ⟨o, o1, o2⟩ := exec_work hl ih (body key) s c hp h h1 hk hm
    unfold orun
    rw [o1]
    exact ⟨_, rfl, o2.val, by simp [o2.reads], by simp [o2.facts], o2.mem, by simp [o2.work], o2.known, o2.other⟩

/-! ### Sessions -/

/-- What is known of a namespace after some runs. -/
structure RanGood (view : Q → Loc → W → P O) (body : K → OProg V W Q O K R R) (s : OSpace V W Q O K R) (past : List (Calls V W Q O K R)) : Prop where
  path : s.mem.path = []
  used : ∀ nm e, s.table nm = some e → ∃ c ∈ past, nm ∈ c.names
  last : ∃ made, Last view body [] (past.head?.getD .nil) made ∧ (∀ x ∈ made, s.mem.cells x.1 = some x.2) ∧
    Known s (past.head?.getD .nil).entries (past.head?.getD .nil).names

theorem known_next {view : Q → Loc → W → P O} {body : K → OProg V W Q O K R R} {s : OSpace V W Q O K R} {past : List (Calls V W Q O K R)} (h : RanGood view body s past)
    {c : Calls V W Q O K R} (hr : c.NoReturn past) : Known s (past.head?.getD .nil).entries c.names := by
  obtain ⟨made, -, -, h3⟩ := h.last
  intro x hx e
  by_cases hxl : x ∈ (past.head?.getD .nil).names
  · exact h3 x hxl e
  · constructor
    · intro ht
      exfalso
      obtain ⟨d, d1, d2⟩ := h.used x e ht
      cases past with
      | nil => cases d1
      | cons last older =>
        rcases List.mem_cons.1 d1 with rfl | d1
        · exact hxl d2
        · exact hr x hx hxl d d1 d2
    · intro hin
      exact absurd (List.mem_map.2 ⟨_, hin, rfl⟩) hxl

theorem lastCalls_eq (past : List (Calls V W Q O K R)) : lastCalls past = (past.head?.getD .nil).entries := by
  cases past <;> rfl

theorem runs_good {view : Q → Loc → W → P O} {body : K → OProg V W Q O K R R} {s : OSpace V W Q O K R} {past : List (Calls V W Q O K R)} (h : RanAs view body s past) :
    RanGood view body s past := by
  induction h with
  | start =>
    refine ⟨rfl, (fun _ _ h => by cases h), [], ⟨trivial, List.nodup_nil, (fun _ h => by cases h)⟩, (fun _ h => by cases h), (fun _ h => by cases h)⟩
  | @run s past σ n key c o hs hc h1 hr ho ih =>
    obtain ⟨made, l1, l2, l3⟩ := ih.last
    obtain ⟨o', o1, o2⟩ := run_work l1 n key s c ih.path hc h1 (known_next ih hr) (fun x hx _ => l2 x hx)
    rw [o1] at ho
    cases ho
    obtain ⟨g, -⟩ := trun_good n _ _ _ _ hc
    refine ⟨by rw [o2.mem, g.path, ih.path], fun nm e he => ?_, madeBy c.facts, ⟨by rw [← ih.path]; exact g.calls, h1.1, g.inner⟩, ?_, o2.known⟩
    · by_cases hn : nm ∈ c.calls.names
      · exact ⟨_, List.mem_cons_self, hn⟩
      · rw [o2.other nm hn] at he
        obtain ⟨d, d1, d2⟩ := ih.used nm e he
        exact ⟨d, List.mem_cons_of_mem _ d1, d2⟩
    · rw [o2.mem]
      exact g.there h1.2

end
end Iodyn.Incr.Obs
