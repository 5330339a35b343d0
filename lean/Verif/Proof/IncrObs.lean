import Verif.Spec.IncrObs
/-
Memoised runs are runs without memoisation: a stored call that can be used would do nothing but read what it has read and write what is
there already.
-/
namespace Iodyn.Incr.Obs
variable {V W Q O K R A : Type}

/-! ### Runs without memoisation -/

theorem sexec_mono {view : Q → Loc → W → P O} {c1 c2 : K → Store W → Option (P (R × Store W))} {σ : Store V}
    (h : ∀ key τ r, c1 key τ = some r → c2 key τ = some r) : ∀ (prog : OProg V W Q O K R A) (τ : Store W) {r : P (A × Store W)},
    sexec view c1 σ prog τ = some r → sexec view c2 σ prog τ = some r := by
  intro prog
  induction prog with
  | ret a => intro τ r hr; exact hr
  | fail q => intro τ r hr; exact hr
  | force l k ih =>
    intro τ r hr
    unfold sexec at hr ⊢
    cases hc : σ.cells l with
    | none => rw [hc] at hr; exact hr
    | some v => rw [hc] at hr; exact ih v τ hr
  | look l q k ih =>
    intro τ r hr
    unfold sexec at hr ⊢
    cases hc : τ.cells l with
    | none => rw [hc] at hr; exact hr
    | some w =>
      rw [hc] at hr
      simp only at hr ⊢
      cases hv : view q l w with
      | error p => rw [hv] at hr; exact hr
      | ok o => rw [hv] at hr; exact ih o τ hr
  | alloc n v k ih =>
    intro τ r hr
    unfold sexec at hr ⊢
    exact ih _ _ hr
  | call n key k ih =>
    intro τ r hr
    unfold sexec at hr ⊢
    cases hc : c1 key τ with
    | none => rw [hc] at hr; cases hr
    | some x =>
      rw [hc] at hr
      rw [h _ _ _ hc]
      rcases x with q | ⟨y, τ'⟩
      · exact hr
      · exact ih y τ' hr

theorem srun_succ {view : Q → Loc → W → P O} {body : K → OProg V W Q O K R R} {σ : Store V} : ∀ (n : Nat) {key : K} {τ : Store W} {r : P (R × Store W)},
    srun view body σ n key τ = some r → srun view body σ (n + 1) key τ = some r := by
  intro n
  induction n with
  | zero => intro key τ r h; cases h
  | succ n ih =>
    intro key τ r h
    unfold srun at h ⊢
    exact sexec_mono (fun _ _ _ hx => ih hx) _ _ h

theorem srun_mono {view : Q → Loc → W → P O} {body : K → OProg V W Q O K R R} {σ : Store V} {n m : Nat} (hnm : n ≤ m) {key : K} {τ : Store W}
    {r : P (R × Store W)} (h : srun view body σ n key τ = some r) : srun view body σ m key τ = some r := by
  induction hnm with
  | refl => exact h
  | step _ ih => exact srun_succ _ ih

theorem srun_det {view : Q → Loc → W → P O} {body : K → OProg V W Q O K R R} {σ : Store V} {n : Nat} {key : K} {τ : Store W} {r r' : P (R × Store W)}
    (h : srun view body σ n key τ = some r) (h' : Plainly view body σ key τ r') : r = r' := by
  obtain ⟨m, hm⟩ := h'
  have h1 := srun_mono (Nat.le_max_left n m) h
  rw [hm _ (Nat.le_max_right n m)] at h1
  exact (Option.some.inj h1).symm

/-! ### Stored calls -/

/-- The articulations outside still have this content. -/
def Reads (rd : List (Loc × V)) (σ : Store V) : Prop := ∀ p ∈ rd, σ.cells p.1 = some p.2

section
variable [DecidableEq V] [DecidableEq W] [DecidableEq O] [DecidableEq K]

/-- All of this is still so. -/
def Stills (view : Q → Loc → W → P O) (fs : List (Fact W Q O)) (τ : Store W) : Prop := ∀ f ∈ fs, f.still view τ = true

theorem stills_append {view : Q → Loc → W → P O} {fs fs' : List (Fact W Q O)} {τ : Store W} :
    Stills view (fs ++ fs') τ ↔ Stills view fs τ ∧ Stills view fs' τ := List.forall_mem_append

theorem reads_append {rd rd' : List (Loc × V)} {σ : Store V} : Reads (rd ++ rd') σ ↔ Reads rd σ ∧ Reads rd' σ := List.forall_mem_append

/-- Wherever the call can be used, running it would give its result and change nothing. -/
def Replays (view : Q → Loc → W → P O) (body : K → OProg V W Q O K R R) (p : NsPath) (key : K) (rd : List (Loc × V)) (fs : List (Fact W Q O)) (r : R) : Prop :=
  ∃ n, ∀ (σ : Store V) (τ : Store W), τ.path = p → Reads rd σ → Stills view fs τ → ∀ m, n ≤ m → srun view body σ m key τ = some (.ok (r, τ))

/-- All stored calls are good. -/
structure TableOK (view : Q → Loc → W → P O) (body : K → OProg V W Q O K R R) (p : NsPath) (s : OSpace V W Q O K R) : Prop where
  path : s.mem.path = p
  calls : ∀ n e, s.table n = some e → Replays view body p e.key e.reads e.facts e.res

theorem thenO_some {rd : List (Loc × V)} {fs : List (Fact W Q O)} {w : Nat} {x : Option (P (OOut V W Q O K R A))} {r : P (OOut V W Q O K R A)}
    (h : thenO rd fs w x = some r) : (∃ q, x = some (.error q) ∧ r = .error q) ∨
      ∃ o, x = some (.ok o) ∧ r = .ok { o with reads := rd ++ o.reads, facts := fs ++ o.facts, work := w + o.work } := by
  rcases x with _ | (q | o)
  · cases h
  · cases h; exact .inl ⟨q, rfl, rfl⟩
  · cases h; exact .inr ⟨o, rfl, rfl⟩

theorem thenO_none {rd : List (Loc × V)} {fs : List (Fact W Q O)} {w : Nat} {x : Option (P (OOut V W Q O K R A))} (h : thenO rd fs w x = none) : x = none := by
  rcases x with _ | (q | o)
  · rfl
  · cases h
  · cases h

theorem lookup_some {view : Q → Loc → W → P O} {s : OSpace V W Q O K R} {n : Name} {σ : Store V} {key : K} {e : OEntry V W Q O K R}
    (h : s.lookup view n σ key = some e) : s.table n = some e ∧ e.key = key ∧ Reads e.reads σ ∧ Stills view e.facts s.mem := by
  unfold OSpace.lookup at h
  obtain ⟨h1, h2⟩ := Option.filter_eq_some_iff.1 h
  simp only [OEntry.usable, Bool.and_eq_true, decide_eq_true_eq, List.all_eq_true] at h2
  exact ⟨h1, h2.1.1, h2.1.2, h2.2⟩

/-- What is known after a run. -/
def RunGood (view : Q → Loc → W → P O) (body : K → OProg V W Q O K R R) (p : NsPath) (σ : Store V) (key : K) (s : OSpace V W Q O K R) :
    P (OOut V W Q O K R R) → Prop
  | .error q => Plainly view body σ key s.mem (.error q)
  | .ok o => TableOK view body p o.space ∧ Plainly view body σ key s.mem (.ok (o.val, o.space.mem)) ∧ Replays view body p key o.reads o.facts o.val

/-- What is known after running a part of a body. -/
def ExecGood (view : Q → Loc → W → P O) (body : K → OProg V W Q O K R R) (p : NsPath) (σ : Store V) (prog : OProg V W Q O K R A) (s : OSpace V W Q O K R) :
    P (OOut V W Q O K R A) → Prop
  | .error q => ∃ n, ∀ m, n ≤ m → sexec view (srun view body σ m) σ prog s.mem = some (.error q)
  | .ok o => TableOK view body p o.space ∧
      (∃ n, ∀ m, n ≤ m → sexec view (srun view body σ m) σ prog s.mem = some (.ok (o.val, o.space.mem))) ∧
      ∃ n, ∀ (σ' : Store V) (τ : Store W), τ.path = p → Reads o.reads σ' → Stills view o.facts τ → ∀ m, n ≤ m →
        sexec view (srun view body σ' m) σ' prog τ = some (.ok (o.val, τ))

theorem set_same {τ : Store W} {l : Loc} {v : W} (h : τ.cells l = some v) : τ.set l v = τ := by
  unfold Store.set
  congr 1
  funext l'
  by_cases hl : l' = l
  · rw [if_pos hl, hl, h]
  · rw [if_neg hl]

theorem exec_good {view : Q → Loc → W → P O} {body : K → OProg V W Q O K R R} {p : NsPath} {σ : Store V}
    {callee : K → OSpace V W Q O K R → Option (P (OOut V W Q O K R R))}
    (hc : ∀ key s r, TableOK view body p s → callee key s = some r → RunGood view body p σ key s r) :
    ∀ (prog : OProg V W Q O K R A) (s : OSpace V W Q O K R) (r : P (OOut V W Q O K R A)), TableOK view body p s →
      oexec view callee σ prog s = some r → ExecGood view body p σ prog s r := by
  intro prog
  induction prog with
  | ret a =>
    intro s r hs h
    cases h
    exact ⟨hs, ⟨0, fun _ _ => rfl⟩, 0, fun _ _ _ _ _ _ _ => rfl⟩
  | fail q =>
    intro s r hs h
    cases h
    exact ⟨0, fun _ _ => rfl⟩
  | force l k ih =>
    intro s r hs h
    unfold oexec at h
    cases hl : σ.cells l with
    | none =>
      rw [hl] at h
      cases h
      exact ⟨0, fun _ _ => by unfold sexec; rw [hl]⟩
    | some v =>
      rw [hl] at h
      rcases thenO_some h with ⟨q, h1, rfl⟩ | ⟨o, h1, rfl⟩
      · obtain ⟨n, hn⟩ := ih v s _ hs h1
        exact ⟨n, fun m hm => by unfold sexec; rw [hl]; exact hn m hm⟩
      · obtain ⟨t1, ⟨n, hn⟩, n', hn'⟩ := ih v s _ hs h1
        refine ⟨t1, ⟨n, fun m hm => by unfold sexec; rw [hl]; exact hn m hm⟩, n', fun σ' τ hp hr hf m hm => ?_⟩
        have hr := reads_append.1 hr
        unfold sexec
        rw [hr.1 (l, v) (List.mem_singleton.2 rfl)]
        exact hn' σ' τ hp hr.2 hf m hm
  | look l q k ih =>
    intro s r hs h
    unfold oexec at h
    cases hl : s.mem.cells l with
    | none =>
      rw [hl] at h
      cases h
      exact ⟨0, fun _ _ => by unfold sexec; rw [hl]⟩
    | some w =>
      rw [hl] at h
      simp only at h
      cases hv : view q l w with
      | error x =>
        rw [hv] at h
        cases h
        exact ⟨0, fun _ _ => by unfold sexec; rw [hl]; simp only [hv]⟩
      | ok o =>
        rw [hv] at h
        rcases thenO_some h with ⟨x, h1, rfl⟩ | ⟨o', h1, rfl⟩
        · obtain ⟨n, hn⟩ := ih o s _ hs h1
          exact ⟨n, fun m hm => by unfold sexec; rw [hl]; simp only [hv]; exact hn m hm⟩
        · obtain ⟨t1, ⟨n, hn⟩, n', hn'⟩ := ih o s _ hs h1
          refine ⟨t1, ⟨n, fun m hm => by unfold sexec; rw [hl]; simp only [hv]; exact hn m hm⟩, n', fun σ' τ hp hr hf m hm => ?_⟩
          have hf := stills_append.1 hf
          have h2 := hf.1 _ (List.mem_singleton.2 rfl)
          unfold sexec
          unfold Fact.still at h2
          cases hl' : τ.cells l with
          | none => simp only [hl'] at h2; cases h2
          | some w' =>
            simp only [hl'] at h2 ⊢
            cases hv' : view q l w' with
            | error x => simp only [hv'] at h2; cases h2
            | ok o2 =>
              simp only [hv', decide_eq_true_eq] at h2 ⊢
              subst h2
              exact hn' σ' τ hp hr hf.2 m hm
  | alloc n v k ih =>
    intro s r hs h
    unfold oexec at h
    have hs1 : TableOK view body p { s with mem := s.mem.set (.named n s.mem.path) v } := ⟨hs.path, hs.calls⟩
    rcases thenO_some h with ⟨x, h1, rfl⟩ | ⟨o, h1, rfl⟩
    · obtain ⟨n', hn⟩ := ih _ _ _ hs1 h1
      exact ⟨n', fun m hm => by unfold sexec; exact hn m hm⟩
    · obtain ⟨t1, ⟨n', hn⟩, n'', hn'⟩ := ih _ _ _ hs1 h1
      refine ⟨t1, ⟨n', fun m hm => by unfold sexec; exact hn m hm⟩, n'', fun σ' τ hp hr hf m hm => ?_⟩
      have hf := stills_append.1 hf
      have h2 := hf.1 _ (List.mem_singleton.2 rfl)
      simp only [Fact.still, decide_eq_true_eq, Store.cell, hs.path] at h2
      unfold sexec
      simp only [Store.cell, hp, set_same h2]
      have := hn' σ' τ hp hr hf.2 m hm
      simpa only [hs.path] using this
  | call nm key k ih =>
    have miss : ∀ (s : OSpace V W Q O K R) (r : P (OOut V W Q O K R A)) (nx : OOut V W Q O K R R → OSpace V W Q O K R), TableOK view body p s →
        (∀ c, TableOK view body p c.space → Replays view body p key c.reads c.facts c.val → TableOK view body p (nx c) ∧ (nx c).mem = c.space.mem) →
        (match callee key s with
          | none => none
          | some (.error q) => some (.error q)
          | some (.ok c) => thenO c.reads c.facts c.work (oexec view callee σ (k c.val) (nx c))) = some r →
        ExecGood view body p σ (.call nm key k) s r := by
      intro s r nx hs hx h
      cases hk : callee key s with
      | none => rw [hk] at h; cases h
      | some c =>
        rw [hk] at h
        have hg := hc key s _ hs hk
        rcases c with q | c
        · cases h
          obtain ⟨n, hn⟩ := hg
          exact ⟨n, fun m hm => by unfold sexec; rw [hn m hm]⟩
        · obtain ⟨g1, ⟨n, hn⟩, g3⟩ := hg
          obtain ⟨x1, x2⟩ := hx c g1 g3
          obtain ⟨n', hn'⟩ := g3
          rcases thenO_some h with ⟨q, h1, rfl⟩ | ⟨o, h1, rfl⟩
          · obtain ⟨n2, hn2⟩ := ih _ _ _ x1 h1
            rw [x2] at hn2
            exact ⟨max n n2, fun m hm => by unfold sexec; rw [hn m (by omega)]; exact hn2 m (by omega)⟩
          · obtain ⟨t1, ⟨n2, hn2⟩, n3, hn3⟩ := ih _ _ _ x1 h1
            rw [x2] at hn2
            refine ⟨t1, ⟨max n n2, fun m hm => by unfold sexec; rw [hn m (by omega)]; exact hn2 m (by omega)⟩,
              max n' n3, fun σ' τ hp hr hf m hm => ?_⟩
            have hr := reads_append.1 hr
            have hf := stills_append.1 hf
            unfold sexec
            rw [hn' σ' τ hp hr.1 hf.1 m (by omega)]
            exact hn3 σ' τ hp hr.2 hf.2 m (by omega)
    intro s r hs h
    cases nm with
    | none =>
      unfold oexec at h
      exact miss s r (fun c => c.space) hs (fun c h1 _ => ⟨h1, rfl⟩) h
    | some nm =>
      unfold oexec at h
      cases hl : s.lookup view nm σ key with
      | some e =>
        rw [hl] at h
        obtain ⟨e1, e2, e3, e4⟩ := lookup_some hl
        obtain ⟨n, hn⟩ := hs.calls _ _ e1
        rw [e2] at hn
        rcases thenO_some h with ⟨q, h1, rfl⟩ | ⟨o, h1, rfl⟩
        · obtain ⟨n2, hn2⟩ := ih _ _ _ hs h1
          exact ⟨max n n2, fun m hm => by unfold sexec; rw [hn σ s.mem hs.path e3 e4 m (by omega)]; exact hn2 m (by omega)⟩
        · obtain ⟨t1, ⟨n2, hn2⟩, n3, hn3⟩ := ih _ _ _ hs h1
          refine ⟨t1, ⟨max n n2, fun m hm => by unfold sexec; rw [hn σ s.mem hs.path e3 e4 m (by omega)]; exact hn2 m (by omega)⟩,
            max n n3, fun σ' τ hp hr hf m hm => ?_⟩
          have hr := reads_append.1 hr
          have hf := stills_append.1 hf
          unfold sexec
          rw [hn σ' τ hp hr.1 hf.1 m (by omega)]
          exact hn3 σ' τ hp hr.2 hf.2 m (by omega)
      | none =>
        rw [hl] at h
        refine miss s r (fun c => c.space.set nm ⟨key, c.reads, c.facts, c.val⟩) hs (fun c h1 h2 => ⟨⟨h1.path, ?_⟩, rfl⟩) h
        intro n e he
        simp only [OSpace.set] at he
        by_cases hn : n = nm
        · rw [if_pos hn] at he; cases he; exact h2
        · rw [if_neg hn] at he; exact h1.calls n e he

theorem run_good {view : Q → Loc → W → P O} {body : K → OProg V W Q O K R R} {p : NsPath} {σ : Store V} :
    ∀ (n : Nat) (key : K) (s : OSpace V W Q O K R) (r : P (OOut V W Q O K R R)), TableOK view body p s → orun view body σ n key s = some r →
      RunGood view body p σ key s r := by
  intro n
  induction n with
  | zero => intro key s r _ h; cases h
  | succ n ih =>
    intro key s r hs h
    unfold orun at h
    rcases thenO_some h with ⟨q, h1, rfl⟩ | ⟨o, h1, rfl⟩
    · obtain ⟨n', hn⟩ := exec_good ih _ _ _ hs h1
      refine ⟨n' + 1, fun m hm => ?_⟩
      obtain ⟨m, rfl⟩ : ∃ j, m = j + 1 := ⟨m - 1, by omega⟩
      exact hn m (by omega)
    · obtain ⟨t1, ⟨n', hn⟩, n'', hn'⟩ := exec_good ih _ _ _ hs h1
      refine ⟨t1, ⟨n' + 1, fun m hm => ?_⟩, n'' + 1, fun σ' τ hp hr hf m hm => ?_⟩
      · obtain ⟨m, rfl⟩ : ∃ j, m = j + 1 := ⟨m - 1, by omega⟩
        exact hn m (by omega)
      · obtain ⟨m, rfl⟩ : ∃ j, m = j + 1 := ⟨m - 1, by omega⟩
        exact hn' σ' τ hp hr hf m (by omega)

/-! ### Memoised runs are no deeper -/

theorem exec_ends {view : Q → Loc → W → P O} {body : K → OProg V W Q O K R R} {p : NsPath} {σ : Store V} {n : Nat}
    (hc : ∀ key s, TableOK view body p s → srun view body σ n key s.mem ≠ none → orun view body σ n key s ≠ none) :
    ∀ (prog : OProg V W Q O K R A) (s : OSpace V W Q O K R), TableOK view body p s → sexec view (srun view body σ n) σ prog s.mem ≠ none →
      oexec view (orun view body σ n) σ prog s ≠ none := by
  intro prog
  induction prog with
  | ret a => intro s _ _ h; cases h
  | fail q => intro s _ _ h; cases h
  | force l k ih =>
    intro s hs h
    unfold sexec at h
    unfold oexec
    cases hl : σ.cells l with
    | none => intro h; cases h
    | some v =>
      rw [hl] at h
      exact fun hx => ih v s hs h (thenO_none hx)
  | look l q k ih =>
    intro s hs h
    unfold sexec at h
    unfold oexec
    cases hl : s.mem.cells l with
    | none => intro h; cases h
    | some w =>
      rw [hl] at h
      simp only at h ⊢
      cases hv : view q l w with
      | error x => intro h; cases h
      | ok o =>
        rw [hv] at h
        exact fun hx => ih o s hs h (thenO_none hx)
  | alloc m v k ih =>
    intro s hs h
    unfold sexec at h
    unfold oexec
    exact fun hx => ih _ { s with mem := s.mem.set (.named m s.mem.path) v } ⟨hs.path, hs.calls⟩ h (thenO_none hx)
  | call nm key k ih =>
    intro s hs h
    unfold sexec at h
    have miss : ∀ (nx : OOut V W Q O K R R → OSpace V W Q O K R), 
        (∀ c, TableOK view body p c.space → Replays view body p key c.reads c.facts c.val → TableOK view body p (nx c) ∧ (nx c).mem = c.space.mem) →
        (match orun view body σ n key s with
          | none => none
          | some (.error q) => some (.error q)
          | some (.ok c) => thenO c.reads c.facts c.work (oexec view (orun view body σ n) σ (k c.val) (nx c))) ≠ none := by
      intro nx hx
      cases hk : srun view body σ n key s.mem with
      | none => rw [hk] at h; exact absurd rfl h
      | some y =>
        rw [hk] at h
        cases ho : orun view body σ n key s with
        | none => exact absurd ho (hc key s hs (by rw [hk]; intro h; cases h))
        | some c =>
          have hg := run_good n key s _ hs ho
          rcases c with q | c
          · intro h; cases h
          · obtain ⟨g1, g2, g3⟩ := hg
            obtain ⟨x1, x2⟩ := hx c g1 g3
            have := srun_det hk g2
            subst this
            refine fun hx => ih _ _ x1 ?_ (thenO_none hx)
            rw [x2]
            exact h
    cases nm with
    | none =>
      unfold oexec
      exact miss (fun c => c.space) (fun c h1 _ => ⟨h1, rfl⟩)
    | some nm =>
      unfold oexec
      cases hl : s.lookup view nm σ key with
      | some e =>
        obtain ⟨e1, e2, e3, e4⟩ := lookup_some hl
        obtain ⟨n', hn⟩ := hs.calls _ _ e1
        rw [e2] at hn
        refine fun hx => ih _ s hs ?_ (thenO_none hx)
        cases hk : srun view body σ n key s.mem with
        | none => rw [hk] at h; exact absurd rfl h
        | some y =>
          rw [hk] at h
          have := srun_det hk ⟨n', fun m hm => hn σ s.mem hs.path e3 e4 m hm⟩
          subst this
          exact h
      | none =>
        refine miss (fun c => c.space.set nm ⟨key, c.reads, c.facts, c.val⟩) (fun c h1 h2 => ⟨⟨h1.path, ?_⟩, rfl⟩)
        intro n e he
        simp only [OSpace.set] at he
        by_cases hn : n = nm
        · rw [if_pos hn] at he; cases he; exact h2
        · rw [if_neg hn] at he; exact h1.calls n e he

theorem run_ends {view : Q → Loc → W → P O} {body : K → OProg V W Q O K R R} {p : NsPath} {σ : Store V} :
    ∀ (n : Nat) (key : K) (s : OSpace V W Q O K R), TableOK view body p s → srun view body σ n key s.mem ≠ none → orun view body σ n key s ≠ none := by
  intro n
  induction n with
  | zero => intro key s _ h; exact absurd rfl h
  | succ n ih =>
    intro key s hs h
    unfold orun
    exact fun hx => exec_ends ih _ s hs h (thenO_none hx)

theorem thenO_mono {rd : List (Loc × V)} {fs : List (Fact W Q O)} {w : Nat} {x y : Option (P (OOut V W Q O K R A))} {r : P (OOut V W Q O K R A)}
    (hxy : ∀ r, x = some r → y = some r) (h : thenO rd fs w x = some r) : thenO rd fs w y = some r := by
  rcases x with _ | x
  · cases h
  · rw [hxy x rfl]; exact h

theorem oexec_mono {view : Q → Loc → W → P O} {c1 c2 : K → OSpace V W Q O K R → Option (P (OOut V W Q O K R R))} {σ : Store V}
    (h : ∀ key s r, c1 key s = some r → c2 key s = some r) : ∀ (prog : OProg V W Q O K R A) (s : OSpace V W Q O K R) (r : P (OOut V W Q O K R A)),
    oexec view c1 σ prog s = some r → oexec view c2 σ prog s = some r := by
  intro prog
  induction prog with
  | ret a => intro s r hr; exact hr
  | fail q => intro s r hr; exact hr
  | force l k ih =>
    intro s r hr
    unfold oexec at hr ⊢
    cases hc : σ.cells l with
    | none => rw [hc] at hr; exact hr
    | some v => rw [hc] at hr; exact thenO_mono (ih v s) hr
  | look l q k ih =>
    intro s r hr
    unfold oexec at hr ⊢
    cases hc : s.mem.cells l with
    | none => rw [hc] at hr; exact hr
    | some w =>
      rw [hc] at hr
      simp only at hr ⊢
      cases hv : view q l w with
      | error p => rw [hv] at hr; exact hr
      | ok o => rw [hv] at hr; exact thenO_mono (ih o s) hr
  | alloc n v k ih =>
    intro s r hr
    unfold oexec at hr ⊢
    exact thenO_mono (ih _ _) hr
  | call n key k ih =>
    intro s r hr
    have miss : ∀ (nx : OOut V W Q O K R R → OSpace V W Q O K R),
        (match c1 key s with
          | none => none
          | some (.error q) => some (.error q)
          | some (.ok c) => thenO c.reads c.facts c.work (oexec view c1 σ (k c.val) (nx c))) = some r →
        (match c2 key s with
          | none => none
          | some (.error q) => some (.error q)
          | some (.ok c) => thenO c.reads c.facts c.work (oexec view c2 σ (k c.val) (nx c))) = some r := by
      intro nx hr
      cases hc : c1 key s with
      | none => rw [hc] at hr; cases hr
      | some x =>
        rw [hc] at hr
        rw [h _ _ _ hc]
        rcases x with q | c
        · exact hr
        · exact thenO_mono (ih _ _) hr
    cases n with
    | none => unfold oexec at hr ⊢; exact miss _ hr
    | some n =>
      unfold oexec at hr ⊢
      cases hl : s.lookup view n σ key with
      | some e => rw [hl] at hr; exact thenO_mono (ih _ _) hr
      | none => rw [hl] at hr; exact miss _ hr

theorem orun_mono {view : Q → Loc → W → P O} {body : K → OProg V W Q O K R R} {σ : Store V} {n m : Nat} (hnm : n ≤ m) {key : K} {s : OSpace V W Q O K R}
    {r : P (OOut V W Q O K R R)} (h : orun view body σ n key s = some r) : orun view body σ m key s = some r := by
  have succ : ∀ (n : Nat) (key : K) (s : OSpace V W Q O K R) (r : P (OOut V W Q O K R R)), orun view body σ n key s = some r → orun view body σ (n + 1) key s = some r := by
    intro n
    induction n with
    | zero => intro key s r h; cases h
    | succ n ih =>
      intro key s r h
      unfold orun at h ⊢
      exact thenO_mono (oexec_mono ih _ _) h
  induction hnm with
  | refl => exact h
  | step _ ih => exact succ _ _ _ _ ih

/-- A run that ends without memoisation, with a result, ends with it with memoisation, no deeper. -/
theorem run_total {view : Q → Loc → W → P O} {body : K → OProg V W Q O K R R} {p : NsPath} {σ : Store V} {n : Nat} {key : K} {s : OSpace V W Q O K R}
    (hs : TableOK view body p s) {a : R} {τ : Store W} (h : srun view body σ n key s.mem = some (.ok (a, τ))) :
    ∃ o, (∀ m, n ≤ m → orun view body σ m key s = some (.ok o)) ∧ o.val = a ∧ o.space.mem = τ ∧ TableOK view body p o.space := by
  have h1 := run_ends n key s hs (by rw [h]; intro h; cases h)
  rcases ho : orun view body σ n key s with _ | r
  · exact absurd ho h1
  · have hg := run_good n key s _ hs ho
    rcases r with q | o
    · cases srun_det h hg
    · obtain ⟨g1, g2, -⟩ := hg
      cases srun_det h g2
      exact ⟨o, fun m hm => orun_mono hm ho, rfl, rfl, g1⟩

theorem tableOK_empty (view : Q → Loc → W → P O) (body : K → OProg V W Q O K R R) : TableOK view body [] (OSpace.empty : OSpace V W Q O K R) :=
  ⟨rfl, fun _ _ h => by cases h⟩

theorem tableOK_rerun {view : Q → Loc → W → P O} {body : K → OProg V W Q O K R R} {s : OSpace V W Q O K R} (h : Rerun view body s) : TableOK view body [] s := by
  induction h with
  | start => exact tableOK_empty view body
  | run _ ho ih => exact (run_good _ _ _ _ ih ho).1
  | disturb _ hm ih => exact ⟨hm.trans ih.path, ih.calls⟩

end
end Iodyn.Incr.Obs
