import Verif.Spec.Incr
import Verif.Proof.HeapVars
/-
Memoised runs give what plain runs give.
-/
namespace Iodyn.Incr
open Iodyn.Heap (Tr Cell Mem HTree RepT)
variable {V K R A D X E M : Type}

/-- The store has what was read. -/
def Agrees (rd : List (Loc × V)) (σ : Store V) : Prop := ∀ p ∈ rd, σ.cells p.1 = some p.2

theorem Agrees.nil (σ : Store V) : Agrees [] σ := by simp [Agrees]

theorem agrees_append {a b : List (Loc × V)} {σ : Store V} : Agrees (a ++ b) σ ↔ Agrees a σ ∧ Agrees b σ := by
  simp [Agrees, or_imp, forall_and]

theorem agrees_cons {l : Loc} {v : V} {b : List (Loc × V)} {σ : Store V} :
    Agrees ((l, v) :: b) σ ↔ σ.cells l = some v ∧ Agrees b σ := by
  simp [Agrees]

/-- Every stored call gives its result in every store that has what it read. -/
def Valid (body : Name → K → Prog V K R R) (T : Table V K R) : Prop :=
  ∀ p n e, T p n = some e → ∃ N, ∀ σ, Agrees e.reads σ → run (body p) σ N e.key = some (.ok e.res)

theorem Valid.empty (body : Name → K → Prog V K R R) : Valid body Table.empty := by
  intro p n e h; cases h

theorem Valid.set {body : Name → K → Prog V K R R} {T : Table V K R} (h : Valid body T) {p n : Name} {e : Entry V K R}
    (he : ∃ N, ∀ σ, Agrees e.reads σ → run (body p) σ N e.key = some (.ok e.res)) : Valid body (T.set p n e) := by
  intro p' n' e' h'
  unfold Table.set at h'
  split at h'
  · rename_i hp; cases h'; rw [hp.1]; exact he
  · exact h p' n' e' h'

theorem exec_mono {c c' : K → Option (P R)} (hc : ∀ key x, c key = some x → c' key = some x) {σ : Store V} :
    ∀ (g : Prog V K R A) {x}, exec c σ g = some x → exec c' σ g = some x := by
  intro g
  induction g with
  | ret a => intro x h; exact h
  | fail p => intro x h; exact h
  | force l k ih =>
    intro x h
    unfold exec at h ⊢
    cases hl : σ.cells l with
    | none => rw [hl] at h; exact h
    | some v => rw [hl] at h; exact ih v h
  | call n key k ih =>
    intro x h
    unfold exec at h ⊢
    cases hk : c key with
    | none => rw [hk] at h; cases h
    | some y =>
      rw [hk] at h
      rw [hc key y hk]
      cases y with
      | error p => exact h
      | ok r => exact ih r h

theorem run_mono_one (body : K → Prog V K R R) (σ : Store V) : ∀ (n : Nat) (key : K) (x : P R),
    run body σ n key = some x → run body σ (n+1) key = some x := by
  intro n
  induction n with
  | zero => intro key x h; cases h
  | succ n ih => intro key x h; exact exec_mono ih _ h

theorem run_mono {body : K → Prog V K R R} {σ : Store V} {n m : Nat} (h : n ≤ m) {key : K} {x : P R}
    (hr : run body σ n key = some x) : run body σ m key = some x := by
  induction m with
  | zero => cases (Nat.le_zero.1 h); exact hr
  | succ m ih =>
    by_cases hm : n = m + 1
    · subst hm; exact hr
    · exact run_mono_one _ _ _ _ _ (ih (by omega))

theorem run_unique {body : K → Prog V K R R} {σ : Store V} {n m : Nat} {key : K} {x y : P R}
    (hx : run body σ n key = some x) (hy : run body σ m key = some y) : x = y := by
  have h1 := run_mono (Nat.le_max_left n m) hx
  have h2 := run_mono (Nat.le_max_right n m) hy
  rw [h1] at h2; cases h2; rfl

theorem exec_run_mono {body : K → Prog V K R R} {σ : Store V} {n m : Nat} (h : n ≤ m) {g : Prog V K R A} {x : P A}
    (hr : exec (run body σ n) σ g = some x) : exec (run body σ m) σ g = some x :=
  exec_mono (fun _ _ h' => run_mono h h') g hr

section
variable [DecidableEq V] [DecidableEq K]

theorem lookup_some {T : Table V K R} {p n : Name} {σ : Store V} {key : K} {e : Entry V K R}
    (h : lookup T p n σ key = some e) : T p n = some e ∧ e.key = key ∧ Agrees e.reads σ := by
  unfold lookup at h
  rw [Option.filter_eq_some_iff] at h
  refine ⟨h.1, ?_⟩
  have h2 := h.2
  simp only [Entry.usable, Bool.and_eq_true, decide_eq_true_eq, List.all_eq_true] at h2
  exact ⟨h2.1, fun q hq => h2.2 q hq⟩

theorem lookup_hit {T : Table V K R} {p n : Name} {σ : Store V} {e : Entry V K R} (h1 : T p n = some e)
    (h2 : Agrees e.reads σ) : lookup T p n σ e.key = some e := by
  unfold lookup
  rw [Option.filter_eq_some_iff]
  refine ⟨h1, ?_⟩
  simp only [Entry.usable, Bool.and_eq_true, decide_eq_true_eq, List.all_eq_true, true_and]
  exact fun q hq => h2 q hq

theorem mexec_mono {c c' : K → Table V K R → Option (P (MOut V K R R))} (hc : ∀ key T x, c key T = some x → c' key T = some x)
    {p : Name} {σ : Store V} : ∀ (g : Prog V K R A) {T : Table V K R} {x}, mexec c p σ g T = some x → mexec c' p σ g T = some x := by
  intro g
  induction g with
  | ret a => intro T x h; exact h
  | fail p => intro T x h; exact h
  | force l k ih =>
    intro T x h
    unfold mexec at h ⊢
    cases hl : σ.cells l with
    | none => rw [hl] at h; exact h
    | some v =>
      rw [hl] at h
      cases h1 : mexec c p σ (k v) T with
      | none => simp only [h1] at h; cases h
      | some w => simp only [h1] at h; simp only [ih _ h1]; exact h
  | call n key k ih =>
    intro T x h
    cases n with
    | none =>
      unfold mexec at h ⊢
      cases hk : c key T with
      | none => rw [hk] at h; cases h
      | some y =>
        rw [hk] at h
        rw [hc key T y hk]
        cases y with
        | error p => exact h
        | ok r =>
          cases h1 : mexec c p σ (k r.val) r.table with
          | none => simp only [h1] at h; cases h
          | some w => simp only [h1] at h; simp only [ih _ h1]; exact h
    | some m =>
      unfold mexec at h ⊢
      cases hl : lookup T p m σ key with
      | some e =>
        rw [hl] at h
        cases h1 : mexec c p σ (k e.res) T with
        | none => simp only [h1] at h; cases h
        | some w => simp only [h1] at h; simp only [ih _ h1]; exact h
      | none =>
        rw [hl] at h
        simp only at h ⊢
        cases hk : c key T with
        | none => rw [hk] at h; cases h
        | some y =>
          rw [hk] at h
          rw [hc key T y hk]
          cases y with
          | error p => exact h
          | ok r =>
            cases h1 : mexec c p σ (k r.val) (r.table.set p m ⟨key, r.reads, r.val⟩) with
            | none => simp only [h1] at h; cases h
            | some w => simp only [h1] at h; simp only [ih _ h1]; exact h

theorem mrun_mono_one (body : K → Prog V K R R) (p : Name) (σ : Store V) : ∀ (n : Nat) (key : K) (T : Table V K R) (x : P (MOut V K R R)),
    mrun body p σ n key T = some x → mrun body p σ (n+1) key T = some x := by
  intro n
  induction n with
  | zero => intro key T x h; cases h
  | succ n ih =>
    intro key T x h
    unfold mrun at h ⊢
    cases h1 : mexec (mrun body p σ n) p σ (body key) T with
    | none => rw [h1] at h; cases h
    | some y => rw [h1] at h; rw [mexec_mono ih _ h1]; exact h

theorem mrun_mono {body : K → Prog V K R R} {p : Name} {σ : Store V} {n m : Nat} (h : n ≤ m) {key : K} {T : Table V K R}
    {x : P (MOut V K R R)} (hr : mrun body p σ n key T = some x) : mrun body p σ m key T = some x := by
  induction m with
  | zero => cases (Nat.le_zero.1 h); exact hr
  | succ m ih =>
    by_cases hm : n = m + 1
    · subst hm; exact hr
    · exact mrun_mono_one _ _ _ _ _ _ _ (ih (by omega))

/-- What a memoised run must give if the plain one gives `x`: the same, with sound stored calls and sound reads. -/
def Good (body : Name → K → Prog V K R R) (σ : Store V) (again : Store V → Nat → Option (P A)) (x : P A)
    (y : Option (P (MOut V K R A))) : Prop :=
  match x with
  | .error q => y = some (.error q)
  | .ok a => ∃ o, y = some (.ok o) ∧ o.val = a ∧ Valid body o.table ∧ Agrees o.reads σ ∧
      ∃ N, ∀ σ', Agrees o.reads σ' → again σ' N = some (.ok a)

theorem mexec_good {body : Name → K → Prog V K R R} {p : Name} {σ : Store V} {n : Nat}
    (hc : ∀ key T x, Valid body T → run (body p) σ n key = some x →
      Good body σ (fun σ' N => run (body p) σ' N key) x (mrun (body p) p σ n key T)) :
    ∀ (g : Prog V K R A) (T : Table V K R) (x : P A), Valid body T → exec (run (body p) σ n) σ g = some x →
      Good body σ (fun σ' N => exec (run (body p) σ' N) σ' g) x (mexec (mrun (body p) p σ n) p σ g T) := by
  intro g
  induction g with
  | ret a =>
    intro T x hT h
    cases h
    exact ⟨_, rfl, rfl, hT, Agrees.nil _, 0, fun _ _ => rfl⟩
  | fail q => intro T x hT h; cases h; rfl
  | force l k ih =>
    intro T x hT h
    unfold exec at h
    unfold mexec
    cases hl : σ.cells l with
    | none => rw [hl] at h; cases h; rfl
    | some v =>
      rw [hl] at h
      have h1 := ih v T x hT h
      cases x with
      | error q => rw [Good] at h1; simp only [h1]; rfl
      | ok a =>
        obtain ⟨o, ho, hv, hT', ha, N, hN⟩ := h1
        simp only [ho]
        refine ⟨_, rfl, hv, hT', agrees_cons.2 ⟨hl, ha⟩, N, fun σ' h' => ?_⟩
        have h'' := agrees_cons.1 h'
        simp only [exec, h''.1]
        exact hN σ' h''.2
  | call nm key k ih =>
    intro T x hT h
    unfold exec at h
    cases hk : run (body p) σ n key with
    | none => rw [hk] at h; cases h
    | some y =>
      rw [hk] at h
      have plain : ∀ (T1 : MOut V K R R → Table V K R),
          (∀ c : MOut V K R R, Valid body c.table → (∃ N, ∀ σ', Agrees c.reads σ' → run (body p) σ' N key = some (.ok c.val)) →
            Valid body (T1 c)) →
          Good body σ (fun σ' N => exec (run (body p) σ' N) σ' (.call nm key k)) x
            (match mrun (body p) p σ n key T with
            | none => none
            | some (.error q) => some (.error q)
            | some (.ok c) =>
              match mexec (mrun (body p) p σ n) p σ (k c.val) (T1 c) with
              | some (.ok o) => some (.ok { o with reads := c.reads ++ o.reads, work := c.work + o.work })
              | x => x) := by
        intro T1 hT1
        have h0 := hc key T y hT hk
        cases y with
        | error q => simp only at h; cases h; rw [Good] at h0; simp only [h0]; rfl
        | ok r =>
          obtain ⟨c, hcm, hv, hTc, ha, N, hN⟩ := h0
          simp only at h
          simp only [hcm]
          subst hv
          have h1 := ih c.val (T1 c) x (hT1 c hTc ⟨N, hN⟩) h
          cases x with
          | error q => rw [Good] at h1; simp only [h1]; rfl
          | ok a =>
            obtain ⟨o, ho, hv', hT', ha', N', hN'⟩ := h1
            simp only [ho]
            refine ⟨_, rfl, hv', hT', agrees_append.2 ⟨ha, ha'⟩, max N N', fun σ' h' => ?_⟩
            have h'' := agrees_append.1 h'
            simp only [exec, run_mono (Nat.le_max_left N N') (hN σ' h''.1)]
            exact exec_run_mono (Nat.le_max_right N N') (hN' σ' h''.2)
      cases nm with
      | none =>
        unfold mexec
        exact plain (fun c => c.table) (fun c h1 _ => h1)
      | some m =>
        unfold mexec
        cases hl : lookup T p m σ key with
        | none =>
          simp only
          exact plain (fun c => c.table.set p m ⟨key, c.reads, c.val⟩) (fun c h1 h2 => h1.set h2)
        | some e =>
          simp only
          obtain ⟨h1, h2, h3⟩ := lookup_some hl
          subst h2
          obtain ⟨N, hN⟩ := hT p m e h1
          have hy := run_unique hk (hN σ h3)
          subst hy
          simp only at h
          have h4 := ih e.res T x hT h
          cases x with
          | error q => rw [Good] at h4; simp only [h4]; rfl
          | ok a =>
            obtain ⟨o, ho, hv', hT', ha', N', hN'⟩ := h4
            simp only [ho]
            refine ⟨_, rfl, hv', hT', agrees_append.2 ⟨h3, ha'⟩, max N N', fun σ' h' => ?_⟩
            have h'' := agrees_append.1 h'
            simp only [exec, run_mono (Nat.le_max_left N N') (hN σ' h''.1)]
            exact exec_run_mono (Nat.le_max_right N N') (hN' σ' h''.2)

theorem mrun_good {body : Name → K → Prog V K R R} {p : Name} {σ : Store V} : ∀ (n : Nat) (key : K) (T : Table V K R) (x : P R),
    Valid body T → run (body p) σ n key = some x →
      Good body σ (fun σ' N => run (body p) σ' N key) x (mrun (body p) p σ n key T) := by
  intro n
  induction n with
  | zero => intro key T x _ h; cases h
  | succ n ih =>
    intro key T x hT h
    have h1 := mexec_good ih (body p key) T x hT h
    unfold mrun
    cases x with
    | error q => rw [Good] at h1; simp only [h1]; rfl
    | ok a =>
      obtain ⟨o, ho, hv, hT', ha, N, hN⟩ := h1
      simp only [ho]
      exact ⟨_, rfl, hv, hT', ha, N + 1, hN⟩
/-- A memoised run that returns does so because the plain run does. -/
theorem mexec_sound {body : Name → K → Prog V K R R} {p : Name} {σ : Store V} {n : Nat}
    (hc : ∀ key T o, Valid body T → mrun (body p) p σ n key T = some (.ok o) →
      Valid body o.table ∧ Agrees o.reads σ ∧ ∃ N, ∀ σ', Agrees o.reads σ' → run (body p) σ' N key = some (.ok o.val)) :
    ∀ (g : Prog V K R A) (T : Table V K R) (o : MOut V K R A), Valid body T → mexec (mrun (body p) p σ n) p σ g T = some (.ok o) →
      Valid body o.table ∧ Agrees o.reads σ ∧ ∃ N, ∀ σ', Agrees o.reads σ' → exec (run (body p) σ' N) σ' g = some (.ok o.val) := by
  intro g
  induction g with
  | ret a => intro T o hT h; cases h; exact ⟨hT, Agrees.nil _, 0, fun _ _ => rfl⟩
  | fail q => intro T o hT h; cases h
  | force l k ih =>
    intro T o hT h
    unfold mexec at h
    cases hl : σ.cells l with
    | none => rw [hl] at h; cases h
    | some v =>
      rw [hl] at h
      simp only at h
      cases h1 : mexec (mrun (body p) p σ n) p σ (k v) T with
      | none => simp only [h1] at h; cases h
      | some y =>
        simp only [h1] at h
        cases y with
        | error q => cases h
        | ok o1 =>
          cases h
          obtain ⟨a, b, N, hN⟩ := ih v T o1 hT h1
          refine ⟨a, agrees_cons.2 ⟨hl, b⟩, N, fun σ' h' => ?_⟩
          have h'' := agrees_cons.1 h'
          simp only [exec, h''.1]
          exact hN σ' h''.2
  | call nm key k ih =>
    intro T o hT h
    have plain : ∀ (T1 : MOut V K R R → Table V K R),
        (∀ c : MOut V K R R, Valid body c.table → (∃ N, ∀ σ', Agrees c.reads σ' → run (body p) σ' N key = some (.ok c.val)) →
          Valid body (T1 c)) →
        (match mrun (body p) p σ n key T with
          | none => none
          | some (.error q) => some (.error q)
          | some (.ok c) =>
            match mexec (mrun (body p) p σ n) p σ (k c.val) (T1 c) with
            | some (.ok o) => some (.ok { o with reads := c.reads ++ o.reads, work := c.work + o.work })
            | x => x) = some (.ok o) →
        Valid body o.table ∧ Agrees o.reads σ ∧
          ∃ N, ∀ σ', Agrees o.reads σ' → exec (run (body p) σ' N) σ' (.call nm key k) = some (.ok o.val) := by
      intro T1 hT1 h
      cases h0 : mrun (body p) p σ n key T with
      | none => simp only [h0] at h; cases h
      | some y =>
        simp only [h0] at h
        cases y with
        | error q => cases h
        | ok c =>
          simp only at h
          obtain ⟨a, b, N, hN⟩ := hc key T c hT h0
          cases h1 : mexec (mrun (body p) p σ n) p σ (k c.val) (T1 c) with
          | none => simp only [h1] at h; cases h
          | some y =>
            simp only [h1] at h
            cases y with
            | error q => cases h
            | ok o1 =>
              cases h
              obtain ⟨a', b', N', hN'⟩ := ih c.val (T1 c) o1 (hT1 c a ⟨N, hN⟩) h1
              refine ⟨a', agrees_append.2 ⟨b, b'⟩, max N N', fun σ' h' => ?_⟩
              have h'' := agrees_append.1 h'
              simp only [exec, run_mono (Nat.le_max_left N N') (hN σ' h''.1)]
              exact exec_run_mono (Nat.le_max_right N N') (hN' σ' h''.2)
    cases nm with
    | none =>
      unfold mexec at h
      exact plain (fun c => c.table) (fun c h1 _ => h1) h
    | some m =>
      unfold mexec at h
      cases hl : lookup T p m σ key with
      | none =>
        simp only [hl] at h
        exact plain (fun c => c.table.set p m ⟨key, c.reads, c.val⟩) (fun c h1 h2 => h1.set h2) h
      | some e =>
        simp only [hl] at h
        obtain ⟨h1, h2, h3⟩ := lookup_some hl
        subst h2
        obtain ⟨N, hN⟩ := hT p m e h1
        cases h4 : mexec (mrun (body p) p σ n) p σ (k e.res) T with
        | none => simp only [h4] at h; cases h
        | some y =>
          simp only [h4] at h
          cases y with
          | error q => cases h
          | ok o1 =>
            cases h
            obtain ⟨a', b', N', hN'⟩ := ih e.res T o1 hT h4
            refine ⟨a', agrees_append.2 ⟨h3, b'⟩, max N N', fun σ' h' => ?_⟩
            have h'' := agrees_append.1 h'
            simp only [exec, run_mono (Nat.le_max_left N N') (hN σ' h''.1)]
            exact exec_run_mono (Nat.le_max_right N N') (hN' σ' h''.2)

theorem mrun_sound {body : Name → K → Prog V K R R} {p : Name} {σ : Store V} : ∀ (n : Nat) (key : K) (T : Table V K R)
    (o : MOut V K R R), Valid body T → mrun (body p) p σ n key T = some (.ok o) →
      Valid body o.table ∧ Agrees o.reads σ ∧ ∃ N, ∀ σ', Agrees o.reads σ' → run (body p) σ' N key = some (.ok o.val) := by
  intro n
  induction n with
  | zero => intro key T o _ h; cases h
  | succ n ih =>
    intro key T o hT h
    unfold mrun at h
    cases h1 : mexec (mrun (body p) p σ n) p σ (body p key) T with
    | none => simp only [h1] at h; cases h
    | some y =>
      simp only [h1] at h
      cases y with
      | error q => cases h
      | ok o1 =>
        cases h
        obtain ⟨a, b, N, hN⟩ := mexec_sound ih (body p key) T o1 hT h1
        exact ⟨a, b, N + 1, hN⟩

theorem Made.valid {body : Name → K → Prog V K R R} {T : Table V K R} (h : Made body T) : Valid body T := by
  induction h with
  | empty => exact Valid.empty body
  | run _ h ih => exact (mrun_sound _ _ _ _ ih h).1
end

/-! ### Folds over trees in the store -/

/-- The plain fold of a branch. -/
def runUp (F : Fns D R) (σ : Mem D X) (n : Nat) : Option Tr → Option (P (Option R))
  | none => some (.ok none)
  | some t => (run (foldBody F) σ n (.up t)).map (Except.map some)

/-- Going on after a call. -/
def andThen {B : Type} (x : P B) (k : B → Option (P A)) : Option (P A) :=
  match x with
  | .error p => some (.error p)
  | .ok a => k a

theorem exec_upBranch {F : Fns D R} {σ : Mem D X} {n : Nat} {nm : Option Name} {t : Option Tr}
    {k : Option R → Prog (Cell D X) (Key R) R A} {x : P (Option R)} (h : runUp F σ n t = some x) :
    exec (run (foldBody F) σ n) σ (upBranch nm t k) = andThen x (fun a => exec (run (foldBody F) σ n) σ (k a)) := by
  cases t with
  | none => cases h; rfl
  | some t =>
    simp only [runUp, Option.map_eq_some_iff] at h
    obtain ⟨y, h1, rfl⟩ := h
    simp only [upBranch, exec, h1]
    cases y <;> rfl

theorem runUp_spec (F : Fns D R) {e : Engine} {σ : Mem D X} : ∀ {t : Tree D} {h : Option Tr}, RepT e σ h t →
    ∀ n, t.size ≤ n → runUp F σ n h = some (t.foldUpMeta F.up) := by
  intro t
  induction t with
  | nil => rintro h rfl n _; rfl
  | node lv nm d l r ihl ihr =>
    rintro h ⟨k, hl, hr, rfl, -, hc, h1, h2⟩ n hn
    simp only [Tree.size] at hn
    obtain ⟨n, rfl⟩ : ∃ m, n = m + 1 := ⟨n - 1, by omega⟩
    have e1 := ihl h1 n (by omega)
    have e2 := ihr h2 n (by omega)
    simp only [runUp, run, foldBody, exec, hc]
    rw [exec_upBranch e1]
    simp only [Tree.foldUpMeta]
    cases Tree.foldUpMeta F.up l with
    | error p => rfl
    | ok a =>
      simp only [bind, Except.bind, andThen]
      rw [exec_upBranch e2]
      cases Tree.foldUpMeta F.up r with
      | error p => rfl
      | ok b =>
        simp only [andThen]
        cases F.up a d lv nm b <;> rfl

/-- The plain left fold of a branch. -/
def runLr (F : Fns D R) (σ : Mem D X) (n : Nat) (start : Option Name) (a : R) : Option Tr → Option (P R)
  | none => some (.ok a)
  | some t => run (foldBody F) σ n (.lr t start a)

theorem exec_lrBranch {F : Fns D R} {σ : Mem D X} {n : Nat} {nm start : Option Name} {a : R} {t : Option Tr}
    {k : R → Prog (Cell D X) (Key R) R A} {b : R} (h : runLr F σ n start a t = some (.ok b)) :
    exec (run (foldBody F) σ n) σ (lrBranch nm start a t k) = exec (run (foldBody F) σ n) σ (k b) := by
  cases t with
  | none => cases h; rfl
  | some t =>
    simp only [runLr] at h
    simp only [lrBranch, exec, h]

theorem runLr_spec (F : Fns D R) {e : Engine} {σ : Mem D X} : ∀ {t : Tree D} {h : Option Tr}, RepT e σ h t →
    ∀ n start a, t.size ≤ n → runLr F σ n start a h = some (.ok (t.foldLrMeta F.lr start a)) := by
  intro t
  induction t with
  | nil => rintro h rfl n start a _; rfl
  | node lv nm d l r ihl ihr =>
    rintro h ⟨k, hl, hr, rfl, -, hc, h1, h2⟩ n start a hn
    simp only [Tree.size] at hn
    obtain ⟨n, rfl⟩ : ∃ m, n = m + 1 := ⟨n - 1, by omega⟩
    have i1 : hl.isSome = l.isSome := by
      have := h1.isNone; cases hl <;> cases hx : l.isSome <;> simp_all
    have i2 : hr.isSome = r.isSome := by
      have := h2.isNone; cases hr <;> cases hx : r.isSome <;> simp_all
    simp only [runLr, run, foldBody, exec, hc, Tree.foldLrMeta, i1, i2]
    split
    · rw [exec_lrBranch (ihl h1 n start a (by omega)), exec_lrBranch (ihr h2 n nm _ (by omega))]
      rfl
    · rfl

/-! ### Clients -/
section
open Iodyn.Heap
variable {C : Type} [RazMeta E M] [DecidableEq E] [DecidableEq M] [DecidableEq R] {e : Engine}

/-- The bodies by namespace. -/
abbrev bodies (F : C → Fns (TreeData E M) R) (g : Name → C) :
    Name → Key R → Prog (Cell (TreeData E M) (Nat × List E)) (Key R) R R := fun p => foldBody (F (g p))

omit [RazMeta E M] in
theorem memoFold_sim {F : C → Fns (TreeData E M) R} {g : Name → C} {p : Name} {T : RTable E M R} (hT : Valid (bodies F g) T)
    {σ : RMem E M} {k : Key R} {x : P R} {N : Nat} (hr : ∀ n, N ≤ n → run (foldBody (F (g p))) σ n k = some x) :
    Sim (memoFold (F (g p)) p k T) σ x (fun b a σ' => a.1 = b ∧ Valid (bodies F g) a.2 ∧ σ' = σ) := by
  have key : ∀ n, N ≤ n → Good (bodies F g) σ (fun σ' N => run (bodies F g p) σ' N k) x (mrun (bodies F g p) p σ n k T) :=
    fun n hn => mrun_good n k T x hT (hr n hn)
  unfold Sim
  cases x with
  | error q => exact ⟨N, fun f hf => by unfold memoFold; rw [key f hf]⟩
  | ok b =>
    obtain ⟨o, h1, h2, h3, -⟩ := key N (Nat.le_refl N)
    refine ⟨(o.val, o.table), σ, ⟨N, fun f hf => ?_⟩, h2, h3, rfl⟩
    have : mrun (bodies F g p) p σ f k T = some (.ok o) := mrun_mono hf h1
    unfold memoFold
    rw [this]

theorem ev_sim {F : C → Fns (TreeData E M) R} {g : Name → C} {σ : RMem E M} {hvs : HVars E M} {vs : Vars E M} {T : RTable E M R}
    (h : RepV e σ hvs vs) (hT : Valid (bodies F g) T) (ev : Ev E (RazMeta.Index E M) R C) (l : List (Ev E (RazMeta.Index E M) R C))
    (hg : ev.UsesNs g) (hf : Fine e vs (Ev.stmts (ev :: l))) :
    Sim (HVars.ev e F hvs T ev) σ (vs.ev F ev) (fun b a σ' => RepV e σ' a.1 b.1 ∧ a.2.2 = b.2 ∧ Valid (bodies F g) a.2.1 ∧
      Fine e b.1 (Ev.stmts l)) := by
  cases ev with
  | stmt c =>
    unfold HVars.ev Vars.ev
    refine (vars_step_sim h c hf.head).bind ?_
    rintro ⟨vs', o⟩ ⟨hvs', o'⟩ σ' - ⟨k1, k2, k3⟩
    simp only at k1 k2 k3; subst k2
    exact Sim.pure ⟨k1, rfl, hT, hf.tail k3⟩
  | up p c i =>
    have hg : c = g p := hg
    subst hg
    have hf : Fine e vs (Ev.stmts l) := hf
    unfold HVars.ev Vars.ev
    rcases h.lookup i with ⟨h1, h2⟩ | ⟨h1, h2⟩ | ⟨hs, s, h1, h2, h3, hi, h4⟩ <;> simp only [h1, h2]
    · exact Sim.pure ⟨h, rfl, hT, hf⟩
    · exact Sim.pure ⟨h, rfl, hT, hf⟩
    · cases hs with
      | cursor hz =>
        cases s with
        | cursor z => exact Sim.pure ⟨h, rfl, hT, hf⟩
        | tree t => exact h3.elim
      | tree ht =>
        cases s with
        | cursor z => exact h3.elim
        | tree t =>
          have h5 : RepT e σ ht.tree t.tree := RepRT.tree h3
          have h6 := runUp_spec (F (g p)) h5
          obtain ⟨mt, tr⟩ := ht
          cases tr with
          | none =>
            simp only
            have := h6 t.tree.size (Nat.le_refl _)
            simp only [runUp, Option.some.injEq] at this
            rw [← this]
            exact Sim.pure ⟨h, rfl, hT, hf⟩
          | some tr =>
            simp only [runUp] at h6
            simp only
            have hx : ∃ y : P R, t.tree.foldUpMeta (F (g p)).up = y.map some ∧
                ∀ n, t.tree.size ≤ n → run (foldBody (F (g p))) σ n (.up tr) = some y := by
              have h7 := h6 t.tree.size (Nat.le_refl _)
              simp only [Option.map_eq_some_iff] at h7
              obtain ⟨y, h7, h8⟩ := h7
              exact ⟨y, h8.symm, fun n hn => run_mono hn h7⟩
            obtain ⟨y, h7, h8⟩ := hx
            have h9 : (do let r ← t.tree.foldUpMeta (F (g p)).up; return (vs, Ans.up r) : P (Vars E M × Ans E R)) =
                y >>= fun r => Pure.pure (vs, Ans.up (some r)) := by
              rw [h7]; cases y <;> rfl
            rw [h9]
            refine (memoFold_sim hT h8).bind ?_
            rintro b ⟨a, T'⟩ σ' - ⟨q1, q2, rfl⟩
            simp only at q1 q2; subst q1
            exact Sim.pure ⟨h, rfl, q2, hf⟩
  | lr p c i init =>
    have hg : c = g p := hg
    subst hg
    have hf : Fine e vs (Ev.stmts l) := hf
    unfold HVars.ev Vars.ev
    rcases h.lookup i with ⟨h1, h2⟩ | ⟨h1, h2⟩ | ⟨hs, s, h1, h2, h3, hi, h4⟩ <;> simp only [h1, h2]
    · exact Sim.pure ⟨h, rfl, hT, hf⟩
    · exact Sim.pure ⟨h, rfl, hT, hf⟩
    · cases hs with
      | cursor hz =>
        cases s with
        | cursor z => exact Sim.pure ⟨h, rfl, hT, hf⟩
        | tree t => exact h3.elim
      | tree ht =>
        cases s with
        | cursor z => exact h3.elim
        | tree t =>
          have h5 : RepT e σ ht.tree t.tree := RepRT.tree h3
          have h6 := fun n hn => runLr_spec (F (g p)) h5 n startName init hn
          obtain ⟨mt, tr⟩ := ht
          cases tr with
          | none =>
            simp only
            have := h6 t.tree.size (Nat.le_refl _)
            simp only [runLr, Option.some.injEq, Except.ok.injEq] at this
            rw [← this]
            exact Sim.pure ⟨h, rfl, hT, hf⟩
          | some tr =>
            simp only [runLr] at h6
            simp only
            have h9 : (return (vs, Ans.lr (t.tree.foldLrMeta (F (g p)).lr startName init)) : P (Vars E M × Ans E R)) =
                (.ok (t.tree.foldLrMeta (F (g p)).lr startName init) : P R) >>= fun r => Pure.pure (vs, Ans.lr r) := rfl
            rw [h9]
            refine (memoFold_sim hT h6).bind ?_
            rintro b ⟨a, T'⟩ σ' - ⟨q1, q2, rfl⟩
            simp only at q1 q2; subst q1
            exact Sim.pure ⟨h, rfl, q2, hf⟩

theorem evs_sim {F : C → Fns (TreeData E M) R} {g : Name → C} : ∀ (l : List (Ev E (RazMeta.Index E M) R C)) {σ : RMem E M}
    {hvs : HVars E M} {vs : Vars E M} {T : RTable E M R}, RepV e σ hvs vs → Valid (bodies F g) T → (∀ ev ∈ l, ev.UsesNs g) →
    Fine e vs (Ev.stmts l) → Sim (HVars.evs e F hvs T l) σ (vs.evs F l) (fun b a σ' => RepV e σ' a.1 b.1 ∧ a.2.2 = b.2) := by
  intro l
  induction l with
  | nil => intro σ hvs vs T h _ _ _; exact Sim.pure ⟨h, rfl⟩
  | cons ev l ih =>
    intro σ hvs vs T h hT hg hf
    unfold HVars.evs Vars.evs
    refine (ev_sim h hT ev l (hg ev List.mem_cons_self) hf).bind ?_
    rintro ⟨vs', o⟩ ⟨hvs', T', o'⟩ σ' - ⟨k1, k2, k3, k4⟩
    simp only at k1 k2 k3 k4; subst k2
    refine (ih k1 k3 (fun ev h => hg ev (List.mem_cons_of_mem _ h)) k4).bind ?_
    rintro ⟨vs'', os⟩ ⟨hvs'', T'', os'⟩ σ'' - ⟨q1, q2⟩
    simp only at q1 q2; subst q2
    exact Sim.pure ⟨q1, rfl⟩

theorem evAnswers_of_fine {F : C → Fns (TreeData E M) R} {g : Name → C} (l : List (Ev E (RazMeta.Index E M) R C))
    (hg : ∀ ev ∈ l, ev.UsesNs g) (h : Fine e ([] : Vars E M) (Ev.stmts l)) : EvAnswers (M := M) e F l (evAnswers (M := M) F l) := by
  have h1 := evs_sim (F := F) l (e := e) (σ := (Store.empty : RMem E M)) (hvs := []) (vs := [])
    ⟨rfl, fun i h1 _ => by simp at h1⟩ (Valid.empty _) hg h
  unfold evAnswers
  unfold Sim at h1
  cases hx : Vars.evs (M := M) F [] l with
  | error p =>
    rw [hx] at h1
    obtain ⟨f0, hf⟩ := h1
    exact ⟨f0, fun f hle => by rw [hf f hle]; rfl⟩
  | ok b =>
    rw [hx] at h1
    obtain ⟨a, σ', ⟨f0, hf⟩, -, h3⟩ := h1
    exact ⟨f0, fun f hle => by rw [hf f hle]; exact congrArg Except.ok h3⟩
end

end Iodyn.Incr
