import Verif.Spec.OpenWork
import Verif.Proof.IncrLrProg
/-
Memoised left folds that carry something from leaf to leaf, besides the link of the archived part: as `Proof/IncrLr.lean`, but the
accumulator with which a branch is entered depends on what is carried there.
-/
namespace Iodyn.Incr.Op
open Iodyn.Heap (Tr Cell Mem HTree ASt Keeps Dis)
open Iodyn.Incr.Lr (Sem StepsTo LS foldP used pointsFrom_isSome stepsTo_refl agrees_keep)
variable {V W K R S A B D X D' X' E M N T O : Type}

/-- What is carried from leaf to leaf. -/
structure Carry (A D O : Type) where
  /-- past a leaf -/
  adv : D → O → O
  /-- the accumulator with which a branch is entered -/
  home : Option Name × O → A
  /-- the accumulators after a branch -/
  Mid : O → A → Prop
  okLeaf : D → O → Prop
  okNode : D → Name → Prop

/-- What is carried past the tree of a view. -/
abbrev Carry.adv' (C : Carry A D O) : Tr × D → O → O := fun d => C.adv d.2

/-- The node function does what it should. -/
def NodeCan [DecidableEq D] [DecidableEq X] [DecidableEq D'] [DecidableEq X'] [DecidableEq A] (node : AccNode (Cell D X) (Cell D' X') A D)
    (g : Sem A S D D' X') (C : Carry A D O) : Prop :=
  ∀ (callee : LrKey A → LS D X D' X' A → Option (P (AOut (Cell D X) (Cell D' X') (LrKey A) A A))) (σ : Mem D X) (s : LS D X D' X' A)
    (ns : Name → Prop) (a : A) (x : S) (d : D) (lv : Nat) (n : Option Name) (k : A → AProg (Cell D X) (Cell D' X') (LrKey A) A A),
    Fresh s.mem → g.Rel s.mem ns a x → (∀ m ∈ g.uses d n, ¬ ns m) →
    match g.f x d lv n with
    | .error q => amexec callee σ (node a d lv n k) s = some (.error q)
    | .ok _ => ∃ a' fs s', amexec callee σ (node a d lv n k) s = after [] fs 0 (amexec callee σ (k a') s') ∧ s'.table = s.table ∧
        Fresh s'.mem ∧ Keeps (g.uses d n) s.mem s'.mem ∧ Agrees fs s'.mem ∧ StepsTo g fs a a' (fun x => g.f x d lv n) (g.uses d n) ∧
        (∀ o, C.okLeaf d o → a = C.home (n, o) → C.Mid (C.adv d o) a' ∧ Within fs (g.uses d n)) ∧
        (∀ m o, C.okNode d m → n = some m → C.Mid o a → a' = C.home (n, o) ∧ Within fs (g.uses d n))

/-- The trees for which accumulators depend on what came before only by what is carried. -/
def Full (C : Carry A D O) : O → Tree (Tr × D) → Prop
  | _, .nil => False
  | o, .node _ n (_, d) l r => (l.isSome = false ∧ r.isSome = false ∧ C.okLeaf d o) ∨
      (Full C o l ∧ Full C (carried C.adv' o l) r ∧ ∃ m, n = some m ∧ C.okNode d m)

/-! ### Branches -/

theorem mem_pointWith {nm : Option Name} {c : Option Name × O} {v : Tree D} {q : Name × (Option Name × O) × Tree D} (h : q ∈ pointWith nm c v) :
    nm = some q.1 ∧ q.2 = (c, v) := by
  unfold pointWith at h
  split at h
  · simp only [List.mem_singleton] at h; subst h; exact ⟨rfl, rfl⟩
  · cases h

theorem pointWith_map (nm : Option Name) (c : Option Name × O) (v : Tree D) : (pointWith nm c v).map (·.1) = (point nm v).map (·.1) := by
  unfold pointWith point
  split <;> simp_all

theorem pointsWith_map (adv : D → O → O) : ∀ (v : Tree D) (c : Option Name × O), (pointsWith adv c v).map (·.1) = memoNames v := by
  intro v
  induction v with
  | nil => intro c; rfl
  | node lv n d l r ihl ihr =>
    intro c
    simp only [memoNames] at ihl ihr
    simp only [pointsWith, memoNames, points, List.map_append, pointWith_map, ihl, ihr]

/-- The memoised calls for a branch: its own and those below. -/
def bwith (adv : D → O → O) (nm : Option Name) (c : Option Name × O) (v : Tree D) : List (Name × (Option Name × O) × Tree D) :=
  pointWith nm c v ++ pointsWith adv c v

/-- Their names. -/
def bnames (nm : Option Name) (v : Tree D) : List Name := (point nm v).map (·.1) ++ memoNames v

theorem bwith_map (adv : D → O → O) (nm : Option Name) (c : Option Name × O) (v : Tree D) : (bwith adv nm c v).map (·.1) = bnames nm v := by
  simp only [bwith, bnames, List.map_append, pointWith_map, pointsWith_map]

theorem pointsWith_below {adv : D → O → O} : ∀ {v : Tree D} {c : Option Name × O} {q : Name × (Option Name × O) × Tree D}, q ∈ pointsWith adv c v →
    pointsWith adv q.2.1 q.2.2 ⊆ pointsWith adv c v := by
  intro v
  induction v with
  | nil => intro c q h; cases h
  | node lv n d l r ihl ihr =>
    intro c q h
    simp only [pointsWith, List.mem_append] at h
    intro z hz
    simp only [pointsWith, List.mem_append]
    rcases h with ((h | h) | h) | h
    · rw [(mem_pointWith h).2] at hz; exact .inl (.inr hz)
    · rw [(mem_pointWith h).2] at hz; exact .inr hz
    · exact .inl (.inr (ihl h hz))
    · exact .inr (ihr h hz)

theorem bwith_sub {adv : D → O → O} {nm : Option Name} {c : Option Name × O} {v : Tree D} {q : Name × (Option Name × O) × Tree D}
    (h : q ∈ bwith adv nm c v) : pointsWith adv q.2.1 q.2.2 ⊆ bwith adv nm c v := by
  simp only [bwith, List.mem_append] at h
  rcases h with h | h
  · rw [(mem_pointWith h).2]; exact fun _ h => List.mem_append_right _ h
  · exact fun x hx => List.mem_append_right _ (pointsWith_below h hx)

theorem used_below {uses : D → Option Name → List Name} {adv : Tr × D → O → O} : ∀ {v : Tree (Tr × D)} {c : Option Name × O}
    {q : Name × (Option Name × O) × Tree (Tr × D)}, q ∈ pointsWith adv c v → used uses q.2.1.1 q.2.2 ⊆ used uses c.1 v := by
  intro v
  induction v with
  | nil => intro c q h; cases h
  | node lv n d l r ihl ihr =>
    intro c q h
    obtain ⟨t, d⟩ := d
    by_cases hs : (l.isSome || r.isSome) = true
    · intro z hz
      simp only [used, if_pos hs, List.mem_append]
      simp only [pointsWith, List.mem_append] at h
      rcases h with ((h | h) | h) | h
      · rw [(mem_pointWith h).2] at hz; exact .inl hz
      · rw [(mem_pointWith h).2] at hz; exact .inr (.inr hz)
      · exact .inl (ihl h hz)
      · exact .inr (.inr (ihr h hz))
    · obtain ⟨rfl, rfl⟩ := pointsFrom_isSome hs
      cases n <;> simp [pointsWith, pointWith] at h

theorem bwith_used {uses : D → Option Name → List Name} {adv : Tr × D → O → O} {nm : Option Name} {c : Option Name × O} {v : Tree (Tr × D)}
    {q : Name × (Option Name × O) × Tree (Tr × D)} (h : q ∈ bwith adv nm c v) : used uses q.2.1.1 q.2.2 ⊆ used uses c.1 v := by
  simp only [bwith, List.mem_append] at h
  rcases h with h | h
  · rw [(mem_pointWith h).2]; exact fun _ h => h
  · exact used_below h

theorem full_below {C : Carry A D O} : ∀ {v : Tree (Tr × D)} {c : Option Name × O} {q : Name × (Option Name × O) × Tree (Tr × D)}, Full C c.2 v →
    q ∈ pointsWith C.adv' c v → Full C q.2.1.2 q.2.2 := by
  intro v
  induction v with
  | nil => intro c q _ h; cases h
  | node lv n d l r ihl ihr =>
    intro c q hf h
    obtain ⟨t, d⟩ := d
    simp only [Full] at hf
    rcases hf with hf | hf
    · obtain ⟨rfl, rfl⟩ := pointsFrom_isSome (l := l) (r := r) (by simp [hf.1, hf.2.1])
      cases n <;> simp [pointsWith, pointWith] at h
    · simp only [pointsWith, List.mem_append] at h
      rcases h with ((h | h) | h) | h
      · rw [(mem_pointWith h).2]; exact hf.1
      · rw [(mem_pointWith h).2]; exact hf.2.1
      · exact ihl hf.1 h
      · exact ihr (c := (n, carried C.adv' c.2 l)) hf.2.1 h

theorem bwith_full {C : Carry A D O} {nm : Option Name} {c : Option Name × O} {v : Tree (Tr × D)} {q : Name × (Option Name × O) × Tree (Tr × D)}
    (hf : Full C c.2 v) (h : q ∈ bwith C.adv' nm c v) : Full C q.2.1.2 q.2.2 := by
  simp only [bwith, List.mem_append] at h
  rcases h with h | h
  · rw [(mem_pointWith h).2]; exact hf
  · exact full_below hf h

theorem view_pointsWith {σ : Mem D X} {adv : Tr × D → O → O} : ∀ {v : Tree (Tr × D)} {h : Option Tr} {c : Option Name × O}, View σ h v →
    ∀ q ∈ pointsWith adv c v, View σ (rootH q.2.2) q.2.2 := by
  intro v
  induction v with
  | nil => intro h c _ q hq; cases hq
  | node lv n d l r ihl ihr =>
    intro h c hv q hq
    cases hv with
    | node hc h1 h2 =>
      simp only [pointsWith, List.mem_append] at hq
      rcases hq with ((hq | hq) | hq) | hq
      · rw [(mem_pointWith hq).2]; simp only [h1.root]; exact h1
      · rw [(mem_pointWith hq).2]; simp only [h2.root]; exact h2
      · exact ihl h1 q hq
      · exact ihr h2 q hq

/-! ### Stored calls -/

/-- The stored call has folded this tree. -/
structure IsFor (g : Sem A S D D' X') (C : Carry A D O) (e : AEntry (Cell D X) (Cell D' X') (LrKey A) A) (v : Tree (Tr × D)) : Prop where
  root : rootH v = some e.key.tree
  det : ∀ σ', Agrees e.reads σ' → View σ' (some e.key.tree) v
  cov : ∀ σ', View σ' (some e.key.tree) v → Agrees e.reads σ'
  step : StepsTo g e.facts e.key.accum e.res (fun x => foldP g.f e.key.start x v) (used g.uses e.key.start v)
  can : ∀ o, Full C o v → e.key.accum = C.home (e.key.start, o) → C.Mid (carried C.adv' o v) e.res ∧ Within e.facts (used g.uses e.key.start v)

/-- It was entered with the accumulator that depends only on what is carried. -/
structure Is (g : Sem A S D D' X') (C : Carry A D O) (e : AEntry (Cell D X) (Cell D' X') (LrKey A) A) (q : Name × (Option Name × O) × Tree (Tr × D)) :
    Prop where
  isFor : IsFor g C e q.2.2
  start : e.key.start = q.2.1.1
  accum : e.key.accum = C.home q.2.1

/-- All stored calls are good. -/
structure SInv (g : Sem A S D D' X') (C : Carry A D O) (s : LS D X D' X' A) : Prop where
  fresh : Fresh s.mem
  calls : ∀ m e, s.table m = some e → ∃ v, IsFor g C e v

theorem IsFor.at {g : Sem A S D D' X'} {C : Carry A D O} {e : AEntry (Cell D X) (Cell D' X') (LrKey A) A} {v c : Tree (Tr × D)} (h : IsFor g C e v)
    {σ : Mem D X} (hr : Agrees e.reads σ) (hc : View σ (some e.key.tree) c) : IsFor g C e c := by
  have := View.unique (h.det σ hr) hc
  subst this
  exact h

/-- A stored call for a branch that is found again has the calls below it stored too. -/
def DeepAt (g : Sem A S D D' X') (C : Carry A D O) (σ : Mem D X) (s : LS D X D' X' A) (q : Name × (Option Name × O) × Tree (Tr × D)) : Prop :=
  ∀ e, s.table q.1 = some e → rootH q.2.2 = some e.key.tree → e.key.start = q.2.1.1 → e.key.accum = C.home q.2.1 → Agrees e.reads σ →
    ∀ q' ∈ pointsWith C.adv' q.2.1 q.2.2, ∃ e', s.table q'.1 = some e' ∧ Is g C e' q' ∧ e'.facts ⊆ e.facts

/-- The branch has a stored call that can be used. -/
def Hit (g : Sem A S D D' X') (C : Carry A D O) (s : LS D X D' X' A) (q : Name × (Option Name × O) × Tree (Tr × D)) : Prop :=
  ∃ e, s.table q.1 = some e ∧ Is g C e q ∧ Agrees e.facts s.mem

/-- The branch has a stored call, and so have the branches below. -/
def Stored (g : Sem A S D D' X') (C : Carry A D O) (s : LS D X D' X' A) (q : Name × (Option Name × O) × Tree (Tr × D)) (fs : List (Loc × Cell D' X')) : Prop :=
  ∃ e, s.table q.1 = some e ∧ Is g C e q ∧ e.facts ⊆ fs ∧
    ∀ q' ∈ pointsWith C.adv' q.2.1 q.2.2, ∃ e', s.table q'.1 = some e' ∧ Is g C e' q' ∧ e'.facts ⊆ e.facts

/-- What folding a tree (or a branch, with its own stored call) does. -/
structure Part [DecidableEq D] (g : Sem A S D D' X') (C : Carry A D O) (σ : Mem D X) (old : List (Name × (Option Name × O) × Tree (Tr × D)))
    (s : LS D X D' X' A) (h : Option Tr) (start : Option Name) (a : A) (v : Tree (Tr × D)) (nms : List Name)
    (pts : O → List (Name × (Option Name × O) × Tree (Tr × D))) (k : O → Nat)
    (rd : List (Loc × Cell D X)) (fs : List (Loc × Cell D' X')) (w : Nat) (s' : LS D X D' X' A) (a' : A) : Prop where
  det : ∀ σ', Agrees rd σ' → View σ' h v
  cov : ∀ σ', View σ' h v → Agrees rd σ'
  facts : Agrees fs s'.mem
  step : StepsTo g fs a a' (fun x => foldP g.f start x v) (used g.uses start v)
  can : ∀ o, Full C o v → a = C.home (start, o) → C.Mid (carried C.adv' o v) a' ∧ Within fs (used g.uses start v)
  inv : SInv g C s'
  keeps : Keeps (used g.uses start v) s.mem s'.mem
  tab : ∀ m, m ∉ nms → s'.table m = s.table m
  hits : ∀ o, Full C o v → a = C.home (start, o) → (∀ q ∈ pts o, DeepAt g C σ s q) → ∀ q ∈ pts o, Stored g C s' q fs
  work : ∀ o, Full C o v → a = C.home (start, o) → (∀ q ∈ pts o, q ∈ old → Hit g C s q) → w ≤ k o

section
variable [DecidableEq D] [DecidableEq X] [DecidableEq D'] [DecidableEq X'] [DecidableEq A] [DecidableEq O]

/-- The statement about a whole tree. -/
def RunOK (node : AccNode (Cell D X) (Cell D' X') A D) (g : Sem A S D D' X') (C : Carry A D O) (σ : Mem D X)
    (old : List (Name × (Option Name × O) × Tree (Tr × D))) (n : Nat) (v : Tree (Tr × D)) : Prop :=
  ∀ (h : Tr) (start : Option Name) (a : A) (x : S) (ns : Name → Prop) (s : LS D X D' X' A), View σ (some h) v → (memoNames v).Nodup →
    (used g.uses start v).Nodup → SInv g C s → g.Rel s.mem ns a x → (∀ m ∈ used g.uses start v, ¬ ns m) →
    match foldP g.f start x v with
    | .error q => amrun (lrAccBody node) σ n ⟨h, start, a⟩ s = some (.error q)
    | .ok _ => ∃ o, amrun (lrAccBody node) σ n ⟨h, start, a⟩ s = some (.ok o) ∧
        Part g C σ old s (some h) start a v (memoNames v) (fun o => pointsWith C.adv' (start, o) v) (fun o => costWith C.adv' old (start, o) v)
          o.reads o.facts o.work o.space o.val

theorem branch_run {node : AccNode (Cell D X) (Cell D' X') A D} {g : Sem A S D D' X'} {C : Carry A D O} (ok : Lr.NodeOK node g) {σ : Mem D X} {old : List (Name × (Option Name × O) × Tree (Tr × D))}
    {n : Nat} {c : Tree (Tr × D)}
    (ih : RunOK node g C σ old n c) {h : Option Tr} (hv : View σ h c) {start : Option Name} (hu : (used g.uses start c).Nodup) {nm : Option Name}
    (hb : (bnames nm c).Nodup) {a : A} {x : S} {ns : Name → Prop} {s : LS D X D' X' A} (hs : SInv g C s) (hr : g.Rel s.mem ns a x)
    (hd : ∀ m ∈ used g.uses start c, ¬ ns m) (k : A → AProg (Cell D X) (Cell D' X') (LrKey A) A A) :
    match foldP g.f start x c with
    | .error q => amexec (amrun (lrAccBody node) σ n) σ (lrMemo nm start a h k) s = some (.error q)
    | .ok _ => ∃ rd fs w s' a', amexec (amrun (lrAccBody node) σ n) σ (lrMemo nm start a h k) s =
          after rd fs w (amexec (amrun (lrAccBody node) σ n) σ (k a') s') ∧
        Part g C σ old s h start a c (bnames nm c) (fun o => bwith C.adv' nm (start, o) c)
          (fun o => if (pointWith nm (start, o) c).any (· ∈ old) then 0 else costWith C.adv' old (start, o) c) rd fs w s' a' := by
  cases hv with
  | nil =>
    refine ⟨[], [], 0, s, a, ?_, ?_⟩
    · simp only [lrMemo]
      rw [after_zero]
    · refine ⟨fun _ _ => .nil, fun _ _ => Agrees.nil _, Agrees.nil _, stepsTo_refl ok.mono a, fun _ h => absurd h (by simp [Full]), hs,
        Keeps.refl _ _, fun _ _ => rfl, fun _ h => absurd h (by simp [Full]), fun _ h => absurd h (by simp [Full])⟩
  | @node h d hl hr' l r hc h1 h2 =>
    have hv : View σ (some h) (.node h.level h.name (h, d) l r) := .node hc h1 h2
    generalize hceq : Tree.node h.level h.name (h, d) l r = c at *
    have hroot : rootH c = some h := hv.root
    have hmn : (memoNames c).Nodup := by
      simp only [bnames, List.nodup_append] at hb
      exact hb.2.1
    have hself : ∀ (m : Name) (o : O), nm = some m → (m, (start, o), c) ∈ pointWith nm (start, o) c := by
      rintro m o rfl; rw [← hceq]; simp [pointWith]
    have hself' : ∀ m, nm = some m → m ∈ (point nm c).map (·.1) := by
      rintro m rfl; rw [← hceq]; simp [point]
    have ih := ih h start a x ns s hv hmn hu hs hr hd
    -- without a stored call
    have miss : (∀ m, nm = some m → s.lookup m σ ⟨h, start, a⟩ = none) →
        amexec (amrun (lrAccBody node) σ n) σ (lrMemo nm start a (some h) k) s =
          (match amrun (lrAccBody node) σ n ⟨h, start, a⟩ s with
          | none => none
          | some (.error q) => some (.error q)
          | some (.ok o) => after o.reads o.facts o.work (amexec (amrun (lrAccBody node) σ n) σ (k o.val)
              (match nm with
              | none => o.space
              | some m => o.space.set m ⟨⟨h, start, a⟩, o.reads, o.facts, o.val⟩))) := by
      intro hm
      cases nm with
      | none =>
        simp only [lrMemo, amexec]
        rcases amrun (lrAccBody node) σ n ⟨h, start, a⟩ s with _ | (_ | _) <;> rfl
      | some m =>
        simp only [lrMemo, amexec, hm m rfl]
        rcases amrun (lrAccBody node) σ n ⟨h, start, a⟩ s with _ | (_ | _) <;> rfl
    have hit : ∀ m e, nm = some m → s.lookup m σ ⟨h, start, a⟩ = some e →
        amexec (amrun (lrAccBody node) σ n) σ (lrMemo nm start a (some h) k) s =
          after e.reads e.facts 0 (amexec (amrun (lrAccBody node) σ n) σ (k e.res) s) := by
      rintro m e rfl he
      simp only [lrMemo, amexec, he]
    by_cases hlook : ∀ m, nm = some m → s.lookup m σ ⟨h, start, a⟩ = none
    · rw [miss hlook]
      cases hmap : foldP g.f start x c with
      | error q => rw [hmap] at ih; simp only at ih ⊢; rw [ih]
      | ok t' =>
        rw [hmap] at ih
        obtain ⟨o, ho, p⟩ := ih
        simp only [ho]
        have hfor : IsFor g C (⟨⟨h, start, a⟩, o.reads, o.facts, o.val⟩ : AEntry (Cell D X) (Cell D' X') (LrKey A) A) c :=
          ⟨hroot, p.det, p.cov, p.step, p.can⟩
        have hcost : ∀ cr, Full C cr c → a = C.home (start, cr) → (∀ q ∈ bwith C.adv' nm (start, cr) c, q ∈ old → Hit g C s q) →
            o.work ≤ (if (pointWith nm (start, cr) c).any (· ∈ old) then 0 else costWith C.adv' old (start, cr) c) := by
          intro cr hfull hhome hh
          rw [if_neg]
          · exact p.work cr hfull hhome (fun q hq => hh q (List.mem_append_right _ hq))
          · intro hany
            simp only [List.any_eq_true, decide_eq_true_eq] at hany
            obtain ⟨q, hq, hq'⟩ := hany
            obtain ⟨e, e1, e2, e3⟩ := hh q (List.mem_append_left _ hq) hq'
            obtain ⟨m1, m2⟩ := mem_pointWith hq
            obtain ⟨f1, f2, f3⟩ := e2
            rw [m2] at f1 f2 f3
            have hk : e.key = ⟨h, start, a⟩ := by
              have := f1.root
              rw [hroot] at this
              have h3 := (Option.some.inj this).symm
              obtain ⟨⟨kt, ks, ka⟩, _, _, _⟩ := e
              simp only at h3 f2 f3 ⊢
              rw [h3, f2, f3, hhome]
            have := Lr.alookup_hit e1 (f1.cov σ (by rw [hk]; exact hv)) e3
            rw [hk, hlook _ m1] at this
            cases this
        refine ⟨o.reads, o.facts, o.work, _, o.val, rfl, p.det, p.cov, ?_, p.step, p.can, ?_, ?_, ?_, ?_, hcost⟩
        · cases nm <;> exact p.facts
        · cases nm with
          | none => exact p.inv
          | some m =>
            refine ⟨p.inv.fresh, fun m' e' he' => ?_⟩
            simp only [Space.set] at he'
            split at he'
            · cases he'; exact ⟨c, hfor⟩
            · exact p.inv.calls m' e' he'
        · cases nm <;> exact p.keeps
        · intro m hm
          simp only [bnames, List.mem_append, not_or] at hm
          cases nm with
          | none => exact p.tab m hm.2
          | some m' =>
            have : m ≠ m' := by
              rintro rfl
              exact hm.1 (hself' m rfl)
            simp only [Space.set, if_neg this]
            exact p.tab m hm.2
        · intro cr hfull hhome hd q hq
          simp only [bwith, List.mem_append] at hq
          have hin : ∀ q ∈ pointsWith C.adv' (start, cr) c, Stored g C o.space q o.facts := p.hits cr hfull hhome (fun q hq => hd q (List.mem_append_right _ hq))
          cases nm with
          | none =>
            rcases hq with hq | hq
            · exact absurd (mem_pointWith hq).1 (by simp)
            · exact hin q hq
          | some m =>
            have hne : ∀ q ∈ pointsWith C.adv' (start, cr) c, q.1 ≠ m := by
              rintro q hq hqm
              simp only [bnames, List.nodup_append] at hb
              exact hb.2.2 m (hself' m rfl) q.1 (by rw [← pointsWith_map C.adv' c (start, cr)]; exact List.mem_map.2 ⟨q, hq, rfl⟩) hqm.symm
            have htab : ∀ q ∈ pointsWith C.adv' (start, cr) c, (o.space.set m ⟨⟨h, start, a⟩, o.reads, o.facts, o.val⟩).table q.1 = o.space.table q.1 := by
              intro q hq
              simp only [Space.set, if_neg (hne q hq)]
            rcases hq with hq | hq
            · obtain ⟨m1, m2⟩ := mem_pointWith hq
              simp only [Option.some.injEq] at m1
              refine ⟨⟨⟨h, start, a⟩, o.reads, o.facts, o.val⟩, by simp only [Space.set, if_pos m1.symm],
                ⟨by rw [m2]; exact hfor, by rw [m2], by rw [m2]; exact hhome⟩, fun _ h => h, ?_⟩
              intro q' hq'
              rw [m2] at hq'
              obtain ⟨e', b1, b2, b3, -⟩ := hin q' hq'
              exact ⟨e', by rw [htab q' hq']; exact b1, b2, b3⟩
            · obtain ⟨e, b1, b2, b3, b4⟩ := hin q hq
              refine ⟨e, by rw [htab q hq]; exact b1, b2, b3, fun q' hq' => ?_⟩
              obtain ⟨e', c1, c2, c3⟩ := b4 q' hq'
              exact ⟨e', by rw [htab q' (pointsWith_below hq hq')]; exact c1, c2, c3⟩
    · have : ∃ m e, nm = some m ∧ s.lookup m σ ⟨h, start, a⟩ = some e := by
        apply Classical.byContradiction
        intro hno
        apply hlook
        intro m hm
        cases hx : s.lookup m σ ⟨h, start, a⟩ with
        | none => rfl
        | some e => exact absurd ⟨m, e, hm, hx⟩ hno
      obtain ⟨m, e, rfl, he⟩ := this
      obtain ⟨e1, e2, e3, e4⟩ := Lr.alookup_some he
      obtain ⟨v, hv0⟩ := hs.calls m e e1
      have hf := hv0.at e3 (by rw [e2]; exact hv)
      have hkt : e.key.tree = h := by rw [e2]
      have hks : e.key.start = start := by rw [e2]
      have hka : e.key.accum = a := by rw [e2]
      have hstep := hf.step
      have hcan := hf.can
      have hdet := hf.det
      have hcov := hf.cov
      rw [hkt] at hdet hcov
      rw [hks, hka] at hstep
      simp only [hks, hka] at hcan
      obtain ⟨y, r1, -⟩ := hstep s.mem ns x hs.fresh e4 hr hd
      simp only at r1
      rw [r1]
      simp only
      refine ⟨e.reads, e.facts, 0, s, e.res, hit m e rfl he, hdet, hcov, e4, hstep, hcan, hs, Keeps.refl _ _, fun _ _ => rfl, ?_,
        fun _ _ _ _ => Nat.zero_le _⟩
      · intro cr hfull hhome hd q hq
        simp only [bwith, List.mem_append] at hq
        have hm : (m, (start, cr), c) ∈ bwith C.adv' (some m) (start, cr) c := List.mem_append_left _ (hself m cr rfl)
        have hdeep := hd _ hm e e1 (by rw [hkt]; exact hroot) hks (by rw [hka]; exact hhome) e3
        rcases hq with hq | hq
        · obtain ⟨m1, m2⟩ := mem_pointWith hq
          simp only [Option.some.injEq] at m1
          refine ⟨e, by rw [← m1]; exact e1, ⟨by rw [m2]; exact hf, by rw [m2]; exact hks, by rw [m2, hka]; exact hhome⟩, fun _ h => h, ?_⟩
          rw [m2]
          exact hdeep
        · obtain ⟨e', b1, b2, b3⟩ := hdeep q hq
          refine ⟨e', b1, b2, b3, hd q (List.mem_append_right _ hq) e' b1 b2.isFor.root b2.start b2.accum ?_⟩
          refine b2.isFor.cov σ ?_
          have := view_pointsWith hv q hq
          rw [b2.isFor.root] at this
          exact this

omit [DecidableEq D] [DecidableEq X] [DecidableEq D'] [DecidableEq X'] [DecidableEq A] [DecidableEq O] in
theorem hit_keep {g : Sem A S D D' X'} {C : Carry A D O} {s s' : LS D X D' X' A} {N : List Name} {q : Name × (Option Name × O) × Tree (Tr × D)}
    (h : Hit g C s q) (hq : Full C q.2.1.2 q.2.2) (hf : Unused s.mem)
    (hk : Keeps N s.mem s'.mem) (hd : Dis (used g.uses q.2.1.1 q.2.2) N) (ht : s'.table q.1 = s.table q.1) : Hit g C s' q := by
  obtain ⟨e, e1, e2, e3⟩ := h
  refine ⟨e, ht.trans e1, e2, within_keep e3 ?_ hf hk hd⟩
  have := (e2.isFor.can _ hq (by rw [e2.accum, e2.start])).2
  rw [e2.start] at this
  exact this

theorem fold_run {node : AccNode (Cell D X) (Cell D' X') A D} {g : Sem A S D D' X'} {C : Carry A D O} (ok : Lr.NodeOK node g) (cn : NodeCan node g C) (σ : Mem D X)
    (old : List (Name × (Option Name × O) × Tree (Tr × D))) : ∀ (v : Tree (Tr × D)) (n : Nat), v.size ≤ n → RunOK node g C σ old n v := by
  intro v
  induction v with
  | nil => intro n _ h start a x ns s hv; cases hv
  | node lv nm hd l r ihl ihr =>
    intro n hn h start a x ns s hv hnd hu hs hrel hdis
    simp only [Tree.size] at hn
    obtain ⟨n, rfl⟩ : ∃ m, n = m + 1 := ⟨n - 1, by omega⟩
    cases hv with
    | @node _ d hl hr _ _ hc h1 h2 =>
    have isl : hl.isSome = l.isSome := by cases h1 <;> rfl
    have isr : hr.isSome = r.isSome := by cases h2 <;> rfl
    have covers : ∀ (rd1 rd2 : List (Loc × Cell D X)), (∀ σ', View σ' hl l → Agrees rd1 σ') → (∀ σ', View σ' hr r → Agrees rd2 σ') →
        ∀ σ', View σ' (some h) (.node h.level h.name (h, d) l r) → Agrees ((h.link, Cell.node d hl hr) :: (rd1 ++ rd2)) σ' := by
      intro rd1 rd2 c1 c2 σ' hv'
      cases hv' with
      | node hc' h1' h2' =>
        have q1 := h1.root
        have q2 := h2.root
        have q3 := h1'.root
        have q4 := h2'.root
        rw [q1] at q3; rw [q2] at q4
        subst q3 q4
        exact agrees_cons.2 ⟨hc', agrees_append.2 ⟨c1 σ' h1', c2 σ' h2'⟩⟩
    by_cases hsome : (l.isSome || r.isSome) = true
    · -- a node with branches
      simp only [used, if_pos hsome] at hu hdis
      have nd1 := List.nodup_append.1 hu
      have nd2 := List.nodup_append.1 nd1.2.1
      have d12 : Dis (used g.uses start l) (g.uses d h.name ++ used g.uses h.name r) := Heap.dis_app hu
      have d23 : Dis (g.uses d h.name) (used g.uses h.name r) := Heap.dis_app nd1.2.1
      have dis1 : ∀ m ∈ used g.uses start l, ¬ ns m := fun m hm => hdis m (List.mem_append_left _ hm)
      have dis2 : ∀ m ∈ g.uses d h.name, ¬ ns m := fun m hm => hdis m (List.mem_append_right _ (List.mem_append_left _ hm))
      have dis3 : ∀ m ∈ used g.uses h.name r, ¬ ns m := fun m hm => hdis m (List.mem_append_right _ (List.mem_append_right _ hm))
      have cnt := List.nodup_iff_count_le_one.1 hnd
      have bl : (bnames (h.name.map .forkL) l).Nodup := by
        rw [List.nodup_iff_count_le_one]
        intro x
        have := cnt x
        simp only [memoNames, points, bnames, List.map_append, List.count_append] at this ⊢
        omega
      have br : (bnames (h.name.map .forkR) r).Nodup := by
        rw [List.nodup_iff_count_le_one]
        intro x
        have := cnt x
        simp only [memoNames, points, bnames, List.map_append, List.count_append] at this ⊢
        omega
      have dm : ∀ x, x ∈ bnames (h.name.map .forkL) l → x ∉ bnames (h.name.map .forkR) r := by
        intro x hx hx'
        have := cnt x
        have c1 := List.count_pos_iff.2 hx
        have c2 := List.count_pos_iff.2 hx'
        simp only [memoNames, points, bnames, List.map_append, List.count_append] at this c1 c2
        omega
      simp only [amrun, lrAccBody, amexec, hc, forks_eq, foldP, isl, isr, if_pos hsome]
      have L := branch_run (C := C) ok (ihl n (by omega)) h1 nd1.1 bl hs hrel dis1 (fun a =>
        node a d h.level h.name fun a => lrMemo (h.name.map .forkR) h.name a hr .ret)
      cases hl' : foldP g.f start x l with
      | error q =>
        rw [hl'] at L
        simp only at L
        rw [L]
        rfl
      | ok x1 =>
      rw [hl'] at L
      obtain ⟨rd1, fs1, w1, s1, a1, e1, p1⟩ := L
      rw [e1]
      have rel1 : g.Rel s1.mem ns a x := ok.frame _ _ _ _ _ _ hs.fresh p1.keeps dis1 hrel
      obtain ⟨x1', b1, b2, b3⟩ := p1.step s1.mem ns x p1.inv.fresh p1.facts rel1 dis1
      simp only [hl'] at b1
      cases b1
      have N := cn (amrun (lrAccBody node) σ n) σ s1 _ a1 x1 d h.level h.name (fun a => lrMemo (h.name.map .forkR) h.name a hr .ret)
        p1.inv.fresh b2 (by
          rintro m hm (hx | hx)
          · exact dis2 m hm hx
          · exact d12 m hx (List.mem_append_left _ hm))
      simp only [bind, Except.bind]
      cases hf' : g.f x1 d h.level h.name with
      | error q =>
        rw [hf'] at N
        simp only at N ⊢
        rw [N]
        rfl
      | ok x2 =>
      rw [hf'] at N
      obtain ⟨a2, fs2, s2, e2, t2, fr2, k2, ag2, st2, -, can2⟩ := N
      rw [e2]
      have inv2 : SInv g C s2 := ⟨fr2, fun m e he => p1.inv.calls m e (by rw [← t2]; exact he)⟩
      have rel2 := ok.frame _ _ _ _ _ _ p1.inv.fresh k2 (by
          rintro m hm (hx | hx)
          · exact dis2 m hm hx
          · exact d12 m hx (List.mem_append_left _ hm)) b2
      obtain ⟨x2', c1, c2, c3⟩ := st2 s2.mem _ x1 fr2 ag2 rel2 (by
          rintro m hm (hx | hx)
          · exact dis2 m hm hx
          · exact d12 m hx (List.mem_append_left _ hm))
      simp only [hf'] at c1
      cases c1
      have dis3' : ∀ m ∈ used g.uses h.name r, ¬ ((ns m ∨ m ∈ used g.uses start l) ∨ m ∈ g.uses d h.name) := by
        rintro m hm ((hx | hx) | hx)
        · exact dis3 m hm hx
        · exact d12 m hx (List.mem_append_right _ hm)
        · exact d23 m hx hm
      have R := branch_run (C := C) ok (ihr n (by omega)) h2 nd2.2.1 br inv2 c2 dis3' .ret
      simp only
      cases hr' : foldP g.f h.name x2 r with
      | error q =>
        rw [hr'] at R
        simp only at R
        rw [R]
        rfl
      | ok x3 =>
      rw [hr'] at R
      obtain ⟨rd3, fs3, w3, s3, a3, e3, p3⟩ := R
      rw [e3]
      refine ⟨_, rfl, ?_⟩
      simp only [List.append_nil, List.nil_append, Nat.add_zero, Nat.zero_add]
      have f1 : Agrees fs1 s2.mem := agrees_keep p1.facts p1.inv.fresh.unused k2 (by
        intro m q c hm hx
        rcases b3 m q c hm with hy | hy
        · exact dis2 m hx hy
        · exact d12 m hy (List.mem_append_left _ hx))
      have f1' : Agrees fs1 s3.mem := agrees_keep f1 fr2.unused p3.keeps (by
        intro m q c hm hx
        rcases b3 m q c hm with hy | hy
        · exact dis3 m hx hy
        · exact d12 m hy (List.mem_append_right _ hx))
      have f2' : Agrees fs2 s3.mem := agrees_keep ag2 fr2.unused p3.keeps (by
        intro m q c hm hx
        rcases c3 m q c hm with (hy | hy) | hy
        · exact dis3 m hx hy
        · exact d12 m hy (List.mem_append_right _ hx)
        · exact d23 m hy hx)
      have ueq : used g.uses start (.node h.level h.name (h, d) l r) = used g.uses start l ++ (g.uses d h.name ++ used g.uses h.name r) := by
        simp only [used, if_pos hsome]
      have sl : used g.uses start l ⊆ used g.uses start (.node h.level h.name (h, d) l r) := by
        intro x hx; rw [ueq]; simp only [List.mem_append]; tauto
      have sr : used g.uses h.name r ⊆ used g.uses start (.node h.level h.name (h, d) l r) := by
        intro x hx; rw [ueq]; simp only [List.mem_append]; tauto
      have sn : g.uses d h.name ⊆ used g.uses start (.node h.level h.name (h, d) l r) := by
        intro x hx; rw [ueq]; simp only [List.mem_append]; tauto
      have pin : ∀ o q, q ∈ pointsWith C.adv' (start, o) (.node h.level h.name (h, d) l r) ↔
          q ∈ bwith C.adv' (h.name.map .forkL) (start, o) l ∨ q ∈ bwith C.adv' (h.name.map .forkR) (h.name, carried C.adv' o l) r := by
        intro o q; simp only [pointsWith, bwith, List.mem_append]; tauto
      have ceq : ∀ o, carried C.adv' o (.node h.level h.name (h, d) l r) = carried C.adv' (carried C.adv' o l) r := by
        intro o; simp only [carried, if_pos hsome]
      have tab2 : ∀ m, m ∈ bnames (h.name.map .forkL) l → s3.table m = s1.table m := by
        intro m hm; rw [p3.tab m (dm m hm), t2]
      have tab1 : ∀ m, m ∈ bnames (h.name.map .forkR) r → s2.table m = s.table m := by
        intro m hm; rw [t2]; exact p1.tab m (fun hm' => dm m hm' hm)
      have mem : ∀ {q : Name × (Option Name × O) × Tree (Tr × D)} {nm : Option Name} {c : Option Name × O} {v : Tree (Tr × D)}, q ∈ bwith C.adv' nm c v → q.1 ∈ bnames nm v :=
        fun {q nm c v} hq => by rw [← bwith_map C.adv' nm c v]; exact List.mem_map.2 ⟨q, hq, rfl⟩
      -- with the usual accumulators
      have split : ∀ o, Full C o (.node h.level h.name (h, d) l r) → a = C.home (start, o) →
          Full C o l ∧ Full C (carried C.adv' o l) r ∧ C.Mid (carried C.adv' o l) a1 ∧ Within fs1 (used g.uses start l) ∧
          a2 = C.home (h.name, carried C.adv' o l) ∧ Within fs2 (g.uses d h.name) := by
        intro o hfull hhome
        simp only [Full] at hfull
        rcases hfull with hx | ⟨hx, hy, m, hm, hz⟩
        · simp [hx.1, hx.2.1] at hsome
        · have i1 := p1.can o hx hhome
          have i2 := can2 m _ hz hm i1.1
          exact ⟨hx, hy, i1.1, i1.2, i2⟩
      refine ⟨?_, ?_, ?_, ?_, ?_, ?_, ?_, ?_, ?_, ?_⟩
      · intro σ' ha
        simp only [List.singleton_append] at ha
        have b1 := agrees_cons.1 ha
        have b2 := agrees_append.1 b1.2
        exact .node b1.1 (p1.det σ' b2.1) (p3.det σ' b2.2)
      · intro σ' hv'
        simpa using covers rd1 rd3 p1.cov p3.cov σ' hv'
      · exact agrees_append.2 ⟨f1', agrees_append.2 ⟨f2', p3.facts⟩⟩
      · have c := p1.step.comp (st2.comp p3.step d23 ok.mono) d12 ok.mono
        rw [ueq]
        have hfun : (fun x => foldP g.f start x (.node h.level h.name (h, d) l r)) =
            fun x => foldP g.f start x l >>= fun x => g.f x d h.level h.name >>= fun x => foldP g.f h.name x r := by
          funext x
          simp only [foldP, if_pos hsome]
        rw [hfun]
        exact c
      · intro o hfull hhome
        obtain ⟨i1, i2, i3, i4, i5, i6⟩ := split o hfull hhome
        have i7 := p3.can _ i2 i5
        rw [ceq]
        exact ⟨i7.1, (i4.mono sl).append ((i6.mono sn).append (i7.2.mono sr))⟩
      · exact p3.inv
      · exact (p1.keeps.mono sl).trans ((k2.mono sn).trans (p3.keeps.mono sr))
      · intro m hm
        have hm1 : m ∉ bnames (h.name.map .forkL) l := by
          intro hx
          exact hm (by simp only [memoNames, points, bnames, List.map_append, List.mem_append] at hx ⊢; tauto)
        have hm2 : m ∉ bnames (h.name.map .forkR) r := by
          intro hx
          exact hm (by simp only [memoNames, points, bnames, List.map_append, List.mem_append] at hx ⊢; tauto)
        rw [p3.tab m hm2, t2]
        exact p1.tab m hm1
      · intro o hfull hhome hdeep q hq
        obtain ⟨i1, i2, i3, i4, i5, i6⟩ := split o hfull hhome
        rcases (pin o q).1 hq with hq | hq
        · obtain ⟨e, b1, b2, b3, b4⟩ := p1.hits o i1 hhome (fun q hq => hdeep q ((pin o q).2 (.inl hq))) q hq
          refine ⟨e, (tab2 _ (mem hq)).trans b1, b2, fun x hx => List.mem_append_left _ (b3 hx), fun q' hq' => ?_⟩
          obtain ⟨e', d1, d2, d3⟩ := b4 q' hq'
          exact ⟨e', (tab2 _ (mem (bwith_sub hq hq'))).trans d1, d2, d3⟩
        · have hd2 : ∀ q ∈ bwith C.adv' (h.name.map .forkR) (h.name, carried C.adv' o l) r, DeepAt g C σ s2 q := by
            intro q hq e he hr hst hac hag q' hq'
            obtain ⟨e', b1, b2, b3⟩ := hdeep q ((pin o q).2 (.inr hq)) e (by rw [← tab1 _ (mem hq)]; exact he) hr hst hac hag q' hq'
            exact ⟨e', (tab1 _ (mem (bwith_sub hq hq'))).trans b1, b2, b3⟩
          obtain ⟨e, b1, b2, b3, b4⟩ := p3.hits _ i2 i5 hd2 q hq
          exact ⟨e, b1, b2, fun x hx => List.mem_append_right _ (List.mem_append_right _ (b3 hx)), b4⟩
      · intro o hfull hhome hh
        obtain ⟨i1, i2, i3, i4, i5, i6⟩ := split o hfull hhome
        have c1 := p1.work o i1 hhome (fun q hq ho => hh q ((pin o q).2 (.inl hq)) ho)
        have c2 := p3.work _ i2 i5 (fun q hq ho => hit_keep (hh q ((pin o q).2 (.inr hq)) ho) (bwith_full (c := (h.name, carried C.adv' o l)) i2 hq) hs.fresh.unused
          ((p1.keeps.mono (N' := used g.uses start l ++ g.uses d h.name) (List.subset_append_left _ _)).trans (k2.mono (List.subset_append_right _ _)))
          (fun x hx hx' => by
            have hx := bwith_used hq hx
            rcases List.mem_append.1 hx' with hx' | hx'
            · exact d12 x hx' (List.mem_append_right _ hx)
            · exact d23 x hx' hx) (tab1 _ (mem hq)))
        simp only [costWith]
        omega
    · -- a leaf
      obtain ⟨rfl, rfl⟩ := pointsFrom_isSome hsome
      cases h1; cases h2
      have ueq : used g.uses start (.node h.level h.name (h, d) .nil .nil) = g.uses d start := by simp [used, Tree.isSome]
      rw [ueq] at hu hdis
      have N := cn (amrun (lrAccBody node) σ n) σ s ns a x d h.level start .ret hs.fresh hrel hdis
      have hfun : (fun x => foldP g.f start x (.node h.level h.name (h, d) .nil .nil)) = fun x => g.f x d h.level start := by
        funext x; simp [foldP, Tree.isSome]
      have hfx : foldP g.f start x (.node h.level h.name (h, d) .nil .nil) = g.f x d h.level start := congrFun hfun x
      rw [hfx]
      simp only [amrun, lrAccBody, amexec, hc, Option.isSome_none, Bool.or_self, Bool.false_eq_true, if_false]
      cases hf' : g.f x d h.level start with
      | error q =>
        rw [hf'] at N
        simp only at N ⊢
        rw [N]
        rfl
      | ok x2 =>
      rw [hf'] at N
      obtain ⟨a2, fs2, s2, e2, t2, fr2, k2, ag2, st2, can2, -⟩ := N
      rw [e2]
      refine ⟨_, rfl, ?_⟩
      simp only [List.append_nil, List.nil_append, Nat.add_zero]
      have hp : ∀ o, pointsWith C.adv' (start, o) (.node h.level h.name (h, d) .nil .nil) = [] := by
        intro o; cases h.name <;> simp [pointsWith, pointWith]
      simp only [hp]
      refine ⟨?_, ?_, ag2, ?_, ?_, ?_, ?_, ?_, ?_, ?_⟩
      · intro σ' ha
        exact .node (agrees_cons.1 ha).1 .nil .nil
      · intro σ' hv'
        exact covers [] [] (fun _ _ => Agrees.nil _) (fun _ _ => Agrees.nil _) σ' hv'
      · rw [hfun, ueq]; exact st2
      · intro o hfull hhome
        simp only [Full, Tree.isSome, true_and, false_and, or_false] at hfull
        rw [ueq]
        have : carried C.adv' o (.node h.level h.name (h, d) .nil .nil) = C.adv d o := by simp [carried, Tree.isSome]
        rw [this]
        exact can2 o hfull hhome
      · exact ⟨fr2, fun m e he => hs.calls m e (by rw [← t2]; exact he)⟩
      · rw [ueq]; exact k2
      · intro m _; rw [t2]
      · intro _ _ _ _ q hq; cases hq
      · intro _ _ _ _
        simp [costWith]

omit [DecidableEq D] [DecidableEq X] [DecidableEq D'] [DecidableEq X'] [DecidableEq A] [DecidableEq O] in
theorem sInv_empty (g : Sem A S D D' X') (C : Carry A D O) : SInv g C (Space.empty : LS D X D' X' A) :=
  ⟨⟨rfl, fun _ _ => rfl⟩, fun _ _ h => by cases h⟩

theorem run_part {node : AccNode (Cell D X) (Cell D' X') A D} {g : Sem A S D D' X'} {C : Carry A D O} (ok : Lr.NodeOK node g) (cn : NodeCan node g C)
    {σ : Mem D X} (old : List (Name × (Option Name × O) × Tree (Tr × D))) {h : Tr} {v : Tree (Tr × D)} {start : Option Name} {a : A} {x : S}
    {ns : Name → Prop} {s : LS D X D' X' A} {n : Nat}
    {o : AOut (Cell D X) (Cell D' X') (LrKey A) A A} (hs : SInv g C s) (hv : View σ (some h) v) (hn : (memoNames v).Nodup)
    (hu : (used g.uses start v).Nodup) (hr : g.Rel s.mem ns a x) (hd : ∀ m ∈ used g.uses start v, ¬ ns m)
    (ho : amrun (lrAccBody node) σ n ⟨h, start, a⟩ s = some (.ok o)) : (∃ y, foldP g.f start x v = .ok y) ∧
      Part g C σ old s (some h) start a v (memoNames v) (fun o => pointsWith C.adv' (start, o) v) (fun o => costWith C.adv' old (start, o) v)
        o.reads o.facts o.work o.space o.val := by
  have h1 := fold_run ok cn σ old v (max n v.size) (Nat.le_max_right _ _) h start a x ns s hv hn hu hs hr hd
  have h2 := amrun_mono (Nat.le_max_left n v.size) ho
  cases hm : foldP g.f start x v with
  | error q => rw [hm] at h1; simp only at h1; rw [h1] at h2; cases h2
  | ok t' =>
    rw [hm] at h1
    obtain ⟨o', h3, h4⟩ := h1
    rw [h3] at h2
    cases h2
    exact ⟨⟨t', rfl⟩, h4⟩

/-- What the namespace holds after folding these trees. -/
structure Kept (g : Sem A S D D' X') (C : Carry A D O) (c : Option Name × O) (s : LS D X D' X' A) (vs : List (Tree (Tr × D))) : Prop where
  inv : SInv g C s
  dom : ∀ m e, s.table m = some e → ∃ v ∈ vs, m ∈ memoNames v
  last : ∀ v vs', vs = v :: vs' → ∃ fs, Agrees fs s.mem ∧ ∀ q ∈ pointsWith C.adv' c v, Stored g C s q fs

omit [DecidableEq D] [DecidableEq X] [DecidableEq D'] [DecidableEq X'] [DecidableEq A] [DecidableEq O] in
theorem Kept.deep {g : Sem A S D D' X'} {C : Carry A D O} (hinj : ∀ n o o', C.home (n, o) = C.home (n, o') → o = o') {c : Option Name × O} {s : LS D X D' X' A} {vs : List (Tree (Tr × D))} (hk : Kept g C c s vs) {σ : Mem D X} {h : Tr}
    {v : Tree (Tr × D)} (hv : View σ (some h) v) (hr : NoReturn vs v) : ∀ q ∈ pointsWith C.adv' c v, DeepAt g C σ s q := by
  intro q hq e he hroot hst hac hag
  have hm : q.1 ∈ memoNames v := by rw [← pointsWith_map C.adv' v c]; exact List.mem_map.2 ⟨q, hq, rfl⟩
  obtain ⟨w, hw, hw'⟩ := hk.dom q.1 e he
  cases vs with
  | nil => cases hw
  | cons v0 vs =>
    have h0 : q.1 ∈ memoNames v0 := by
      apply Classical.byContradiction
      intro hno
      rcases List.mem_cons.1 hw with rfl | hw
      · exact hno hw'
      · exact hr q.1 hm hno w hw hw'
    rw [← pointsWith_map C.adv' v0 c] at h0
    obtain ⟨q0, hq0, e0⟩ := List.mem_map.1 h0
    obtain ⟨fs, -, hst0⟩ := hk.last v0 vs rfl
    obtain ⟨e', b1, b2, -, b4⟩ := hst0 q0 hq0
    rw [e0, he] at b1
    cases b1
    have hvq := view_pointsWith hv q hq
    rw [hroot] at hvq
    have t1 : q0.2.2 = q.2.2 := View.unique (b2.isFor.det σ hag) hvq
    have t2 : q0.2.1 = q.2.1 := by
      have u1 : q0.2.1.1 = q.2.1.1 := b2.start.symm.trans hst
      have u2 : C.home q0.2.1 = C.home q.2.1 := b2.accum.symm.trans hac
      refine Prod.ext u1 (hinj q.2.1.1 _ _ ?_)
      rw [← u1]
      rw [u1]
      have u3 : (q.2.1.1, q0.2.1.2) = q0.2.1 := Prod.ext u1.symm rfl
      rw [u3]
      exact u2
    rw [← t1, ← t2]
    exact b4

theorem Kept.next {node : AccNode (Cell D X) (Cell D' X') A D} {g : Sem A S D D' X'} {C : Carry A D O} {c : Option Name × O} {s : LS D X D' X' A}
    {vs : List (Tree (Tr × D))} (ok : Lr.NodeOK node g) (cn : NodeCan node g C) (hinj : ∀ n o o', C.home (n, o) = C.home (n, o') → o = o')
    (hk : Kept g C c s vs) {σ : Mem D X} {h : Tr} {v : Tree (Tr × D)} {n : Nat} {x : S} {ns : Name → Prop}
    {o : AOut (Cell D X) (Cell D' X') (LrKey A) A A} (hv : View σ (some h) v)
    (hn : (memoNames v).Nodup) (hu : (used g.uses c.1 v).Nodup) (hrel : g.Rel s.mem ns (C.home c) x) (hd : ∀ m ∈ used g.uses c.1 v, ¬ ns m)
    (hf : Full C c.2 v) (hr : NoReturn vs v) (ho : amrun (lrAccBody node) σ n ⟨h, c.1, C.home c⟩ s = some (.ok o)) : Kept g C c o.space (v :: vs) := by
  obtain ⟨-, p⟩ := run_part ok cn [] hk.inv hv hn hu hrel hd ho
  refine ⟨p.inv, ?_, ?_⟩
  · intro m e he
    by_cases hm : m ∈ memoNames v
    · exact ⟨v, List.mem_cons_self, hm⟩
    · rw [p.tab m hm] at he
      obtain ⟨w, hw, hw'⟩ := hk.dom m e he
      exact ⟨w, List.mem_cons_of_mem _ hw, hw'⟩
  · rintro v1 vs1 e
    cases e
    exact ⟨o.facts, p.facts, p.hits c.2 hf rfl (hk.deep hinj hv hr)⟩

end
end Iodyn.Incr.Op
