import Verif.Spec.IncrLr
import Verif.Proof.IncrMemoFrom
/-
Memoised left folds that make articulations while folding. An accumulator is a handle: which value it stands for depends on the cells
behind it, and these may change between the call that was stored and the call that uses it. So a stored call is good if it takes every
value that the accumulator of its arguments may stand for (while the articulations that it has read or made are as they were) to the value
that its result stands for.
-/
namespace Iodyn.Incr.Lr
open Iodyn.Heap (Tr Cell Mem HTree ASt Keeps Dis)
variable {V W K R S A B D X D' X' E M N T : Type}

/-- What a node function computes. -/
structure Sem (A S D D' X' : Type) where
  /-- with values -/
  f : S → D → Nat → Option Name → P S
  /-- the names under which it makes articulations -/
  uses : D → Option Name → List Name
  /-- the accumulator stands for the value, using only the cells with these names (and cells without name) -/
  Rel : Mem D' X' → (Name → Prop) → A → S → Prop
  /-- the accumulator with which a branch is entered, if it does not depend on what came before -/
  home : Option Name → A
  /-- the accumulators after a branch -/
  Mid : A → Prop
  okLeaf : D → Prop
  okNode : D → Name → Prop

/-- Going from one accumulator to the other is right. -/
def StepsTo (g : Sem A S D D' X') (fs : List (Loc × Cell D' X')) (a a' : A) (F : S → P S) (N : List Name) : Prop :=
  ∀ (τ : Mem D' X') (ns : Name → Prop) (x : S), Fresh τ → Agrees fs τ → g.Rel τ ns a x → (∀ m ∈ N, ¬ ns m) →
    ∃ y, F x = .ok y ∧ g.Rel τ (fun m => ns m ∨ m ∈ N) a' y ∧ ∀ m q c, (Loc.named m q, c) ∈ fs → ns m ∨ m ∈ N

abbrev LS (D X D' X' A : Type) := Space (Cell D X) (Cell D' X') (LrKey A) A

/-- The node function does what it should. -/
structure NodeOK [DecidableEq D] [DecidableEq X] [DecidableEq D'] [DecidableEq X'] [DecidableEq A] (node : AccNode (Cell D X) (Cell D' X') A D)
    (g : Sem A S D D' X') : Prop where
  frame : ∀ (τ τ' : Mem D' X') (ns : Name → Prop) (N : List Name) (a : A) (x : S), Fresh τ → Keeps N τ τ' → (∀ m ∈ N, ¬ ns m) →
    g.Rel τ ns a x → g.Rel τ' ns a x
  mono : ∀ (τ : Mem D' X') (ns ns' : Name → Prop) (a : A) (x : S), (∀ m, ns m → ns' m) → g.Rel τ ns a x → g.Rel τ ns' a x
  run : ∀ (callee : LrKey A → LS D X D' X' A → Option (P (AOut (Cell D X) (Cell D' X') (LrKey A) A A))) (σ : Mem D X) (s : LS D X D' X' A)
    (ns : Name → Prop) (a : A) (x : S) (d : D) (lv : Nat) (n : Option Name) (k : A → AProg (Cell D X) (Cell D' X') (LrKey A) A A),
    Fresh s.mem → g.Rel s.mem ns a x → (∀ m ∈ g.uses d n, ¬ ns m) →
    match g.f x d lv n with
    | .error q => amexec callee σ (node a d lv n k) s = some (.error q)
    | .ok _ => ∃ a' fs s', amexec callee σ (node a d lv n k) s = after [] fs 0 (amexec callee σ (k a') s') ∧ s'.table = s.table ∧
        Fresh s'.mem ∧ Keeps (g.uses d n) s.mem s'.mem ∧ Agrees fs s'.mem ∧ StepsTo g fs a a' (fun x => g.f x d lv n) (g.uses d n) ∧
        (g.okLeaf d → a = g.home n → g.Mid a' ∧ Within fs (g.uses d n)) ∧
        (∀ m, g.okNode d m → n = some m → g.Mid a → a' = g.home n ∧ Within fs (g.uses d n))

/-- The fold with values, for a function that may panic. -/
def foldP (f : S → D → Nat → Option Name → P S) : Option Name → S → Tree (Tr × D) → P S
  | _, x, .nil => .ok x
  | c, x, .node lv n (_, d) l r =>
    if l.isSome || r.isSome then foldP f c x l >>= fun a => f a d lv n >>= fun b => foldP f n b r
    else f x d lv c

/-- The names under which it makes articulations. -/
def used (uses : D → Option Name → List Name) : Option Name → Tree (Tr × D) → List Name
  | _, .nil => []
  | c, .node _ n (_, d) l r => if l.isSome || r.isSome then used uses c l ++ (uses d n ++ used uses n r) else uses d c

/-- The trees for which accumulators do not depend on what came before. -/
def Full (g : Sem A S D D' X') : Tree (Tr × D) → Prop
  | .nil => False
  | .node _ n (_, d) l r => (l.isSome = false ∧ r.isSome = false ∧ g.okLeaf d) ∨ (Full g l ∧ Full g r ∧ ∃ m, n = some m ∧ g.okNode d m)

theorem StepsTo.comp {g : Sem A S D D' X'} {fs fs' : List (Loc × Cell D' X')} {a b c : A} {F G : S → P S} {N N' : List Name}
    (h : StepsTo g fs a b F N) (h' : StepsTo g fs' b c G N') (hd : Dis N N')
    (hm : ∀ (τ : Mem D' X') (ns ns' : Name → Prop) (a : A) (x : S), (∀ m, ns m → ns' m) → g.Rel τ ns a x → g.Rel τ ns' a x) :
    StepsTo g (fs ++ fs') a c (fun x => F x >>= G) (N ++ N') := by
  intro τ ns x hf ha hr hn
  have ha := agrees_append.1 ha
  obtain ⟨y, h1, h2, h3⟩ := h τ ns x hf ha.1 hr (fun m hm => hn m (List.mem_append_left _ hm))
  obtain ⟨z, h4, h5, h6⟩ := h' τ _ y hf ha.2 h2 (by
    intro m hm hx
    rcases hx with hx | hx
    · exact hn m (List.mem_append_right _ hm) hx
    · exact hd m hx hm)
  refine ⟨z, ?_, hm _ _ _ _ _ ?_ h5, ?_⟩
  · simp only [h1, bind, Except.bind]; exact h4
  · intro m hm
    rcases hm with (hm | hm) | hm
    · exact .inl hm
    · exact .inr (List.mem_append_left _ hm)
    · exact .inr (List.mem_append_right _ hm)
  · intro m q c hc
    rcases List.mem_append.1 hc with hc | hc
    · rcases h3 m q c hc with hx | hx
      · exact .inl hx
      · exact .inr (List.mem_append_left _ hx)
    · rcases h6 m q c hc with (hx | hx) | hx
      · exact .inl hx
      · exact .inr (List.mem_append_left _ hx)
      · exact .inr (List.mem_append_right _ hx)

theorem agrees_keep {fs : List (Loc × Cell D X)} {τ τ' : Mem D X} {N : List Name} (h : Agrees fs τ) (hf : Unused τ) (hk : Keeps N τ τ')
    (hd : ∀ m q x, (Loc.named m q, x) ∈ fs → m ∉ N) : Agrees fs τ' := by
  rintro ⟨l, x⟩ hm
  have h1 := h _ hm
  cases l with
  | named n q =>
    by_cases hq : q = τ.path
    · subst hq; rw [hk.named n (hd n _ x hm)]; exact h1
    · rw [hk.other n q hq]; exact h1
  | anon k =>
    have : k < τ.next := by
      apply Classical.byContradiction
      intro hn
      have h2 := hf k (by omega)
      simp only at h1
      rw [h2] at h1
      cases h1
    simp only at h1 ⊢
    rw [hk.anon k this]; exact h1

/-! ### Branches -/

theorem mem_pointFrom {nm c : Option Name} {v : Tree D} {q : Name × Option Name × Tree D} (h : q ∈ pointFrom nm c v) :
    nm = some q.1 ∧ q.2 = (c, v) := by
  unfold pointFrom at h
  split at h
  · simp only [List.mem_singleton] at h; subst h; exact ⟨rfl, rfl⟩
  · cases h

theorem pointFrom_map (nm c : Option Name) (v : Tree D) : (pointFrom nm c v).map (·.1) = (point nm v).map (·.1) := by
  unfold pointFrom point
  split <;> simp_all
  
theorem pointsFrom_map : ∀ (v : Tree D) (c : Option Name), (pointsFrom c v).map (·.1) = memoNames v := by
  intro v
  induction v with
  | nil => intro c; rfl
  | node lv n d l r ihl ihr =>
    intro c
    simp only [memoNames] at ihl ihr
    simp only [pointsFrom, memoNames, points, List.map_append, pointFrom_map, ihl, ihr]

/-- The memoised calls for a branch: its own and those below. -/
def bfrom (nm c : Option Name) (v : Tree D) : List (Name × Option Name × Tree D) := pointFrom nm c v ++ pointsFrom c v

theorem pointsFrom_below : ∀ {v : Tree D} {c : Option Name} {q : Name × Option Name × Tree D}, q ∈ pointsFrom c v → pointsFrom q.2.1 q.2.2 ⊆ pointsFrom c v := by
  intro v
  induction v with
  | nil => intro c q h; cases h
  | node lv n d l r ihl ihr =>
    intro c q h
    simp only [pointsFrom, List.mem_append] at h
    intro z hz
    simp only [pointsFrom, List.mem_append]
    rcases h with ((h | h) | h) | h
    · rw [(mem_pointFrom h).2] at hz; exact .inl (.inr hz)
    · rw [(mem_pointFrom h).2] at hz; exact .inr hz
    · exact .inl (.inr (ihl h hz))
    · exact .inr (ihr h hz)

theorem bfrom_sub {nm c : Option Name} {v : Tree D} {q : Name × Option Name × Tree D} (h : q ∈ bfrom nm c v) :
    pointsFrom q.2.1 q.2.2 ⊆ bfrom nm c v := by
  simp only [bfrom, List.mem_append] at h
  rcases h with h | h
  · rw [(mem_pointFrom h).2]; exact fun _ h => List.mem_append_right _ h
  · exact fun x hx => List.mem_append_right _ (pointsFrom_below h hx)

theorem pointsFrom_isSome {l r : Tree D} (h : ¬ (l.isSome || r.isSome) = true) : l = .nil ∧ r = .nil := by
  cases l <;> cases r <;> simp_all [Tree.isSome]

theorem used_below {uses : D → Option Name → List Name} : ∀ {v : Tree (Tr × D)} {c : Option Name} {q : Name × Option Name × Tree (Tr × D)},
    q ∈ pointsFrom c v → used uses q.2.1 q.2.2 ⊆ used uses c v := by
  intro v
  induction v with
  | nil => intro c q h; cases h
  | node lv n d l r ihl ihr =>
    intro c q h
    obtain ⟨t, d⟩ := d
    by_cases hs : (l.isSome || r.isSome) = true
    · intro z hz
      simp only [used, if_pos hs, List.mem_append]
      simp only [pointsFrom, List.mem_append] at h
      rcases h with ((h | h) | h) | h
      · rw [(mem_pointFrom h).2] at hz; exact .inl hz
      · rw [(mem_pointFrom h).2] at hz; exact .inr (.inr hz)
      · exact .inl (ihl h hz)
      · exact .inr (.inr (ihr h hz))
    · obtain ⟨rfl, rfl⟩ := pointsFrom_isSome hs
      cases n <;> simp [pointsFrom, pointFrom] at h

theorem bfrom_used {uses : D → Option Name → List Name} {nm c : Option Name} {v : Tree (Tr × D)} {q : Name × Option Name × Tree (Tr × D)}
    (h : q ∈ bfrom nm c v) : used uses q.2.1 q.2.2 ⊆ used uses c v := by
  simp only [bfrom, List.mem_append] at h
  rcases h with h | h
  · rw [(mem_pointFrom h).2]; exact fun _ h => h
  · exact used_below h

theorem full_below {g : Sem A S D D' X'} : ∀ {v : Tree (Tr × D)} {c : Option Name} {q : Name × Option Name × Tree (Tr × D)}, Full g v →
    q ∈ pointsFrom c v → Full g q.2.2 := by
  intro v
  induction v with
  | nil => intro c q _ h; cases h
  | node lv n d l r ihl ihr =>
    intro c q hf h
    obtain ⟨t, d⟩ := d
    simp only [Full] at hf
    rcases hf with hf | hf
    · obtain ⟨rfl, rfl⟩ := pointsFrom_isSome (l := l) (r := r) (by simp [hf.1, hf.2.1])
      cases n <;> simp [pointsFrom, pointFrom] at h
    · simp only [pointsFrom, List.mem_append] at h
      rcases h with ((h | h) | h) | h
      · rw [(mem_pointFrom h).2]; exact hf.1
      · rw [(mem_pointFrom h).2]; exact hf.2.1
      · exact ihl hf.1 h
      · exact ihr hf.2.1 h

theorem bfrom_full {g : Sem A S D D' X'} {nm c : Option Name} {v : Tree (Tr × D)} {q : Name × Option Name × Tree (Tr × D)} (hf : Full g v)
    (h : q ∈ bfrom nm c v) : Full g q.2.2 := by
  simp only [bfrom, List.mem_append] at h
  rcases h with h | h
  · rw [(mem_pointFrom h).2]; exact hf
  · exact full_below hf h

theorem view_pointsFrom {σ : Mem D X} : ∀ {v : Tree (Tr × D)} {h : Option Tr} {c : Option Name}, View σ h v → ∀ q ∈ pointsFrom c v, View σ (rootH q.2.2) q.2.2 := by
  intro v
  induction v with
  | nil => intro h c _ q hq; cases hq
  | node lv n d l r ihl ihr =>
    intro h c hv q hq
    cases hv with
    | node hc h1 h2 =>
      simp only [pointsFrom, List.mem_append] at hq
      rcases hq with ((hq | hq) | hq) | hq
      · rw [(mem_pointFrom hq).2]; simp only [h1.root]; exact h1
      · rw [(mem_pointFrom hq).2]; simp only [h2.root]; exact h2
      · exact ihl h1 q hq
      · exact ihr h2 q hq

/-! ### Stored calls -/

/-- The stored call has folded this tree. -/
structure IsFor (g : Sem A S D D' X') (e : AEntry (Cell D X) (Cell D' X') (LrKey A) A) (v : Tree (Tr × D)) : Prop where
  root : rootH v = some e.key.tree
  det : ∀ σ', Agrees e.reads σ' → View σ' (some e.key.tree) v
  cov : ∀ σ', View σ' (some e.key.tree) v → Agrees e.reads σ'
  step : StepsTo g e.facts e.key.accum e.res (fun x => foldP g.f e.key.start x v) (used g.uses e.key.start v)
  can : Full g v → e.key.accum = g.home e.key.start → g.Mid e.res ∧ Within e.facts (used g.uses e.key.start v)

/-- It was entered with the accumulator that does not depend on what came before. -/
structure Is (g : Sem A S D D' X') (e : AEntry (Cell D X) (Cell D' X') (LrKey A) A) (q : Name × Option Name × Tree (Tr × D)) : Prop where
  isFor : IsFor g e q.2.2
  start : e.key.start = q.2.1
  accum : e.key.accum = g.home q.2.1

/-- All stored calls are good. -/
structure SInv (g : Sem A S D D' X') (s : LS D X D' X' A) : Prop where
  fresh : Fresh s.mem
  calls : ∀ m e, s.table m = some e → ∃ v, IsFor g e v

theorem IsFor.at {g : Sem A S D D' X'} {e : AEntry (Cell D X) (Cell D' X') (LrKey A) A} {v c : Tree (Tr × D)} (h : IsFor g e v) {σ : Mem D X}
    (hr : Agrees e.reads σ) (hc : View σ (some e.key.tree) c) : IsFor g e c := by
  have := View.unique (h.det σ hr) hc
  subst this
  exact h

/-- A stored call for a branch that is found again has the calls below it stored too. -/
def DeepAt (g : Sem A S D D' X') (σ : Mem D X) (s : LS D X D' X' A) (q : Name × Option Name × Tree (Tr × D)) : Prop :=
  ∀ e, s.table q.1 = some e → rootH q.2.2 = some e.key.tree → e.key.start = q.2.1 → e.key.accum = g.home q.2.1 → Agrees e.reads σ →
    ∀ q' ∈ pointsFrom q.2.1 q.2.2, ∃ e', s.table q'.1 = some e' ∧ Is g e' q' ∧ e'.facts ⊆ e.facts

/-- The branch has a stored call that can be used. -/
def Hit (g : Sem A S D D' X') (s : LS D X D' X' A) (q : Name × Option Name × Tree (Tr × D)) : Prop :=
  ∃ e, s.table q.1 = some e ∧ Is g e q ∧ Agrees e.facts s.mem

/-- The branch has a stored call, and so have the branches below. -/
def Stored (g : Sem A S D D' X') (s : LS D X D' X' A) (q : Name × Option Name × Tree (Tr × D)) (fs : List (Loc × Cell D' X')) : Prop :=
  ∃ e, s.table q.1 = some e ∧ Is g e q ∧ e.facts ⊆ fs ∧
    ∀ q' ∈ pointsFrom q.2.1 q.2.2, ∃ e', s.table q'.1 = some e' ∧ Is g e' q' ∧ e'.facts ⊆ e.facts

/-- What folding a tree (or a branch, with its own stored call) does. -/
structure Part [DecidableEq D] (g : Sem A S D D' X') (σ : Mem D X) (old : List (Name × Option Name × Tree (Tr × D))) (s : LS D X D' X' A)
    (h : Option Tr) (start : Option Name) (a : A) (v : Tree (Tr × D)) (pts : List (Name × Option Name × Tree (Tr × D))) (k : Nat)
    (rd : List (Loc × Cell D X)) (fs : List (Loc × Cell D' X')) (w : Nat) (s' : LS D X D' X' A) (a' : A) : Prop where
  det : ∀ σ', Agrees rd σ' → View σ' h v
  cov : ∀ σ', View σ' h v → Agrees rd σ'
  facts : Agrees fs s'.mem
  step : StepsTo g fs a a' (fun x => foldP g.f start x v) (used g.uses start v)
  can : Full g v → a = g.home start → g.Mid a' ∧ Within fs (used g.uses start v)
  inv : SInv g s'
  keeps : Keeps (used g.uses start v) s.mem s'.mem
  tab : ∀ m, m ∉ pts.map (·.1) → s'.table m = s.table m
  hits : Full g v → a = g.home start → (∀ q ∈ pts, DeepAt g σ s q) → ∀ q ∈ pts, Stored g s' q fs
  work : Full g v → a = g.home start → (∀ q ∈ pts, q ∈ old → Hit g s q) → w ≤ k
  most : w ≤ v.size

section
variable [DecidableEq D] [DecidableEq X] [DecidableEq D'] [DecidableEq X'] [DecidableEq A]

theorem alookup_some {s : LS D X D' X' A} {n : Name} {σ : Mem D X} {key : LrKey A} {e : AEntry (Cell D X) (Cell D' X') (LrKey A) A}
    (h : s.lookup n σ key = some e) : s.table n = some e ∧ e.key = key ∧ Agrees e.reads σ ∧ Agrees e.facts s.mem := by
  unfold Space.lookup at h
  rw [Option.filter_eq_some_iff] at h
  refine ⟨h.1, ?_⟩
  have h2 := h.2
  simp only [AEntry.usable, Bool.and_eq_true, decide_eq_true_eq, List.all_eq_true] at h2
  exact ⟨h2.1.1, fun q hq => h2.1.2 q hq, fun q hq => h2.2 q hq⟩

theorem alookup_hit {s : LS D X D' X' A} {n : Name} {σ : Mem D X} {e : AEntry (Cell D X) (Cell D' X') (LrKey A) A}
    (h : s.table n = some e) (hr : Agrees e.reads σ) (hf : Agrees e.facts s.mem) : s.lookup n σ e.key = some e := by
  unfold Space.lookup
  rw [Option.filter_eq_some_iff]
  refine ⟨h, ?_⟩
  simp only [AEntry.usable, Bool.and_eq_true, decide_eq_true_eq, List.all_eq_true, true_and]
  exact ⟨fun q hq => hr q hq, fun q hq => hf q hq⟩

/-- The statement about a whole tree. -/
def RunOK (node : AccNode (Cell D X) (Cell D' X') A D) (g : Sem A S D D' X') (σ : Mem D X) (old : List (Name × Option Name × Tree (Tr × D)))
    (n : Nat) (v : Tree (Tr × D)) : Prop :=
  ∀ (h : Tr) (start : Option Name) (a : A) (x : S) (ns : Name → Prop) (s : LS D X D' X' A), View σ (some h) v → (memoNames v).Nodup →
    (used g.uses start v).Nodup → SInv g s → g.Rel s.mem ns a x → (∀ m ∈ used g.uses start v, ¬ ns m) →
    match foldP g.f start x v with
    | .error q => amrun (lrAccBody node) σ n ⟨h, start, a⟩ s = some (.error q)
    | .ok _ => ∃ o, amrun (lrAccBody node) σ n ⟨h, start, a⟩ s = some (.ok o) ∧
        Part g σ old s (some h) start a v (pointsFrom start v) (costFrom old start v) o.reads o.facts o.work o.space o.val

omit [DecidableEq D] [DecidableEq X] [DecidableEq D'] [DecidableEq X'] [DecidableEq A] in
theorem stepsTo_refl {g : Sem A S D D' X'} (hm : ∀ (τ : Mem D' X') (ns ns' : Name → Prop) (a : A) (x : S), (∀ m, ns m → ns' m) → g.Rel τ ns a x → g.Rel τ ns' a x)
    (a : A) : StepsTo g [] a a .ok [] := by
  intro τ ns x _ _ hr _
  exact ⟨x, rfl, hm _ _ _ _ _ (fun _ h => .inl h) hr, fun _ _ _ h => by cases h⟩

theorem branch_run {node : AccNode (Cell D X) (Cell D' X') A D} {g : Sem A S D D' X'} (ok : NodeOK node g) {σ : Mem D X} {old : List (Name × Option Name × Tree (Tr × D))}
    {n : Nat} {c : Tree (Tr × D)}
    (ih : RunOK node g σ old n c) {h : Option Tr} (hv : View σ h c) {start : Option Name} (hu : (used g.uses start c).Nodup) {nm : Option Name}
    (hb : ((bfrom nm start c).map (·.1)).Nodup) {a : A} {x : S} {ns : Name → Prop} {s : LS D X D' X' A} (hs : SInv g s) (hr : g.Rel s.mem ns a x)
    (hd : ∀ m ∈ used g.uses start c, ¬ ns m) (k : A → AProg (Cell D X) (Cell D' X') (LrKey A) A A) :
    match foldP g.f start x c with
    | .error q => amexec (amrun (lrAccBody node) σ n) σ (lrMemo nm start a h k) s = some (.error q)
    | .ok _ => ∃ rd fs w s' a', amexec (amrun (lrAccBody node) σ n) σ (lrMemo nm start a h k) s =
          after rd fs w (amexec (amrun (lrAccBody node) σ n) σ (k a') s') ∧
        Part g σ old s h start a c (bfrom nm start c) (if (pointFrom nm start c).any (· ∈ old) then 0 else costFrom old start c) rd fs w s' a' := by
  cases hv with
  | nil =>
    refine ⟨[], [], 0, s, a, ?_, ?_⟩
    · simp only [lrMemo]
      rw [after_zero]
    · refine ⟨fun _ _ => .nil, fun _ _ => Agrees.nil _, Agrees.nil _, stepsTo_refl ok.mono a, fun h => absurd h (by simp [Full]), hs,
        Keeps.refl _ _, fun _ _ => rfl, fun h => absurd h (by simp [Full]), fun h => absurd h (by simp [Full]), Nat.zero_le _⟩
  | @node h d hl hr' l r hc h1 h2 =>
    have hv : View σ (some h) (.node h.level h.name (h, d) l r) := .node hc h1 h2
    generalize hceq : Tree.node h.level h.name (h, d) l r = c at *
    have hroot : rootH c = some h := hv.root
    have hmn : (memoNames c).Nodup := by
      simp only [bfrom, List.map_append, pointsFrom_map, List.nodup_append] at hb
      exact hb.2.1
    have hself : ∀ m, nm = some m → (m, start, c) ∈ pointFrom nm start c := by
      rintro m rfl; rw [← hceq]; simp [pointFrom]
    have ih := ih h start a x ns s hv hmn hu hs hr hd
    -- without a stored call
    have miss : (∀ m, nm = some m → s.lookup m σ ⟨h, start, a⟩ = none) →
        amexec (amrun (lrAccBody node) σ n) σ (lrMemo nm start a (some h) k) s =
          (match amrun (lrAccBody node) σ n ⟨h, start, a⟩ s with
          | none => none
          | some (.error q) => some (.error q)
          | some (.ok o) => after o.reads o.facts o.work (amexec (amrun (lrAccBody node) σ n) σ (k o.val)
              (match nm with
              | none => o.space
              | some m => o.space.set m ⟨⟨h, start, a⟩, o.reads, o.facts, o.val⟩))) := by
      intro hm
      cases nm with
      | none =>
        simp only [lrMemo, amexec]
        rcases amrun (lrAccBody node) σ n ⟨h, start, a⟩ s with _ | (_ | _) <;> rfl
      | some m =>
        simp only [lrMemo, amexec, hm m rfl]
        rcases amrun (lrAccBody node) σ n ⟨h, start, a⟩ s with _ | (_ | _) <;> rfl
    have hit : ∀ m e, nm = some m → s.lookup m σ ⟨h, start, a⟩ = some e →
        amexec (amrun (lrAccBody node) σ n) σ (lrMemo nm start a (some h) k) s =
          after e.reads e.facts 0 (amexec (amrun (lrAccBody node) σ n) σ (k e.res) s) := by
      rintro m e rfl he
      simp only [lrMemo, amexec, he]
    by_cases hlook : ∀ m, nm = some m → s.lookup m σ ⟨h, start, a⟩ = none
    · rw [miss hlook]
      cases hmap : foldP g.f start x c with
      | error q => rw [hmap] at ih; simp only at ih ⊢; rw [ih]
      | ok t' =>
        rw [hmap] at ih
        obtain ⟨o, ho, p⟩ := ih
        simp only [ho]
        have hfor : IsFor g (⟨⟨h, start, a⟩, o.reads, o.facts, o.val⟩ : AEntry (Cell D X) (Cell D' X') (LrKey A) A) c :=
          ⟨hroot, p.det, p.cov, p.step, p.can⟩
        have hcost : Full g c → a = g.home start → (∀ q ∈ bfrom nm start c, q ∈ old → Hit g s q) →
            o.work ≤ (if (pointFrom nm start c).any (· ∈ old) then 0 else costFrom old start c) := by
          intro hfull hhome hh
          rw [if_neg]
          · exact p.work hfull hhome (fun q hq => hh q (List.mem_append_right _ hq))
          · intro hany
            simp only [List.any_eq_true, decide_eq_true_eq] at hany
            obtain ⟨q, hq, hq'⟩ := hany
            obtain ⟨e, e1, e2, e3⟩ := hh q (List.mem_append_left _ hq) hq'
            obtain ⟨m1, m2⟩ := mem_pointFrom hq
            obtain ⟨f1, f2, f3⟩ := e2
            rw [m2] at f1 f2 f3
            have hk : e.key = ⟨h, start, a⟩ := by
              have := f1.root
              rw [hroot] at this
              have h3 := (Option.some.inj this).symm
              obtain ⟨⟨kt, ks, ka⟩, _, _, _⟩ := e
              simp only at h3 f2 f3 ⊢
              rw [h3, f2, f3, hhome]
            have := alookup_hit e1 (f1.cov σ (by rw [hk]; exact hv)) e3
            rw [hk, hlook _ m1] at this
            cases this
        refine ⟨o.reads, o.facts, o.work, _, o.val, rfl, p.det, p.cov, ?_, p.step, p.can, ?_, ?_, ?_, ?_, hcost, p.most⟩
        · cases nm <;> exact p.facts
        · cases nm with
          | none => exact p.inv
          | some m =>
            refine ⟨p.inv.fresh, fun m' e' he' => ?_⟩
            simp only [Space.set] at he'
            split at he'
            · cases he'; exact ⟨c, hfor⟩
            · exact p.inv.calls m' e' he'
        · cases nm <;> exact p.keeps
        · intro m hm
          simp only [bfrom, List.map_append, List.mem_append, not_or] at hm
          cases nm with
          | none => exact p.tab m hm.2
          | some m' =>
            have : m ≠ m' := by
              rintro rfl
              exact hm.1 (List.mem_map.2 ⟨_, hself m rfl, rfl⟩)
            simp only [Space.set, if_neg this]
            exact p.tab m hm.2
        · intro hfull hhome hd q hq
          simp only [bfrom, List.mem_append] at hq
          have hin : ∀ q ∈ pointsFrom start c, Stored g o.space q o.facts := p.hits hfull hhome (fun q hq => hd q (List.mem_append_right _ hq))
          cases nm with
          | none =>
            rcases hq with hq | hq
            · exact absurd (mem_pointFrom hq).1 (by simp)
            · exact hin q hq
          | some m =>
            have hne : ∀ q ∈ pointsFrom start c, q.1 ≠ m := by
              rintro q hq hqm
              simp only [bfrom, List.map_append, List.nodup_append] at hb
              exact hb.2.2 m (List.mem_map.2 ⟨_, hself m rfl, rfl⟩) q.1 (List.mem_map.2 ⟨q, hq, rfl⟩) hqm.symm
            have htab : ∀ q ∈ pointsFrom start c, (o.space.set m ⟨⟨h, start, a⟩, o.reads, o.facts, o.val⟩).table q.1 = o.space.table q.1 := by
              intro q hq
              simp only [Space.set, if_neg (hne q hq)]
            rcases hq with hq | hq
            · obtain ⟨m1, m2⟩ := mem_pointFrom hq
              simp only [Option.some.injEq] at m1
              refine ⟨⟨⟨h, start, a⟩, o.reads, o.facts, o.val⟩, by simp only [Space.set, if_pos m1.symm],
                ⟨by rw [m2]; exact hfor, by rw [m2], by rw [m2]; exact hhome⟩, fun _ h => h, ?_⟩
              intro q' hq'
              rw [m2] at hq'
              obtain ⟨e', b1, b2, b3, -⟩ := hin q' hq'
              exact ⟨e', by rw [htab q' hq']; exact b1, b2, b3⟩
            · obtain ⟨e, b1, b2, b3, b4⟩ := hin q hq
              refine ⟨e, by rw [htab q hq]; exact b1, b2, b3, fun q' hq' => ?_⟩
              obtain ⟨e', c1, c2, c3⟩ := b4 q' hq'
              exact ⟨e', by rw [htab q' (pointsFrom_below hq hq')]; exact c1, c2, c3⟩
    · have : ∃ m e, nm = some m ∧ s.lookup m σ ⟨h, start, a⟩ = some e := by
        apply Classical.byContradiction
        intro hno
        apply hlook
        intro m hm
        cases hx : s.lookup m σ ⟨h, start, a⟩ with
        | none => rfl
        | some e => exact absurd ⟨m, e, hm, hx⟩ hno
      obtain ⟨m, e, rfl, he⟩ := this
      obtain ⟨e1, e2, e3, e4⟩ := alookup_some he
      obtain ⟨v, hv0⟩ := hs.calls m e e1
      have hf := hv0.at e3 (by rw [e2]; exact hv)
      have hkt : e.key.tree = h := by rw [e2]
      have hks : e.key.start = start := by rw [e2]
      have hka : e.key.accum = a := by rw [e2]
      have hstep := hf.step
      have hcan := hf.can
      have hdet := hf.det
      have hcov := hf.cov
      rw [hkt] at hdet hcov
      rw [hks, hka] at hstep hcan
      obtain ⟨y, r1, -⟩ := hstep s.mem ns x hs.fresh e4 hr hd
      simp only at r1
      rw [r1]
      simp only
      refine ⟨e.reads, e.facts, 0, s, e.res, hit m e rfl he, hdet, hcov, e4, hstep, hcan, hs, Keeps.refl _ _, fun _ _ => rfl, ?_,
        fun _ _ _ => Nat.zero_le _, Nat.zero_le _⟩
      · intro hfull hhome hd q hq
        simp only [bfrom, List.mem_append] at hq
        have hm : (m, start, c) ∈ bfrom (some m) start c := List.mem_append_left _ (hself m rfl)
        have hdeep := hd _ hm e e1 (by rw [hkt]; exact hroot) hks (by rw [hka]; exact hhome) e3
        rcases hq with hq | hq
        · obtain ⟨m1, m2⟩ := mem_pointFrom hq
          simp only [Option.some.injEq] at m1
          refine ⟨e, by rw [← m1]; exact e1, ⟨by rw [m2]; exact hf, by rw [m2]; exact hks, by rw [m2, hka]; exact hhome⟩, fun _ h => h, ?_⟩
          rw [m2]
          exact hdeep
        · obtain ⟨e', b1, b2, b3⟩ := hdeep q hq
          refine ⟨e', b1, b2, b3, hd q (List.mem_append_right _ hq) e' b1 b2.isFor.root b2.start b2.accum ?_⟩
          refine b2.isFor.cov σ ?_
          have := view_pointsFrom hv q hq
          rw [b2.isFor.root] at this
          exact this

omit [DecidableEq D] [DecidableEq X] [DecidableEq D'] [DecidableEq X'] [DecidableEq A] in
theorem hit_keep {g : Sem A S D D' X'} {s s' : LS D X D' X' A} {N : List Name} {q : Name × Option Name × Tree (Tr × D)} (h : Hit g s q)
    (hq : Full g q.2.2) (hf : Unused s.mem)
    (hk : Keeps N s.mem s'.mem) (hd : Dis (used g.uses q.2.1 q.2.2) N) (ht : s'.table q.1 = s.table q.1) : Hit g s' q := by
  obtain ⟨e, e1, e2, e3⟩ := h
  refine ⟨e, ht.trans e1, e2, within_keep e3 ?_ hf hk hd⟩
  have := (e2.isFor.can hq (by rw [e2.accum, e2.start])).2
  rw [e2.start] at this
  exact this

theorem fold_run {node : AccNode (Cell D X) (Cell D' X') A D} {g : Sem A S D D' X'} (ok : NodeOK node g) (σ : Mem D X)
    (old : List (Name × Option Name × Tree (Tr × D))) : ∀ (v : Tree (Tr × D)) (n : Nat), v.size ≤ n → RunOK node g σ old n v := by
  intro v
  induction v with
  | nil => intro n _ h start a x ns s hv; cases hv
  | node lv nm hd l r ihl ihr =>
    intro n hn h start a x ns s hv hnd hu hs hrel hdis
    simp only [Tree.size] at hn
    obtain ⟨n, rfl⟩ : ∃ m, n = m + 1 := ⟨n - 1, by omega⟩
    cases hv with
    | @node _ d hl hr _ _ hc h1 h2 =>
    have isl : hl.isSome = l.isSome := by cases h1 <;> rfl
    have isr : hr.isSome = r.isSome := by cases h2 <;> rfl
    have covers : ∀ (rd1 rd2 : List (Loc × Cell D X)), (∀ σ', View σ' hl l → Agrees rd1 σ') → (∀ σ', View σ' hr r → Agrees rd2 σ') →
        ∀ σ', View σ' (some h) (.node h.level h.name (h, d) l r) → Agrees ((h.link, Cell.node d hl hr) :: (rd1 ++ rd2)) σ' := by
      intro rd1 rd2 c1 c2 σ' hv'
      cases hv' with
      | node hc' h1' h2' =>
        have q1 := h1.root
        have q2 := h2.root
        have q3 := h1'.root
        have q4 := h2'.root
        rw [q1] at q3; rw [q2] at q4
        subst q3 q4
        exact agrees_cons.2 ⟨hc', agrees_append.2 ⟨c1 σ' h1', c2 σ' h2'⟩⟩
    by_cases hsome : (l.isSome || r.isSome) = true
    · -- a node with branches
      simp only [used, if_pos hsome] at hu hdis
      have nd1 := List.nodup_append.1 hu
      have nd2 := List.nodup_append.1 nd1.2.1
      have d12 : Dis (used g.uses start l) (g.uses d h.name ++ used g.uses h.name r) := Heap.dis_app hu
      have d23 : Dis (g.uses d h.name) (used g.uses h.name r) := Heap.dis_app nd1.2.1
      have dis1 : ∀ m ∈ used g.uses start l, ¬ ns m := fun m hm => hdis m (List.mem_append_left _ hm)
      have dis2 : ∀ m ∈ g.uses d h.name, ¬ ns m := fun m hm => hdis m (List.mem_append_right _ (List.mem_append_left _ hm))
      have dis3 : ∀ m ∈ used g.uses h.name r, ¬ ns m := fun m hm => hdis m (List.mem_append_right _ (List.mem_append_right _ hm))
      have cnt := List.nodup_iff_count_le_one.1 hnd
      rw [← pointsFrom_map _ start] at cnt
      have bl : ((bfrom (h.name.map .forkL) start l).map (·.1)).Nodup := by
        rw [List.nodup_iff_count_le_one]
        intro x
        have := cnt x
        simp only [pointsFrom, bfrom, List.map_append, List.count_append] at this ⊢
        omega
      have br : ((bfrom (h.name.map .forkR) h.name r).map (·.1)).Nodup := by
        rw [List.nodup_iff_count_le_one]
        intro x
        have := cnt x
        simp only [pointsFrom, bfrom, List.map_append, List.count_append] at this ⊢
        omega
      have dm : ∀ x, x ∈ (bfrom (h.name.map .forkL) start l).map (·.1) → x ∉ (bfrom (h.name.map .forkR) h.name r).map (·.1) := by
        intro x hx hx'
        have := cnt x
        have c1 := List.count_pos_iff.2 hx
        have c2 := List.count_pos_iff.2 hx'
        simp only [pointsFrom, bfrom, List.map_append, List.count_append] at this c1 c2
        omega
      simp only [amrun, lrAccBody, amexec, hc, forks_eq, foldP, isl, isr, if_pos hsome]
      have L := branch_run ok (ihl n (by omega)) h1 nd1.1 bl hs hrel dis1 (fun a =>
        node a d h.level h.name fun a => lrMemo (h.name.map .forkR) h.name a hr .ret)
      cases hl' : foldP g.f start x l with
      | error q =>
        rw [hl'] at L
        simp only at L
        rw [L]
        rfl
      | ok x1 =>
      rw [hl'] at L
      obtain ⟨rd1, fs1, w1, s1, a1, e1, p1⟩ := L
      rw [e1]
      have rel1 : g.Rel s1.mem ns a x := ok.frame _ _ _ _ _ _ hs.fresh p1.keeps dis1 hrel
      obtain ⟨x1', b1, b2, b3⟩ := p1.step s1.mem ns x p1.inv.fresh p1.facts rel1 dis1
      simp only [hl'] at b1
      cases b1
      have N := ok.run (amrun (lrAccBody node) σ n) σ s1 _ a1 x1 d h.level h.name (fun a => lrMemo (h.name.map .forkR) h.name a hr .ret)
        p1.inv.fresh b2 (by
          rintro m hm (hx | hx)
          · exact dis2 m hm hx
          · exact d12 m hx (List.mem_append_left _ hm))
      simp only [bind, Except.bind]
      cases hf' : g.f x1 d h.level h.name with
      | error q =>
        rw [hf'] at N
        simp only at N ⊢
        rw [N]
        rfl
      | ok x2 =>
      rw [hf'] at N
      obtain ⟨a2, fs2, s2, e2, t2, fr2, k2, ag2, st2, -, can2⟩ := N
      rw [e2]
      have inv2 : SInv g s2 := ⟨fr2, fun m e he => p1.inv.calls m e (by rw [← t2]; exact he)⟩
      have rel2 := ok.frame _ _ _ _ _ _ p1.inv.fresh k2 (by
          rintro m hm (hx | hx)
          · exact dis2 m hm hx
          · exact d12 m hx (List.mem_append_left _ hm)) b2
      obtain ⟨x2', c1, c2, c3⟩ := st2 s2.mem _ x1 fr2 ag2 rel2 (by
          rintro m hm (hx | hx)
          · exact dis2 m hm hx
          · exact d12 m hx (List.mem_append_left _ hm))
      simp only [hf'] at c1
      cases c1
      have dis3' : ∀ m ∈ used g.uses h.name r, ¬ ((ns m ∨ m ∈ used g.uses start l) ∨ m ∈ g.uses d h.name) := by
        rintro m hm ((hx | hx) | hx)
        · exact dis3 m hm hx
        · exact d12 m hx (List.mem_append_right _ hm)
        · exact d23 m hx hm
      have R := branch_run ok (ihr n (by omega)) h2 nd2.2.1 br inv2 c2 dis3' .ret
      simp only
      cases hr' : foldP g.f h.name x2 r with
      | error q =>
        rw [hr'] at R
        simp only at R
        rw [R]
        rfl
      | ok x3 =>
      rw [hr'] at R
      obtain ⟨rd3, fs3, w3, s3, a3, e3, p3⟩ := R
      rw [e3]
      refine ⟨_, rfl, ?_⟩
      simp only [List.append_nil, List.nil_append, Nat.add_zero, Nat.zero_add]
      have f1 : Agrees fs1 s2.mem := agrees_keep p1.facts p1.inv.fresh.unused k2 (by
        intro m q c hm hx
        rcases b3 m q c hm with hy | hy
        · exact dis2 m hx hy
        · exact d12 m hy (List.mem_append_left _ hx))
      have f1' : Agrees fs1 s3.mem := agrees_keep f1 fr2.unused p3.keeps (by
        intro m q c hm hx
        rcases b3 m q c hm with hy | hy
        · exact dis3 m hx hy
        · exact d12 m hy (List.mem_append_right _ hx))
      have f2' : Agrees fs2 s3.mem := agrees_keep ag2 fr2.unused p3.keeps (by
        intro m q c hm hx
        rcases c3 m q c hm with (hy | hy) | hy
        · exact dis3 m hx hy
        · exact d12 m hy (List.mem_append_right _ hx)
        · exact d23 m hy hx)
      have ueq : used g.uses start (.node h.level h.name (h, d) l r) = used g.uses start l ++ (g.uses d h.name ++ used g.uses h.name r) := by
        simp only [used, if_pos hsome]
      have sl : used g.uses start l ⊆ used g.uses start (.node h.level h.name (h, d) l r) := by
        intro x hx; rw [ueq]; simp only [List.mem_append]; tauto
      have sr : used g.uses h.name r ⊆ used g.uses start (.node h.level h.name (h, d) l r) := by
        intro x hx; rw [ueq]; simp only [List.mem_append]; tauto
      have sn : g.uses d h.name ⊆ used g.uses start (.node h.level h.name (h, d) l r) := by
        intro x hx; rw [ueq]; simp only [List.mem_append]; tauto
      have pin : ∀ q, q ∈ pointsFrom start (.node h.level h.name (h, d) l r) ↔
          q ∈ bfrom (h.name.map .forkL) start l ∨ q ∈ bfrom (h.name.map .forkR) h.name r := by
        intro q; simp only [pointsFrom, bfrom, List.mem_append]; tauto
      have tab2 : ∀ m, m ∈ (bfrom (h.name.map .forkL) start l).map (·.1) → s3.table m = s1.table m := by
        intro m hm; rw [p3.tab m (dm m hm), t2]
      have tab1 : ∀ m, m ∈ (bfrom (h.name.map .forkR) h.name r).map (·.1) → s2.table m = s.table m := by
        intro m hm; rw [t2]; exact p1.tab m (fun hm' => dm m hm' hm)
      have mem : ∀ {q : Name × Option Name × Tree (Tr × D)} {ps : List (Name × Option Name × Tree (Tr × D))}, q ∈ ps → q.1 ∈ ps.map (·.1) :=
        fun {q ps} hq => List.mem_map.2 ⟨q, hq, rfl⟩
      -- with the usual accumulators
      have split : Full g (.node h.level h.name (h, d) l r) → a = g.home start →
          Full g l ∧ Full g r ∧ g.Mid a1 ∧ Within fs1 (used g.uses start l) ∧ a2 = g.home h.name ∧ Within fs2 (g.uses d h.name) := by
        intro hfull hhome
        simp only [Full] at hfull
        rcases hfull with hx | ⟨hx, hy, m, hm, hz⟩
        · simp [hx.1, hx.2.1] at hsome
        · have i1 := p1.can hx hhome
          have i2 := can2 m hz hm i1.1
          exact ⟨hx, hy, i1.1, i1.2, i2⟩
      refine ⟨?_, ?_, ?_, ?_, ?_, ?_, ?_, ?_, ?_, ?_, ?_⟩
      · intro σ' ha
        simp only [List.singleton_append] at ha
        have b1 := agrees_cons.1 ha
        have b2 := agrees_append.1 b1.2
        exact .node b1.1 (p1.det σ' b2.1) (p3.det σ' b2.2)
      · intro σ' hv'
        simpa using covers rd1 rd3 p1.cov p3.cov σ' hv'
      · exact agrees_append.2 ⟨f1', agrees_append.2 ⟨f2', p3.facts⟩⟩
      · have c := p1.step.comp (st2.comp p3.step d23 ok.mono) d12 ok.mono
        rw [ueq]
        have hfun : (fun x => foldP g.f start x (.node h.level h.name (h, d) l r)) =
            fun x => foldP g.f start x l >>= fun x => g.f x d h.level h.name >>= fun x => foldP g.f h.name x r := by
          funext x
          simp only [foldP, if_pos hsome]
        rw [hfun]
        exact c
      · intro hfull hhome
        obtain ⟨i1, i2, i3, i4, i5, i6⟩ := split hfull hhome
        have i7 := p3.can i2 i5
        exact ⟨i7.1, (i4.mono sl).append ((i6.mono sn).append (i7.2.mono sr))⟩
      · exact p3.inv
      · exact (p1.keeps.mono sl).trans ((k2.mono sn).trans (p3.keeps.mono sr))
      · intro m hm
        have hm1 : m ∉ (bfrom (h.name.map .forkL) start l).map (·.1) := by
          intro hx
          obtain ⟨q, hq, rfl⟩ := List.mem_map.1 hx
          exact hm (mem ((pin q).2 (.inl hq)))
        have hm2 : m ∉ (bfrom (h.name.map .forkR) h.name r).map (·.1) := by
          intro hx
          obtain ⟨q, hq, rfl⟩ := List.mem_map.1 hx
          exact hm (mem ((pin q).2 (.inr hq)))
        rw [p3.tab m hm2, t2]
        exact p1.tab m hm1
      · intro hfull hhome hdeep q hq
        obtain ⟨i1, i2, i3, i4, i5, i6⟩ := split hfull hhome
        rcases (pin q).1 hq with hq | hq
        · obtain ⟨e, b1, b2, b3, b4⟩ := p1.hits i1 hhome (fun q hq => hdeep q ((pin q).2 (.inl hq))) q hq
          refine ⟨e, (tab2 _ (mem hq)).trans b1, b2, fun x hx => List.mem_append_left _ (b3 hx), fun q' hq' => ?_⟩
          obtain ⟨e', d1, d2, d3⟩ := b4 q' hq'
          exact ⟨e', (tab2 _ (mem (bfrom_sub hq hq'))).trans d1, d2, d3⟩
        · have hd2 : ∀ q ∈ bfrom (h.name.map .forkR) h.name r, DeepAt g σ s2 q := by
            intro q hq e he hr hst hac hag q' hq'
            obtain ⟨e', b1, b2, b3⟩ := hdeep q ((pin q).2 (.inr hq)) e (by rw [← tab1 _ (mem hq)]; exact he) hr hst hac hag q' hq'
            exact ⟨e', (tab1 _ (mem (bfrom_sub hq hq'))).trans b1, b2, b3⟩
          obtain ⟨e, b1, b2, b3, b4⟩ := p3.hits i2 i5 hd2 q hq
          exact ⟨e, b1, b2, fun x hx => List.mem_append_right _ (List.mem_append_right _ (b3 hx)), b4⟩
      · intro hfull hhome hh
        obtain ⟨i1, i2, i3, i4, i5, i6⟩ := split hfull hhome
        have c1 := p1.work i1 hhome (fun q hq ho => hh q ((pin q).2 (.inl hq)) ho)
        have c2 := p3.work i2 i5 (fun q hq ho => hit_keep (hh q ((pin q).2 (.inr hq)) ho) (bfrom_full i2 hq) hs.fresh.unused
          ((p1.keeps.mono (N' := used g.uses start l ++ g.uses d h.name) (List.subset_append_left _ _)).trans (k2.mono (List.subset_append_right _ _)))
          (fun x hx hx' => by
            have hx := bfrom_used hq hx
            rcases List.mem_append.1 hx' with hx' | hx'
            · exact d12 x hx' (List.mem_append_right _ hx)
            · exact d23 x hx' hx) (tab1 _ (mem hq)))
        simp only [costFrom]
        omega
      · have := p1.most
        have := p3.most
        simp only [Tree.size]
        omega
    · -- a leaf
      obtain ⟨rfl, rfl⟩ := pointsFrom_isSome hsome
      cases h1; cases h2
      have ueq : used g.uses start (.node h.level h.name (h, d) .nil .nil) = g.uses d start := by simp [used, Tree.isSome]
      rw [ueq] at hu hdis
      have N := ok.run (amrun (lrAccBody node) σ n) σ s ns a x d h.level start .ret hs.fresh hrel hdis
      have hfun : (fun x => foldP g.f start x (.node h.level h.name (h, d) .nil .nil)) = fun x => g.f x d h.level start := by
        funext x; simp [foldP, Tree.isSome]
      have hfx : foldP g.f start x (.node h.level h.name (h, d) .nil .nil) = g.f x d h.level start := congrFun hfun x
      rw [hfx]
      simp only [amrun, lrAccBody, amexec, hc, Option.isSome_none, Bool.or_self, Bool.false_eq_true, if_false]
      cases hf' : g.f x d h.level start with
      | error q =>
        rw [hf'] at N
        simp only at N ⊢
        rw [N]
        rfl
      | ok x2 =>
      rw [hf'] at N
      obtain ⟨a2, fs2, s2, e2, t2, fr2, k2, ag2, st2, can2, -⟩ := N
      rw [e2]
      refine ⟨_, rfl, ?_⟩
      simp only [List.append_nil, List.nil_append, Nat.add_zero, Nat.zero_add]
      have hp : pointsFrom start (.node h.level h.name (h, d) .nil .nil) = [] := by cases h.name <;> simp [pointsFrom, pointFrom]
      rw [hp]
      refine ⟨?_, ?_, ag2, ?_, ?_, ?_, ?_, ?_, ?_, ?_, ?_⟩
      · intro σ' ha
        exact .node (agrees_cons.1 ha).1 .nil .nil
      · intro σ' hv'
        exact covers [] [] (fun _ _ => Agrees.nil _) (fun _ _ => Agrees.nil _) σ' hv'
      · rw [hfun, ueq]; exact st2
      · intro hfull hhome
        simp only [Full, Tree.isSome, true_and, false_and, or_false] at hfull
        rw [ueq]
        exact can2 hfull hhome
      · exact ⟨fr2, fun m e he => hs.calls m e (by rw [← t2]; exact he)⟩
      · rw [ueq]; exact k2
      · intro m _; rw [t2]
      · intro _ _ _ q hq; cases hq
      · intro _ _ _
        simp [costFrom]
      · simp [Tree.size]

omit [DecidableEq D] [DecidableEq X] [DecidableEq D'] [DecidableEq X'] [DecidableEq A] in
theorem sInv_empty (g : Sem A S D D' X') : SInv g (Space.empty : LS D X D' X' A) :=
  ⟨⟨rfl, fun _ _ => rfl⟩, fun _ _ h => by cases h⟩

theorem run_part {node : AccNode (Cell D X) (Cell D' X') A D} {g : Sem A S D D' X'} (ok : NodeOK node g) {σ : Mem D X}
    (old : List (Name × Option Name × Tree (Tr × D))) {h : Tr} {v : Tree (Tr × D)} {start : Option Name} {a : A} {x : S} {ns : Name → Prop}
    {s : LS D X D' X' A} {n : Nat}
    {o : AOut (Cell D X) (Cell D' X') (LrKey A) A A} (hs : SInv g s) (hv : View σ (some h) v) (hn : (memoNames v).Nodup)
    (hu : (used g.uses start v).Nodup) (hr : g.Rel s.mem ns a x) (hd : ∀ m ∈ used g.uses start v, ¬ ns m)
    (ho : amrun (lrAccBody node) σ n ⟨h, start, a⟩ s = some (.ok o)) : (∃ y, foldP g.f start x v = .ok y) ∧
      Part g σ old s (some h) start a v (pointsFrom start v) (costFrom old start v) o.reads o.facts o.work o.space o.val := by
  have h1 := fold_run ok σ old v (max n v.size) (Nat.le_max_right _ _) h start a x ns s hv hn hu hs hr hd
  have h2 := amrun_mono (Nat.le_max_left n v.size) ho
  cases hm : foldP g.f start x v with
  | error q => rw [hm] at h1; simp only at h1; rw [h1] at h2; cases h2
  | ok t' =>
    rw [hm] at h1
    obtain ⟨o', h3, h4⟩ := h1
    rw [h3] at h2
    cases h2
    exact ⟨⟨t', rfl⟩, h4⟩

/-- What the namespace holds after folding these trees. -/
structure Kept (g : Sem A S D D' X') (start : Option Name) (s : LS D X D' X' A) (vs : List (Tree (Tr × D))) : Prop where
  inv : SInv g s
  dom : ∀ m e, s.table m = some e → ∃ v ∈ vs, m ∈ memoNames v
  last : ∀ v vs', vs = v :: vs' → ∃ fs, Agrees fs s.mem ∧ ∀ q ∈ pointsFrom start v, Stored g s q fs

omit [DecidableEq D] [DecidableEq X] [DecidableEq D'] [DecidableEq X'] [DecidableEq A] in
theorem Kept.deep {g : Sem A S D D' X'} {start : Option Name} {s : LS D X D' X' A} {vs : List (Tree (Tr × D))} (hk : Kept g start s vs) {σ : Mem D X} {h : Tr}
    {v : Tree (Tr × D)} (hv : View σ (some h) v) (hr : NoReturn vs v) : ∀ q ∈ pointsFrom start v, DeepAt g σ s q := by
  intro q hq e he hroot hst hac hag
  have hm : q.1 ∈ memoNames v := by rw [← pointsFrom_map v start]; exact List.mem_map.2 ⟨q, hq, rfl⟩
  obtain ⟨w, hw, hw'⟩ := hk.dom q.1 e he
  cases vs with
  | nil => cases hw
  | cons v0 vs =>
    have h0 : q.1 ∈ memoNames v0 := by
      apply Classical.byContradiction
      intro hno
      rcases List.mem_cons.1 hw with rfl | hw
      · exact hno hw'
      · exact hr q.1 hm hno w hw hw'
    rw [← pointsFrom_map v0 start] at h0
    obtain ⟨q0, hq0, e0⟩ := List.mem_map.1 h0
    obtain ⟨fs, -, hst0⟩ := hk.last v0 vs rfl
    obtain ⟨e', b1, b2, -, b4⟩ := hst0 q0 hq0
    rw [e0, he] at b1
    cases b1
    have hvq := view_pointsFrom hv q hq
    rw [hroot] at hvq
    have t1 : q0.2.2 = q.2.2 := View.unique (b2.isFor.det σ hag) hvq
    have t2 : q0.2.1 = q.2.1 := b2.start.symm.trans hst
    rw [← t1, ← t2]
    exact b4

theorem Kept.next {node : AccNode (Cell D X) (Cell D' X') A D} {g : Sem A S D D' X'} {start : Option Name} {s : LS D X D' X' A}
    {vs : List (Tree (Tr × D))} (ok : NodeOK node g) (hk : Kept g start s vs) {σ : Mem D X} {h : Tr}
    {v : Tree (Tr × D)} {n : Nat} {x : S} {ns : Name → Prop} {o : AOut (Cell D X) (Cell D' X') (LrKey A) A A} (hv : View σ (some h) v)
    (hn : (memoNames v).Nodup) (hu : (used g.uses start v).Nodup) (hrel : g.Rel s.mem ns (g.home start) x) (hd : ∀ m ∈ used g.uses start v, ¬ ns m)
    (hf : Full g v) (hr : NoReturn vs v) (ho : amrun (lrAccBody node) σ n ⟨h, start, g.home start⟩ s = some (.ok o)) : Kept g start o.space (v :: vs) := by
  obtain ⟨-, p⟩ := run_part ok [] hk.inv hv hn hu hrel hd ho
  refine ⟨p.inv, ?_, ?_⟩
  · intro m e he
    by_cases hm : m ∈ memoNames v
    · exact ⟨v, List.mem_cons_self, hm⟩
    · rw [← pointsFrom_map v start] at hm
      rw [p.tab m hm] at he
      obtain ⟨w, hw, hw'⟩ := hk.dom m e he
      exact ⟨w, List.mem_cons_of_mem _ hw, hw'⟩
  · rintro v1 vs1 e
    cases e
    exact ⟨o.facts, p.facts, p.hits hf rfl (hk.deep hv hr)⟩

end
end Iodyn.Incr.Lr
