import Verif.Spec.IncrMap
import Verif.Proof.IncrAgain
/-
The memoised `map`.
-/
namespace Iodyn.Incr
open Iodyn.Heap (Tr Cell Mem HTree RepT Keeps Dis)
variable {V W K R A D X D' X' E M : Type}

/-! ### Stored calls -/

/-- No anonymous articulation is made twice. -/
def Unused (τ : Store V) : Prop := ∀ k, τ.next ≤ k → τ.cells (.anon k) = none

/-- Named articulations have names from the tree. -/
def InNames (fs : List (Loc × W)) (v : Tree D) : Prop := ∀ n q x, (Loc.named n q, x) ∈ fs → n ∈ nodeNames v

/-- The stored call has mapped this tree. -/
structure IsFor (g : MapFn D D') (e : AEntry (Cell D X) (Cell D' X') Tr Tr) (v : Tree (Tr × D)) : Prop where
  root : rootH v = some e.key
  det : ∀ σ', Agrees e.reads σ' → View σ' (some e.key) v
  cov : ∀ σ', View σ' (some e.key) v → Agrees e.reads σ'
  inn : InNames e.facts v
  res : ∃ t', (plain v).map g.val = .ok t' ∧ ∀ τ', Agrees e.facts τ' → ∃ w, View τ' (some e.res) w ∧ plain w = t'
  top : ∃ x, (e.res.link, x) ∈ e.facts

/-- All stored calls are good. -/
structure SInv (g : MapFn D D') (s : MSpace D X D' X') : Prop where
  fresh : Unused s.mem
  calls : ∀ m e, s.table m = some e → ∃ v, IsFor g e v

theorem IsFor.at {g : MapFn D D'} {e : AEntry (Cell D X) (Cell D' X') Tr Tr} {v c : Tree (Tr × D)} (h : IsFor g e v) {σ : Mem D X}
    (hr : Agrees e.reads σ) (hc : View σ (some e.key) c) : IsFor g e c := by
  have := View.unique (h.det σ hr) hc
  subst this
  exact h

theorem facts_keep {fs : List (Loc × Cell D' X')} {τ τ' : Mem D' X'} {N : List Name} {c : Tree D} (h : Agrees fs τ) (hi : InNames fs c)
    (hf : Unused τ) (hk : Keeps N τ τ') (hd : Dis (nodeNames c) N) : Agrees fs τ' := by
  rintro ⟨l, x⟩ hm
  have h1 := h _ hm
  cases l with
  | named n q =>
    by_cases hq : q = τ.path
    · subst hq; rw [hk.named n (hd n (hi n _ x hm))]; exact h1
    · rw [hk.other n q hq]; exact h1
  | anon k =>
    have : k < τ.next := by
      apply Classical.byContradiction
      intro hn
      have h2 := hf k (by omega)
      simp only at h1
      rw [h2] at h1
      cases h1
    simp only at h1 ⊢
    rw [hk.anon k this]; exact h1

/-- A stored call for a branch that is found again has the calls below it stored too. -/
def DeepAt (g : MapFn D D') (σ : Mem D X) (s : MSpace D X D' X') (q : Name × Tree (Tr × D)) : Prop :=
  ∀ e, s.table q.1 = some e → rootH q.2 = some e.key → Agrees e.reads σ →
    ∀ q' ∈ points q.2, ∃ e', s.table q'.1 = some e' ∧ IsFor g e' q'.2 ∧ e'.facts ⊆ e.facts

/-- The branch has a stored call that can be used. -/
def Hit (g : MapFn D D') (s : MSpace D X D' X') (q : Name × Tree (Tr × D)) : Prop :=
  ∃ e, s.table q.1 = some e ∧ IsFor g e q.2 ∧ Agrees e.facts s.mem

/-- The branch has a stored call, and so have the branches below. -/
def Stored (g : MapFn D D') (s : MSpace D X D' X') (q : Name × Tree (Tr × D)) (fs : List (Loc × Cell D' X')) : Prop :=
  ∃ e, s.table q.1 = some e ∧ IsFor g e q.2 ∧ e.facts ⊆ fs ∧
    ∀ q' ∈ points q.2, ∃ e', s.table q'.1 = some e' ∧ IsFor g e' q'.2 ∧ e'.facts ⊆ e.facts

/-- What mapping a tree (or a branch, with its own stored call) does. -/
structure Part [DecidableEq D] (g : MapFn D D') (σ : Mem D X) (old : List (Name × Tree (Tr × D))) (s : MSpace D X D' X') (h : Option Tr) (v : Tree (Tr × D))
    (t' : Tree D') (pts : List (Name × Tree (Tr × D))) (k : Nat) (rd : List (Loc × Cell D X)) (fs : List (Loc × Cell D' X')) (w : Nat)
    (s' : MSpace D X D' X') (h' : Option Tr) : Prop where
  det : ∀ σ', Agrees rd σ' → View σ' h v
  cov : ∀ σ', View σ' h v → Agrees rd σ'
  facts : Agrees fs s'.mem
  res : ∀ τ', Agrees fs τ' → ∃ w, View τ' h' w ∧ plain w = t'
  top : ∀ r, h' = some r → ∃ x, (r.link, x) ∈ fs
  inn : InNames fs v
  inv : SInv g s'
  keeps : Keeps (nodeNames v) s.mem s'.mem
  tab : ∀ m, m ∉ pts.map (·.1) → s'.table m = s.table m
  hits : (∀ q ∈ pts, DeepAt g σ s q) → ∀ q ∈ pts, Stored g s' q fs
  work : (∀ q ∈ pts, q ∈ old → Hit g s q) → w ≤ k

theorem point_nil (nm : Option Name) : point nm (.nil : Tree D) = [] := by cases nm <;> rfl

theorem mem_point {nm : Option Name} {c : Tree D} {q : Name × Tree D} (h : q ∈ point nm c) : nm = some q.1 ∧ q.2 = c := by
  cases nm with
  | none => cases c <;> cases h
  | some m =>
    cases c with
    | nil => cases h
    | node => simp only [point, List.mem_singleton] at h; subst h; exact ⟨rfl, rfl⟩

theorem points_below : ∀ {v : Tree D} {q : Name × Tree D}, q ∈ points v → points q.2 ⊆ points v ∧ nodeNames q.2 ⊆ nodeNames v := by
  intro v
  induction v with
  | nil => intro q hq; cases hq
  | node lv n d l r ihl ihr =>
    intro q hq
    simp only [points, List.mem_append] at hq
    have aux : ∀ {c : Tree D}, (points c ⊆ points l ∧ nodeNames c ⊆ nodeNames l) ∨ (points c ⊆ points r ∧ nodeNames c ⊆ nodeNames r) →
        points c ⊆ points (.node lv n d l r) ∧ nodeNames c ⊆ nodeNames (.node lv n d l r) := by
      intro c hc
      constructor
      · intro x hx
        simp only [points, List.mem_append]
        rcases hc with hc | hc
        · exact .inl (.inr (hc.1 hx))
        · exact .inr (hc.1 hx)
      · intro x hx
        simp only [nodeNames, List.mem_append]
        rcases hc with hc | hc
        · exact .inl (.inr (hc.2 hx))
        · exact .inr (hc.2 hx)
    rcases hq with ((hq | hq) | hq) | hq
    · rw [(mem_point hq).2]; exact aux (.inl ⟨fun _ h => h, fun _ h => h⟩)
    · rw [(mem_point hq).2]; exact aux (.inr ⟨fun _ h => h, fun _ h => h⟩)
    · exact aux (.inl (ihl hq))
    · exact aux (.inr (ihr hq))

/-- What a branch contributes. -/
def bpts (nm : Option Name) (c : Tree D) : List (Name × Tree D) := point nm c ++ points c

theorem bpts_sub {nm : Option Name} {c : Tree D} {q : Name × Tree D} (h : q ∈ bpts nm c) :
    points q.2 ⊆ bpts nm c ∧ nodeNames q.2 ⊆ nodeNames c := by
  simp only [bpts, List.mem_append] at h
  rcases h with h | h
  · rw [(mem_point h).2]; exact ⟨fun _ h => List.mem_append_right _ h, fun _ h => h⟩
  · exact ⟨fun x hx => List.mem_append_right _ ((points_below h).1 hx), (points_below h).2⟩

theorem after_after {rd rd' : List (Loc × V)} {fs fs' : List (Loc × W)} {w w' : Nat} {x : Option (P (AOut V W K R A))} :
    after rd fs w (after rd' fs' w' x) = after (rd ++ rd') (fs ++ fs') (w + w') x := by
  rcases x with _ | (_ | _) <;> simp [after, Nat.add_assoc]

theorem after_error {rd : List (Loc × V)} {fs : List (Loc × W)} {w : Nat} {q : Panic} :
    after rd fs w (some (.error q) : Option (P (AOut V W K R A))) = some (.error q) := rfl

section
variable [DecidableEq D] [DecidableEq X] [DecidableEq D'] [DecidableEq X']

theorem alookup_some {s : MSpace D X D' X'} {n : Name} {σ : Mem D X} {key : Tr} {e : AEntry (Cell D X) (Cell D' X') Tr Tr}
    (h : s.lookup n σ key = some e) : s.table n = some e ∧ e.key = key ∧ Agrees e.reads σ ∧ Agrees e.facts s.mem := by
  unfold Space.lookup at h
  rw [Option.filter_eq_some_iff] at h
  refine ⟨h.1, ?_⟩
  have h2 := h.2
  simp only [AEntry.usable, Bool.and_eq_true, decide_eq_true_eq, List.all_eq_true] at h2
  exact ⟨h2.1.1, fun q hq => h2.1.2 q hq, fun q hq => h2.2 q hq⟩

theorem alookup_hit {s : MSpace D X D' X'} {n : Name} {σ : Mem D X} {e : AEntry (Cell D X) (Cell D' X') Tr Tr}
    (h : s.table n = some e) (hr : Agrees e.reads σ) (hf : Agrees e.facts s.mem) : s.lookup n σ e.key = some e := by
  unfold Space.lookup
  rw [Option.filter_eq_some_iff]
  refine ⟨h, ?_⟩
  simp only [AEntry.usable, Bool.and_eq_true, decide_eq_true_eq, List.all_eq_true, true_and]
  exact ⟨fun q hq => hr q hq, fun q hq => hf q hq⟩

/-- The statement about a whole tree. -/
def RunOK (g : MapFn D D') (σ : Mem D X) (old : List (Name × Tree (Tr × D))) (n : Nat) (v : Tree (Tr × D)) : Prop :=
  ∀ (h : Tr) (s : MSpace D X D' X'), View σ (some h) v → (nodeNames v).Nodup → SInv g s →
    match (plain v).map g.val with
    | .error q => amrun (mapBody g) σ n h s = some (.error q)
    | .ok t' => ∃ o, amrun (mapBody g) σ n h s = some (.ok o) ∧
        Part g σ old s (some h) v t' (points v) (cost old v) o.reads o.facts o.work o.space (some o.val)

theorem branch_run {g : MapFn D D'} {σ : Mem D X} {old : List (Name × Tree (Tr × D))} {n : Nat} {c : Tree (Tr × D)}
    (ih : RunOK (X' := X') g σ old n c) {h : Option Tr} (hv : View σ h c) (hn : (nodeNames c).Nodup) {nm : Option Name} (hb : ((bpts nm c).map (·.1)).Nodup)
    {s : MSpace D X D' X'} (hs : SInv g s) (k : Option Tr → AProg (Cell D X) (Cell D' X') Tr Tr A) :
    match (plain c).map g.val with
    | .error q => amexec (amrun (mapBody g) σ n) σ (mapBranch nm h k) s = some (.error q)
    | .ok t' => ∃ rd fs w s' h', amexec (amrun (mapBody g) σ n) σ (mapBranch nm h k) s =
          after rd fs w (amexec (amrun (mapBody g) σ n) σ (k h') s') ∧
        Part g σ old s h c t' (bpts nm c) (if (point nm c).any (· ∈ old) then 0 else cost old c) rd fs w s' h' := by
  cases hv with
  | nil =>
    refine ⟨[], [], 0, s, none, ?_, ?_⟩
    · simp only [mapBranch]
      rcases amexec (amrun (mapBody g) σ n) σ (k none) s with _ | (_ | _) <;> simp [after]
    · refine ⟨fun _ _ => .nil, fun _ _ => Agrees.nil _, Agrees.nil _, fun τ' _ => ⟨.nil, .nil, rfl⟩, (fun r hr => by cases hr), ?_, hs,
        Keeps.refl _ _, fun _ _ => rfl, fun _ q hq => ?_, fun _ => Nat.zero_le _⟩
      · intro n q x hx; cases hx
      · simp [bpts, points, point_nil] at hq
  | @node h d hl hr l r hc h1 h2 =>
    have hv : View σ (some h) (.node h.level h.name (h, d) l r) := .node hc h1 h2
    generalize hceq : Tree.node h.level h.name (h, d) l r = c at *
    have hroot : rootH c = some h := hv.root
    have ih := ih h s hv hn hs
    -- without a stored call
    have miss : (∀ m, nm = some m → s.lookup m σ h = none) →
        amexec (amrun (mapBody g) σ n) σ (mapBranch nm (some h) k) s =
          (match amrun (mapBody g) σ n h s with
          | none => none
          | some (.error q) => some (.error q)
          | some (.ok o) => after o.reads o.facts o.work (amexec (amrun (mapBody g) σ n) σ (k (some o.val))
              (match nm with
              | none => o.space
              | some m => o.space.set m ⟨h, o.reads, o.facts, o.val⟩))) := by
      intro hm
      cases nm with
      | none =>
        simp only [mapBranch, amexec]
        rcases amrun (mapBody g) σ n h s with _ | (_ | _) <;> rfl
      | some m =>
        simp only [mapBranch, amexec, hm m rfl]
        rcases amrun (mapBody g) σ n h s with _ | (_ | _) <;> rfl
    have hit : ∀ m e, nm = some m → s.lookup m σ h = some e →
        amexec (amrun (mapBody g) σ n) σ (mapBranch nm (some h) k) s =
          after e.reads e.facts 0 (amexec (amrun (mapBody g) σ n) σ (k (some e.res)) s) := by
      rintro m e rfl he
      simp only [mapBranch, amexec, he]
    by_cases hlook : ∀ m, nm = some m → s.lookup m σ h = none
    · rw [miss hlook]
      cases hmap : (plain c).map g.val with
      | error q => rw [hmap] at ih; simp only at ih ⊢; rw [ih]
      | ok t' =>
        rw [hmap] at ih
        obtain ⟨o, ho, p⟩ := ih
        simp only [ho]
        have hfor : IsFor g (⟨h, o.reads, o.facts, o.val⟩ : AEntry (Cell D X) (Cell D' X') Tr Tr) c :=
          ⟨hroot, p.det, p.cov, p.inn, ⟨t', hmap, p.res⟩, p.top _ rfl⟩
        have hcost : (∀ q ∈ bpts nm c, q ∈ old → Hit g s q) →
            o.work ≤ (if (point nm c).any (· ∈ old) then 0 else cost old c) := by
          intro hh
          rw [if_neg]
          · exact p.work (fun q hq => hh q (List.mem_append_right _ hq))
          · intro hany
            simp only [List.any_eq_true, decide_eq_true_eq] at hany
            obtain ⟨q, hq, hq'⟩ := hany
            obtain ⟨e, e1, e2, e3⟩ := hh q (List.mem_append_left _ hq) hq'
            obtain ⟨m1, m2⟩ := mem_point hq
            have hk : e.key = h := by
              have := e2.root
              rw [m2, hroot] at this
              exact (Option.some.inj this).symm
            rw [m2] at e2
            have := alookup_hit e1 (e2.cov σ (hk ▸ hv)) e3
            rw [hk, hlook _ m1] at this
            cases this
        refine ⟨o.reads, o.facts, o.work, _, some o.val, rfl, p.det, p.cov, ?_, p.res, p.top, p.inn, ?_, ?_, ?_, ?_, hcost⟩
        · cases nm <;> exact p.facts
        · cases nm with
          | none => exact p.inv
          | some m =>
            refine ⟨p.inv.fresh, fun m' e' he' => ?_⟩
            simp only [Space.set] at he'
            split at he'
            · cases he'; exact ⟨c, hfor⟩
            · exact p.inv.calls m' e' he'
        · cases nm <;> exact p.keeps
        · intro m hm
          simp only [bpts, List.map_append, List.mem_append, not_or] at hm
          cases nm with
          | none => exact p.tab m hm.2
          | some m' =>
            have : m ≠ m' := by
              rintro rfl
              apply hm.1
              rw [← hceq]
              simp [point]
            simp only [Space.set, if_neg this]
            exact p.tab m hm.2
        · intro hd q hq
          simp only [bpts, List.mem_append] at hq
          have hin : ∀ q ∈ points c, Stored g o.space q o.facts := p.hits (fun q hq => hd q (List.mem_append_right _ hq))
          cases nm with
          | none =>
            rcases hq with hq | hq
            · exact absurd (mem_point hq).1 (by simp)
            · exact hin q hq
          | some m =>
            have hne : ∀ q ∈ points c, q.1 ≠ m := by
              rintro q hq hqm
              simp only [bpts, List.map_append, List.nodup_append] at hb
              refine hb.2.2 m ?_ q.1 (List.mem_map.2 ⟨q, hq, rfl⟩) hqm.symm
              rw [← hceq]
              simp [point]
            have htab : ∀ q ∈ points c, (o.space.set m ⟨h, o.reads, o.facts, o.val⟩).table q.1 = o.space.table q.1 := by
              intro q hq
              simp only [Space.set, if_neg (hne q hq)]
            rcases hq with hq | hq
            · obtain ⟨m1, m2⟩ := mem_point hq
              simp only [Option.some.injEq] at m1
              refine ⟨⟨h, o.reads, o.facts, o.val⟩, by simp only [Space.set, if_pos m1.symm], by rw [m2]; exact hfor, fun _ h => h, ?_⟩
              intro q' hq'
              rw [m2] at hq'
              obtain ⟨e', b1, b2, b3, -⟩ := hin q' hq'
              exact ⟨e', by rw [htab q' hq']; exact b1, b2, b3⟩
            · obtain ⟨e, b1, b2, b3, b4⟩ := hin q hq
              refine ⟨e, by rw [htab q hq]; exact b1, b2, b3, fun q' hq' => ?_⟩
              obtain ⟨e', c1, c2, c3⟩ := b4 q' hq'
              exact ⟨e', by rw [htab q' ((points_below hq).1 hq')]; exact c1, c2, c3⟩
    · have : ∃ m e, nm = some m ∧ s.lookup m σ h = some e := by
        apply Classical.byContradiction
        intro hno
        apply hlook
        intro m hm
        cases hx : s.lookup m σ h with
        | none => rfl
        | some e => exact absurd ⟨m, e, hm, hx⟩ hno
      obtain ⟨m, e, rfl, he⟩ := this
      obtain ⟨e1, rfl, e3, e4⟩ := alookup_some he
      obtain ⟨v, hv0⟩ := hs.calls m e e1
      have hf := hv0.at e3 hv
      obtain ⟨t', r1, r2⟩ := hf.res
      rw [r1]
      simp only
      refine ⟨e.reads, e.facts, 0, s, some e.res, hit m e rfl he, hf.det, hf.cov, e4, r2, ?_, hf.inn, hs, Keeps.refl _ _, fun _ _ => rfl, ?_,
        fun _ => Nat.zero_le _⟩
      · rintro r hr; cases hr; exact hf.top
      · intro hd q hq
        simp only [bpts, List.mem_append] at hq
        have hm : (m, c) ∈ bpts (some m) c := List.mem_append_left _ (by rw [← hceq]; simp [point])
        rcases hq with hq | hq
        · obtain ⟨m1, m2⟩ := mem_point hq
          simp only [Option.some.injEq] at m1
          refine ⟨e, by rw [← m1]; exact e1, by rw [m2]; exact hf, fun _ h => h, ?_⟩
          rw [m2]
          exact hd (m, c) hm e e1 hroot e3
        · obtain ⟨e', b1, b2, b3⟩ := hd (m, c) hm e e1 hroot e3 q hq
          refine ⟨e', b1, b2, b3, hd q (List.mem_append_right _ hq) e' b1 b2.root ?_⟩
          refine b2.cov σ ?_
          have := view_points hv q hq
          rw [b2.root] at this
          exact this

theorem peek_run {callee : Tr → MSpace D X D' X' → Option (P (AOut (Cell D X) (Cell D' X') Tr Tr Tr))} {σ : Mem D X} {s : MSpace D X D' X'}
    {h' : Option Tr} {w : Tree (Tr × D')} {fs : List (Loc × Cell D' X')} (hv : View s.mem h' w) (ht : ∀ r, h' = some r → ∃ x, (r.link, x) ∈ fs)
    (hf : Agrees fs s.mem) (k : Option D' → AProg (Cell D X) (Cell D' X') Tr Tr A) :
    ∃ fs', fs' ⊆ fs ∧ amexec callee σ (peekBranch h' k) s = after [] fs' 0 (amexec callee σ (k (plain w).peek?) s) := by
  cases hv with
  | nil =>
    refine ⟨[], by simp, ?_⟩
    simp only [peekBranch, plain, Tree.peek?]
    rcases amexec callee σ (k none) s with _ | (_ | _) <;> simp [after]
  | @node h d hl hr l r hc h1 h2 =>
    obtain ⟨x, hx⟩ := ht h rfl
    have h3 := hf _ hx
    simp only [hc, Option.some.injEq] at h3
    subst h3
    refine ⟨[(h.link, .node d hl hr)], by simpa using hx, ?_⟩
    simp only [peekBranch, amexec, hc, plain, Tree.peek?]

omit [DecidableEq D] [DecidableEq X] [DecidableEq D'] [DecidableEq X'] in
theorem hit_keep {g : MapFn D D'} {s s' : MSpace D X D' X'} {N : List Name} {q : Name × Tree (Tr × D)} (h : Hit g s q) (hf : Unused s.mem)
    (hk : Keeps N s.mem s'.mem) (hd : Dis (nodeNames q.2) N) (ht : s'.table q.1 = s.table q.1) : Hit g s' q := by
  obtain ⟨e, e1, e2, e3⟩ := h
  exact ⟨e, ht.trans e1, e2, facts_keep e3 e2.inn hf hk hd⟩

omit [DecidableEq D] [DecidableEq X] in
theorem put_spec {s : Space V (Cell D' X') K R} (hf : Unused s.mem) (x : Cell D' X') :
    (s.put x).1.table = s.table ∧ Unused (s.put x).1.mem ∧ Keeps [] s.mem (s.put x).1.mem ∧ (s.put x).1.mem.cells (s.put x).2 = some x ∧
      ∃ k, (s.put x).2 = .anon k ∧ k < (s.put x).1.mem.next := by
  unfold Space.put
  split
  · next k hk =>
    have h1 := List.find?_some hk
    have h2 := List.mem_range.1 (List.mem_of_find?_eq_some hk)
    exact ⟨rfl, hf, Keeps.refl _ _, by simpa using h1, k, rfl, h2⟩
  · refine ⟨rfl, ?_, ⟨?_, rfl, ?_, ?_, ?_⟩, ?_, s.mem.next, rfl, ?_⟩
    · intro k hk
      simp only [Store.put, Store.set] at hk ⊢
      rw [if_neg (by simp; omega)]
      exact hf k (by omega)
    · simp [Store.put, Store.set]
    · intro k hk
      simp only [Store.put, Store.set]
      rw [if_neg (by simp; omega)]
    · intro m _
      simp [Store.put, Store.set]
    · intro m q _
      simp [Store.put, Store.set]
    · simp [Store.put, Store.set]
    · simp [Store.put, Store.set]

omit [DecidableEq D] [DecidableEq X] in
theorem alloc_spec {s : Space V (Cell D' X') K R} (hf : Unused s.mem) (n : Option Name) (x : Cell D' X') :
    (s.alloc n x).1.table = s.table ∧ Unused (s.alloc n x).1.mem ∧ Keeps n.toList s.mem (s.alloc n x).1.mem ∧
      (s.alloc n x).1.mem.cells (s.alloc n x).2 = some x ∧ ∀ m q, (s.alloc n x).2 = .named m q → n = some m := by
  cases n with
  | none =>
    obtain ⟨h1, h2, h3, h4, k, h5, -⟩ := put_spec hf x
    exact ⟨h1, h2, h3, h4, fun m q hm => by have hm : (s.put x).2 = .named m q := hm; rw [h5] at hm; cases hm⟩
  | some n =>
    refine ⟨rfl, ?_, ⟨?_, rfl, ?_, ?_, ?_⟩, ?_, ?_⟩
    · intro k hk
      simp only [Space.alloc, Store.cell, Store.set, reduceCtorEq, if_false] at hk ⊢
      exact hf k hk
    · simp [Space.alloc, Store.cell, Store.set]
    · intro k hk
      simp [Space.alloc, Store.cell, Store.set]
    · intro m hm
      simp only [Space.alloc, Store.cell, Store.set]
      rw [if_neg]
      rintro h; cases h; simp at hm
    · intro m q hq
      simp [Space.alloc, Store.cell, Store.set, hq]
    · simp [Space.alloc, Store.cell, Store.set]
    · intro m q hm
      simp only [Space.alloc, Store.cell, Loc.named.injEq] at hm
      rw [hm.1]

theorem map_run (g : MapFn D D') (σ : Mem D X) (old : List (Name × Tree (Tr × D))) : ∀ (v : Tree (Tr × D)) (n : Nat), v.size ≤ n →
    RunOK (X' := X') g σ old n v := by
  intro v
  induction v with
  | nil => intro n _ h s hv; cases hv
  | node lv nm hd l r ihl ihr =>
    intro n hn h s hv hnd hs
    simp only [Tree.size] at hn
    obtain ⟨n, rfl⟩ : ∃ m, n = m + 1 := ⟨n - 1, by omega⟩
    cases hv with
    | @node _ d hl hr _ _ hc h1 h2 =>
    have cnt := List.nodup_iff_count_le_one.1 (memos_nodup hnd)
    have hnd' := hnd
    simp only [nodeNames, List.append_assoc] at hnd
    have nd1 := List.nodup_append.1 hnd
    have nd2 := List.nodup_append.1 nd1.2.1
    have dlr : Dis (nodeNames l) (nodeNames r) := Heap.dis_app nd1.2.1
    have dn : Dis h.name.toList (nodeNames l ++ nodeNames r) := Heap.dis_app hnd
    have bl : ((bpts (h.name.map .forkL) l).map (·.1)).Nodup := by
      rw [List.nodup_iff_count_le_one]
      intro x
      have := cnt x
      simp only [points, bpts, List.map_append, List.count_append] at this ⊢
      omega
    have br : ((bpts (h.name.map .forkR) r).map (·.1)).Nodup := by
      rw [List.nodup_iff_count_le_one]
      intro x
      have := cnt x
      simp only [points, bpts, List.map_append, List.count_append] at this ⊢
      omega
    have dm : ∀ x, x ∈ (bpts (h.name.map .forkL) l).map (·.1) → x ∉ (bpts (h.name.map .forkR) r).map (·.1) := by
      intro x hx hx'
      have := cnt x
      have c1 := List.count_pos_iff.2 hx
      have c2 := List.count_pos_iff.2 hx'
      simp only [points, bpts, List.map_append, List.count_append] at this c1 c2
      omega
    simp only [amrun, mapBody, amexec, hc, forks_eq, plain, Tree.map]
    have L := branch_run (ihl n (by omega)) h1 nd2.1 bl hs (fun l' =>
      mapBranch (h.name.map .forkR) hr fun r' =>
      peekBranch l' fun a =>
      peekBranch r' fun b =>
      mapEnd g h d l' r' a b)
    cases hl' : (plain l).map g.val with
    | error q =>
      rw [hl'] at L
      simp only at L
      rw [L]
      rfl
    | ok tl =>
    rw [hl'] at L
    obtain ⟨rd1, fs1, w1, s1, l', e1, p1⟩ := L
    rw [e1]
    have R := branch_run (ihr n (by omega)) h2 nd2.2.1 br p1.inv (fun r' =>
      peekBranch l' fun a =>
      peekBranch r' fun b =>
      mapEnd g h d l' r' a b)
    cases hr' : (plain r).map g.val with
    | error q =>
      rw [hr'] at R
      simp only at R
      rw [R]
      rfl
    | ok tr =>
    rw [hr'] at R
    obtain ⟨rd2, fs2, w2, s2, r', e2, p2⟩ := R
    rw [e2]
    have f1 : Agrees fs1 s2.mem := facts_keep p1.facts p1.inn p1.inv.fresh p2.keeps dlr
    obtain ⟨wl, v1, pl1⟩ := p1.res _ f1
    obtain ⟨wr, v2, pl2⟩ := p2.res _ p2.facts
    obtain ⟨fs3, i3, e3⟩ := peek_run (callee := amrun (mapBody g) σ n) (σ := σ) v1 p1.top f1 (fun a =>
      peekBranch r' fun b =>
      mapEnd g h d l' r' a b)
    obtain ⟨fs4, i4, e4⟩ := peek_run (callee := amrun (mapBody g) σ n) (σ := σ) v2 p2.top p2.facts (fun b =>
      mapEnd g h d l' r' (plain wl).peek? b)
    rw [e3, e4, pl1, pl2]
    have hval : g.val d h.level h.name tl tr = g d h.level h.name tl.peek? tr.peek? := rfl
    simp only [bind, Except.bind, hval, mapEnd]
    cases hg : g d h.level h.name tl.peek? tr.peek? with
    | error q => rfl
    | ok d' =>
    simp only [pure, Except.pure, amexec]
    obtain ⟨a1, a2, a3, a4, a5⟩ := alloc_spec p2.inv.fresh h.name (.node d' l' r')
    generalize hal : s2.alloc h.name (.node d' l' r') = al at a1 a2 a3 a4 a5
    obtain ⟨s3, k⟩ := al
    simp only at a1 a2 a3 a4 a5
    refine ⟨_, rfl, ?_⟩
    simp only [List.append_nil, List.nil_append, Nat.add_zero, Nat.zero_add]
    have f1' : Agrees fs1 s3.mem := facts_keep f1 p1.inn p2.inv.fresh a3 (fun x hx hx' => dn x hx' (List.mem_append_left _ hx))
    have f2' : Agrees fs2 s3.mem := facts_keep p2.facts p2.inn p2.inv.fresh a3 (fun x hx hx' => dn x hx' (List.mem_append_right _ hx))
    have sl : nodeNames l ⊆ nodeNames (.node h.level h.name (h, d) l r) := by
      intro x hx; simp only [nodeNames, List.mem_append]; tauto
    have sr : nodeNames r ⊆ nodeNames (.node h.level h.name (h, d) l r) := by
      intro x hx; simp only [nodeNames, List.mem_append]; tauto
    have sn : h.name.toList ⊆ nodeNames (.node h.level h.name (h, d) l r) := by
      intro x hx; simp only [nodeNames, List.mem_append]; tauto
    have pin : ∀ q, q ∈ points (.node h.level h.name (h, d) l r) ↔ q ∈ bpts (h.name.map .forkL) l ∨ q ∈ bpts (h.name.map .forkR) r := by
      intro q; simp only [points, bpts, List.mem_append]; tauto
    have tab2 : ∀ m, m ∈ (bpts (h.name.map .forkL) l).map (·.1) → s3.table m = s1.table m := by
      intro m hm; rw [a1]; exact p2.tab m (dm m hm)
    have tab1 : ∀ m, m ∈ (bpts (h.name.map .forkR) r).map (·.1) → s1.table m = s.table m := by
      intro m hm; exact p1.tab m (fun hm' => dm m hm' hm)
    have mem : ∀ {q : Name × Tree (Tr × D)} {ps : List (Name × Tree (Tr × D))}, q ∈ ps → q.1 ∈ ps.map (·.1) :=
      fun {q ps} hq => List.mem_map.2 ⟨q, hq, rfl⟩
    refine ⟨?_, ?_, ?_, ?_, ?_, ?_, ?_, ?_, ?_, ?_, ?_⟩
    · intro σ' ha
      simp only [List.singleton_append] at ha
      have b1 := agrees_cons.1 ha
      have b2 := agrees_append.1 b1.2
      exact .node b1.1 (p1.det σ' b2.1) (p2.det σ' b2.2)
    · intro σ' hv'
      cases hv' with
      | node hc' h1' h2' =>
        have q1 := h1.root
        have q2 := h2.root
        have q3 := h1'.root
        have q4 := h2'.root
        rw [q1] at q3; rw [q2] at q4
        subst q3 q4
        have := agrees_cons.2 ⟨hc', agrees_append.2 ⟨p1.cov σ' h1', p2.cov σ' h2'⟩⟩
        simpa using this
    · refine agrees_append.2 ⟨f1', agrees_append.2 ⟨f2', agrees_append.2 ⟨fun q hq => f1' q (i3 hq), agrees_append.2 ⟨fun q hq => f2' q (i4 hq), ?_⟩⟩⟩⟩
      exact agrees_cons.2 ⟨a4, Agrees.nil _⟩
    · intro τ' ha
      have b1 := agrees_append.1 ha
      have b2 := agrees_append.1 b1.2
      have b3 := agrees_append.1 b2.2
      have b4 := agrees_append.1 b3.2
      have b5 := agrees_cons.1 b4.2
      obtain ⟨w1', u1, u2⟩ := p1.res τ' b1.1
      obtain ⟨w2', u3, u4⟩ := p2.res τ' b2.1
      exact ⟨_, View.node (h := ⟨h.level, h.name, k⟩) b5.1 u1 u3, by simp only [plain, u2, u4]⟩
    · rintro r0 hr0
      cases hr0
      exact ⟨.node d' l' r', by simp⟩
    · intro m q x hx
      simp only [List.mem_append, List.mem_singleton] at hx
      rcases hx with hx | hx | hx | hx | hx
      · exact sl (p1.inn m q x hx)
      · exact sr (p2.inn m q x hx)
      · exact sl (p1.inn m q x (i3 hx))
      · exact sr (p2.inn m q x (i4 hx))
      · simp only [Prod.mk.injEq] at hx
        have := a5 m q hx.1.symm
        exact sn (by rw [this]; simp)
    · exact ⟨a2, fun m e he => p2.inv.calls m e (by rw [← a1]; exact he)⟩
    · exact (p1.keeps.mono sl).trans ((p2.keeps.mono sr).trans (a3.mono sn))
    · intro m hm
      have hm1 : m ∉ (bpts (h.name.map .forkL) l).map (·.1) := by
        intro hx
        obtain ⟨q, hq, rfl⟩ := List.mem_map.1 hx
        exact hm (mem ((pin q).2 (.inl hq)))
      have hm2 : m ∉ (bpts (h.name.map .forkR) r).map (·.1) := by
        intro hx
        obtain ⟨q, hq, rfl⟩ := List.mem_map.1 hx
        exact hm (mem ((pin q).2 (.inr hq)))
      rw [a1]
      exact (p2.tab m hm2).trans (p1.tab m hm1)
    · intro hdeep q hq
      rcases (pin q).1 hq with hq | hq
      · obtain ⟨e, b1, b2, b3, b4⟩ := p1.hits (fun q hq => hdeep q ((pin q).2 (.inl hq))) q hq
        refine ⟨e, (tab2 _ (mem hq)).trans b1, b2, fun x hx => List.mem_append_left _ (b3 hx), fun q' hq' => ?_⟩
        obtain ⟨e', d1, d2, d3⟩ := b4 q' hq'
        exact ⟨e', (tab2 _ (mem ((bpts_sub hq).1 hq'))).trans d1, d2, d3⟩
      · have hd2 : ∀ q ∈ bpts (h.name.map .forkR) r, DeepAt g σ s1 q := by
          intro q hq e he hr hag q' hq'
          obtain ⟨e', b1, b2, b3⟩ := hdeep q ((pin q).2 (.inr hq)) e (by rw [← tab1 _ (mem hq)]; exact he) hr hag q' hq'
          exact ⟨e', (tab1 _ (mem ((bpts_sub hq).1 hq'))).trans b1, b2, b3⟩
        obtain ⟨e, b1, b2, b3, b4⟩ := p2.hits hd2 q hq
        refine ⟨e, (by rw [a1]; exact b1), b2, fun x hx => List.mem_append_right _ (List.mem_append_left _ (b3 hx)), fun q' hq' => ?_⟩
        obtain ⟨e', d1, d2, d3⟩ := b4 q' hq'
        exact ⟨e', (by rw [a1]; exact d1), d2, d3⟩
    · intro hh
      have c1 := p1.work (fun q hq ho => hh q ((pin q).2 (.inl hq)) ho)
      have c2 := p2.work (fun q hq ho => hit_keep (hh q ((pin q).2 (.inr hq)) ho) hs.fresh p1.keeps
        (fun x hx hx' => dlr x hx' ((bpts_sub hq).2 hx)) (tab1 _ (mem hq)))
      simp only [cost]
      omega

omit [DecidableEq D] [DecidableEq X] [DecidableEq D'] [DecidableEq X'] in
theorem sInv_empty (g : MapFn D D') : SInv g (Space.empty : MSpace D X D' X') :=
  ⟨fun _ _ => rfl, fun _ _ h => by cases h⟩

theorem after_some {rd : List (Loc × V)} {fs : List (Loc × W)} {w : Nat} {x y : Option (P (AOut V W K R A))} {z : P (AOut V W K R A)}
    (h : after rd fs w x = some z) (hxy : ∀ u, x = some u → y = some u) : after rd fs w y = some z := by
  cases x with
  | none => cases h
  | some u => rw [hxy u rfl]; exact h
end

section
variable [DecidableEq V] [DecidableEq W] [DecidableEq K]

theorem amexec_mono {c c' : K → Space V W K R → Option (P (AOut V W K R R))} (hc : ∀ key s x, c key s = some x → c' key s = some x)
    {σ : Store V} : ∀ (g : AProg V W K R A) {s : Space V W K R} {x}, amexec c σ g s = some x → amexec c' σ g s = some x := by
  intro g
  induction g with
  | ret a => intro s x h; exact h
  | fail p => intro s x h; exact h
  | force l k ih =>
    intro s x h
    unfold amexec at h ⊢
    cases hl : σ.cells l with
    | none => rw [hl] at h; exact h
    | some v => rw [hl] at h; exact after_some h (fun u hu => ih v hu)
  | peek l k ih =>
    intro s x h
    unfold amexec at h ⊢
    cases hl : s.mem.cells l with
    | none => rw [hl] at h; exact h
    | some v => rw [hl] at h; exact after_some h (fun u hu => ih v hu)
  | alloc n v k ih =>
    intro s x h
    unfold amexec at h ⊢
    exact after_some h (fun u hu => ih _ hu)
  | call n key k ih =>
    intro s x h
    have plain : ∀ (S : AOut V W K R R → Space V W K R),
        (match c key s with
          | none => none
          | some (.error q) => some (.error q)
          | some (.ok o) => after o.reads o.facts o.work (amexec c σ (k o.val) (S o))) = some x →
        (match c' key s with
          | none => none
          | some (.error q) => some (.error q)
          | some (.ok o) => after o.reads o.facts o.work (amexec c' σ (k o.val) (S o))) = some x := by
      intro S h
      cases hk : c key s with
      | none => rw [hk] at h; cases h
      | some y =>
        rw [hk] at h
        rw [hc key s y hk]
        cases y with
        | error p => exact h
        | ok r => exact after_some h (fun u hu => ih _ hu)
    cases n with
    | none =>
      unfold amexec at h ⊢
      exact plain (fun o => o.space) h
    | some m =>
      unfold amexec at h ⊢
      cases hl : s.lookup m σ key with
      | some e => rw [hl] at h; exact after_some h (fun u hu => ih _ hu)
      | none => rw [hl] at h; exact plain (fun o => o.space.set m ⟨key, o.reads, o.facts, o.val⟩) h

theorem amrun_mono_one (body : K → AProg V W K R R) (σ : Store V) : ∀ (n : Nat) (key : K) (s : Space V W K R) (x : P (AOut V W K R R)),
    amrun body σ n key s = some x → amrun body σ (n+1) key s = some x := by
  intro n
  induction n with
  | zero => intro key s x h; cases h
  | succ n ih => intro key s x h; exact after_some h (fun u hu => amexec_mono ih _ hu)

theorem amrun_mono {body : K → AProg V W K R R} {σ : Store V} {n m : Nat} (h : n ≤ m) {key : K} {s : Space V W K R}
    {x : P (AOut V W K R R)} (hr : amrun body σ n key s = some x) : amrun body σ m key s = some x := by
  induction m with
  | zero => cases (Nat.le_zero.1 h); exact hr
  | succ m ih =>
    by_cases hm : n = m + 1
    · subst hm; exact hr
    · exact amrun_mono_one _ _ _ _ _ _ (ih (by omega))
end

section
variable [DecidableEq D] [DecidableEq X] [DecidableEq D'] [DecidableEq X']

theorem run_part {g : MapFn D D'} {σ : Mem D X} (old : List (Name × Tree (Tr × D))) {h : Tr} {v : Tree (Tr × D)} {s : MSpace D X D' X'} {n : Nat}
    {o : AOut (Cell D X) (Cell D' X') Tr Tr Tr} (hs : SInv g s) (hv : View σ (some h) v) (hn : (nodeNames v).Nodup)
    (ho : amrun (mapBody g) σ n h s = some (.ok o)) : ∃ t', (plain v).map g.val = .ok t' ∧
      Part g σ old s (some h) v t' (points v) (cost old v) o.reads o.facts o.work o.space (some o.val) := by
  have h1 := map_run (X' := X') g σ old v (max n v.size) (Nat.le_max_right _ _) h s hv hn hs
  have h2 := amrun_mono (Nat.le_max_left n v.size) ho
  cases hm : (plain v).map g.val with
  | error q => rw [hm] at h1; simp only at h1; rw [h1] at h2; cases h2
  | ok t' =>
    rw [hm] at h1
    obtain ⟨o', h3, h4⟩ := h1
    rw [h3] at h2
    cases h2
    exact ⟨t', rfl, h4⟩

theorem Mapped.inv {g : MapFn D D'} {s : MSpace D X D' X'} (h : Mapped g s) : SInv g s := by
  induction h with
  | start => exact sInv_empty g
  | map _ hv hn ho ih => obtain ⟨t', -, p⟩ := run_part [] ih hv hn ho; exact p.inv

/-- What the namespace holds after mapping these trees. -/
structure KeptMap (g : MapFn D D') (s : MSpace D X D' X') (vs : List (Tree (Tr × D))) : Prop where
  inv : SInv g s
  dom : ∀ m e, s.table m = some e → ∃ v ∈ vs, m ∈ memoNames v
  last : ∀ v vs', vs = v :: vs' → ∃ fs, Agrees fs s.mem ∧ ∀ q ∈ points v, Stored g s q fs

omit [DecidableEq D] [DecidableEq X] [DecidableEq D'] [DecidableEq X'] in
theorem KeptMap.deep {g : MapFn D D'} {s : MSpace D X D' X'} {vs : List (Tree (Tr × D))} (hk : KeptMap g s vs) {σ : Mem D X} {h : Tr}
    {v : Tree (Tr × D)} (hv : View σ (some h) v) (hr : NoReturn vs v) : ∀ q ∈ points v, DeepAt g σ s q := by
  intro q hq e he hroot hag
  have hm : q.1 ∈ memoNames v := List.mem_map.2 ⟨q, hq, rfl⟩
  obtain ⟨w, hw, hw'⟩ := hk.dom q.1 e he
  cases vs with
  | nil => cases hw
  | cons v0 vs =>
    have h0 : q.1 ∈ memoNames v0 := by
      apply Classical.byContradiction
      intro hno
      rcases List.mem_cons.1 hw with rfl | hw
      · exact hno hw'
      · exact hr q.1 hm hno w hw hw'
    obtain ⟨q0, hq0, e0⟩ := List.mem_map.1 h0
    obtain ⟨fs, -, hst⟩ := hk.last v0 vs rfl
    obtain ⟨e', b1, b2, -, b4⟩ := hst q0 hq0
    rw [e0, he] at b1
    cases b1
    have hvq := view_points hv q hq
    rw [hroot] at hvq
    have : q0.2 = q.2 := View.unique (b2.det σ hag) hvq
    rw [← this]
    exact b4

theorem KeptMap.next {g : MapFn D D'} {s : MSpace D X D' X'} {vs : List (Tree (Tr × D))} (hk : KeptMap g s vs) {σ : Mem D X} {h : Tr}
    {v : Tree (Tr × D)} {n : Nat} {o : AOut (Cell D X) (Cell D' X') Tr Tr Tr} (hv : View σ (some h) v) (hn : (nodeNames v).Nodup)
    (hr : NoReturn vs v) (ho : amrun (mapBody g) σ n h s = some (.ok o)) : KeptMap g o.space (v :: vs) := by
  obtain ⟨t', -, p⟩ := run_part [] hk.inv hv hn ho
  refine ⟨p.inv, ?_, ?_⟩
  · intro m e he
    by_cases hm : m ∈ memoNames v
    · exact ⟨v, List.mem_cons_self, hm⟩
    · rw [p.tab m hm] at he
      obtain ⟨w, hw, hw'⟩ := hk.dom m e he
      exact ⟨w, List.mem_cons_of_mem _ hw, hw'⟩
  · rintro v1 vs1 e
    cases e
    exact ⟨o.facts, p.facts, p.hits (hk.deep hv hr)⟩

theorem MapHistory.kept {g : MapFn D D'} {s : MSpace D X D' X'} {vs : List (Tree (Tr × D))} (h : MapHistory g s vs) : KeptMap g s vs := by
  induction h with
  | start => exact ⟨sInv_empty g, (fun _ _ h => by cases h), (fun _ _ h => by cases h)⟩
  | map _ hv hn hr ho ih => exact ih.next hv hn hr ho
end

/-! ### Clients -/

theorem readTree_view {τ : Mem D X} : ∀ {h : Option Tr} {w : Tree (Tr × D)}, View τ h w → ∀ n, w.size ≤ n → readTree τ n h = some (plain w) := by
  intro h w hv
  induction hv with
  | nil => intro n _; cases n <;> rfl
  | node hc _ _ ihl ihr =>
    intro n hn
    simp only [Tree.size] at hn
    obtain ⟨n, rfl⟩ : ∃ m, n = m + 1 := ⟨n - 1, by omega⟩
    simp only [readTree, hc, ihl n (by omega), ihr n (by omega), plain]

section
open Iodyn.Heap
variable {C F N : Type} [RazMeta E M] [RazMeta F N] [DecidableEq E] [DecidableEq M] [DecidableEq F] [DecidableEq N]

omit [DecidableEq F] [DecidableEq N] in
theorem mkTree_view {τ : RMem F N} {h : Option Tr} {w : Tree (Tr × TreeData F N)} (hv : View τ h w) (n : Nat) :
    mkTree (E := F) h n τ = (mkRazTree (plain w)).map (fun t => (⟨t.info, h⟩, τ)) := by
  cases hv with
  | nil => rfl
  | @node h d hl hr l r hc h1 h2 =>
    simp only [mkTree, Heap.treetopMeta, Tr.peek, forceNode, bind, hc, pure, plain, mkRazTree, treetopMeta, Except.bind, Except.pure]
    cases d <;> rfl

omit [RazMeta E M] [DecidableEq E] [DecidableEq M] [DecidableEq F] [DecidableEq N] in
theorem razMap_eq (f : E → F) (t : RazTree E M) : (t.map f : P (RazTree F N)) = t.tree.map (razMapFn f).val >>= mkRazTree := by
  have : (razMapFn f : MapFn (TreeData E M) (TreeData F N)).val = (fun d lev n l r =>
      match d with
      | .leaf v => .ok (.leaf (v.map f))
      | _ => TreeData.rebuild l.peek? .dummy lev n r.peek?) := by
    funext d lev n l r
    cases d <;> rfl
  rw [this]
  rfl

/-- All namespaces are good. -/
def AllInv (fn : C → E → F) (g : Name → C) (S : Name → RSpace E M F N) : Prop := ∀ p, SInv (razMapFn (fn (g p))) (S p)

omit [RazMeta E M] in
theorem razMap_sim {fn : C → E → F} {g : Name → C} {S : Name → RSpace E M F N} (hS : AllInv fn g S) (p : Name) {σ : RMem E M} {ht : HTree M}
    {t : RazTree E M} (hr : RepT .dcg σ ht.tree t.tree) (hn : (tN .dcg t.tree).Nodup) :
    Sim (razMap (fn (g p)) ht (S p)) σ (t.map (fn (g p))) (fun b a σ' => σ' = σ ∧ SInv (razMapFn (fn (g p))) a.2 ∧ a.1.info = b.info ∧
      ∃ w, View a.2.mem a.1.tree w ∧ plain w = b.tree) := by
  obtain ⟨v, hv, hv1, hv2⟩ := view_exists hr
  rw [razMap_eq, ← hv1]
  have hnd : (nodeNames v).Nodup := by
    rw [hv2, List.nodup_iff_count_le_one]
    intro x
    rw [names_count]
    exact List.nodup_iff_count_le_one.1 hn x
  obtain ⟨mt, tr⟩ := ht
  simp only at hv
  cases tr with
  | none =>
    cases hv
    refine ⟨(⟨metaOf 0 none .nil, none⟩, S p), σ, ⟨0, fun f _ => rfl⟩, rfl, hS p, rfl, .nil, .nil, rfl⟩
  | some h =>
    have key := fun n hn => map_run (X' := Nat × List F) (razMapFn (fn (g p)) : MapFn (TreeData E M) (TreeData F N)) σ [] v n hn h (S p) hv hnd (hS p)
    cases hm : (plain v).map (razMapFn (fn (g p)) : MapFn (TreeData E M) (TreeData F N)).val with
    | error q =>
      rw [hm] at key
      refine ⟨v.size, fun f hf => ?_⟩
      unfold razMap
      simp only [key f hf]
    | ok t' =>
      rw [hm] at key
      obtain ⟨o, h1, pt⟩ := key v.size (Nat.le_refl _)
      obtain ⟨w, w1, w2⟩ := pt.res _ pt.facts
      have run : ∀ f, v.size ≤ f → razMap (fn (g p)) ⟨mt, some h⟩ (S p) f σ =
          (mkRazTree t').map (fun t => ((⟨t.info, some o.val⟩, o.space), σ)) := by
        intro f hf
        unfold razMap
        simp only [amrun_mono hf h1, mkTree_view w1, w2]
        cases mkRazTree (E := F) (M := N) t' <;> rfl
      show Sim _ σ (mkRazTree t') _
      cases hx : mkRazTree (E := F) (M := N) t' with
      | error q => exact ⟨v.size, fun f hf => by rw [run f hf, hx]; rfl⟩
      | ok b =>
        refine ⟨(⟨b.info, some o.val⟩, o.space), σ, ⟨v.size, fun f hf => by rw [run f hf, hx]; rfl⟩, rfl, pt.inv, rfl, w, w1, ?_⟩
        rw [w2]
        unfold mkRazTree at hx
        obtain ⟨y, -, hx⟩ := bind_ok.1 hx
        cases hx
        rfl

theorem mev_sim {fn : C → E → F} {g : Name → C} {σ : RMem E M} {hvs : HVars E M} {vs : Vars E M} {S : Name → RSpace E M F N}
    (h : RepV .dcg σ hvs vs) (hS : AllInv fn g S) (ev : MEv E (RazMeta.Index E M) C) (l : List (MEv E (RazMeta.Index E M) C))
    (hg : ev.UsesNs g) (hf : Fine .dcg vs (MEv.stmts (ev :: l))) :
    Sim (HVars.mev fn hvs S ev) σ (vs.mev (N := N) fn ev) (fun b a σ' => RepV .dcg σ' a.1 b.1 ∧ a.2.2 = b.2 ∧ AllInv fn g a.2.1 ∧
      Fine .dcg b.1 (MEv.stmts l)) := by
  cases ev with
  | stmt c =>
    unfold HVars.mev Vars.mev
    refine (vars_step_sim h c hf.head).bind ?_
    rintro ⟨vs', o⟩ ⟨hvs', o'⟩ σ' - ⟨k1, k2, k3⟩
    simp only at k1 k2 k3; subst k2
    exact Sim.pure ⟨k1, rfl, hS, hf.tail k3⟩
  | map p c i =>
    have hg : c = g p := hg
    subst hg
    have hf : Fine .dcg vs (MEv.stmts l) := hf
    unfold HVars.mev Vars.mev
    rcases h.lookup i with ⟨h1, h2⟩ | ⟨h1, h2⟩ | ⟨hs, s, h1, h2, h3, hi, h4⟩ <;> simp only [h1, h2]
    · exact Sim.pure ⟨h, rfl, hS, hf⟩
    · exact Sim.pure ⟨h, rfl, hS, hf⟩
    · cases hs with
      | cursor hz =>
        cases s with
        | cursor z => exact Sim.pure ⟨h, rfl, hS, hf⟩
        | tree t => exact h3.elim
      | tree ht =>
        cases s with
        | cursor z => exact h3.elim
        | tree t =>
          refine (razMap_sim hS p (RepRT.tree h3) ?_).bind ?_
          · have hx : (vN .dcg vs).Nodup := by
              rcases hf with ⟨hf, -⟩ | ⟨-, hf⟩
              · rw [hf]; exact List.nodup_nil
              · exact (List.nodup_append.1 hf).1
            rw [List.nodup_iff_count_le_one] at hx ⊢
            intro x
            refine Nat.le_trans ?_ (hx x)
            have := vN_get (e := .dcg) vs i hi x
            rw [h4] at this
            exact this
          · rintro b ⟨t', s⟩ σ' - ⟨rfl, q1, q2, w, q3, q4⟩
            simp only at q1 q2 q3
            refine ⟨(hvs, (fun q => if q = p then s else S q), .mapped b), σ', ⟨w.size, fun f hle => ?_⟩, h, rfl, ?_, hf⟩
            · obtain ⟨bi, bt⟩ := b
              simp only at q2 q4
              subst q2 q4
              simp only [bind, readTree_view q3 f hle, pure]
            · intro q
              by_cases hq : q = p
              · subst hq; simp only [if_true]; exact q1
              · simp only [if_neg hq]; exact hS q

theorem mevs_sim {fn : C → E → F} {g : Name → C} : ∀ (l : List (MEv E (RazMeta.Index E M) C)) {σ : RMem E M}
    {hvs : HVars E M} {vs : Vars E M} {S : Name → RSpace E M F N}, RepV .dcg σ hvs vs → AllInv fn g S → (∀ ev ∈ l, ev.UsesNs g) →
    Fine .dcg vs (MEv.stmts l) → Sim (HVars.mevs fn hvs S l) σ (vs.mevs (N := N) fn l) (fun b a σ' => RepV .dcg σ' a.1 b.1 ∧ a.2.2 = b.2) := by
  intro l
  induction l with
  | nil => intro σ hvs vs S h _ _ _; exact Sim.pure ⟨h, rfl⟩
  | cons ev l ih =>
    intro σ hvs vs S h hS hg hf
    unfold HVars.mevs Vars.mevs
    refine (mev_sim h hS ev l (hg ev List.mem_cons_self) hf).bind ?_
    rintro ⟨vs', o⟩ ⟨hvs', S', o'⟩ σ' - ⟨k1, k2, k3, k4⟩
    simp only at k1 k2 k3 k4; subst k2
    refine (ih k1 k3 (fun ev h => hg ev (List.mem_cons_of_mem _ h)) k4).bind ?_
    rintro ⟨vs'', os⟩ ⟨hvs'', S'', os'⟩ σ'' - ⟨q1, q2⟩
    simp only at q1 q2; subst q2
    exact Sim.pure ⟨q1, rfl⟩

theorem mevAnswers_of_fine {fn : C → E → F} {g : Name → C} (l : List (MEv E (RazMeta.Index E M) C))
    (hg : ∀ ev ∈ l, ev.UsesNs g) (h : Fine .dcg ([] : Vars E M) (MEv.stmts l)) :
    MEvAnswers (M := M) (N := N) fn l (mevAnswers (M := M) fn l) := by
  have h1 := mevs_sim (fn := fn) (N := N) l (σ := (Store.empty : RMem E M)) (hvs := []) (vs := [])
    ⟨rfl, fun i h1 _ => by simp at h1⟩ (S := fun _ => Space.empty) (fun p => sInv_empty _) hg h
  unfold mevAnswers
  unfold Sim at h1
  cases hx : Vars.mevs (M := M) (N := N) fn [] l with
  | error p =>
    rw [hx] at h1
    obtain ⟨f0, hf⟩ := h1
    exact ⟨f0, fun f hle => by rw [hf f hle]; rfl⟩
  | ok b =>
    rw [hx] at h1
    obtain ⟨a, σ', ⟨f0, hf⟩, -, h3⟩ := h1
    exact ⟨f0, fun f hle => by rw [hf f hle]; exact congrArg Except.ok h3⟩
end
end Iodyn.Incr
