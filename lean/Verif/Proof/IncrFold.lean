import Verif.Spec.IncrFold
import Verif.Proof.IncrMap
/-
Memoised folds whose function makes articulations. As `Verif/Proof/IncrMap.lean`, for any function whose results are determined by the
articulations that it has read or made.
-/
namespace Iodyn.Incr.Up
open Iodyn.Heap (Tr Cell Mem HTree RepT Keeps Dis)
variable {V W K R S A D X D' X' E M N : Type}

/-- What a node function computes: with values, and which results stand for which values when these articulations are as given. -/
structure Sem (R S D W : Type) where
  f : Option S → D → Nat → Option Name → Option S → P S
  Rel : List (Loc × W) → R → S → Prop

/-- The same for the result of a branch, if there is one. -/
def RelO (Rel : List (Loc × W) → R → S → Prop) (fs : List (Loc × W)) : Option R → Option S → Prop
  | none, none => True
  | some r, some x => Rel fs r x
  | _, _ => False

/-- The node function does what it should. -/
structure NodeOK [DecidableEq D] [DecidableEq X] [DecidableEq D'] [DecidableEq X'] (node : NodeProg (Cell D X) (Cell D' X') R D)
    (g : Sem R S D (Cell D' X')) : Prop where
  mono : ∀ (fs fs' : List (Loc × Cell D' X')) (r : R) (x : S), fs ⊆ fs' → g.Rel fs r x → g.Rel fs' r x
  run : ∀ (callee : Tr → USpace D X D' X' R → Option (P (AOut (Cell D X) (Cell D' X') Tr R R))) (σ : Mem D X) (s : USpace D X D' X' R)
    (fs : List (Loc × Cell D' X')) (a b : Option R) (x y : Option S) (d : D) (lv : Nat) (n : Option Name),
    Unused s.mem → Agrees fs s.mem → RelO g.Rel fs a x → RelO g.Rel fs b y → (∀ m q c, (Loc.named m q, c) ∈ fs → n ≠ some m) →
    match g.f x d lv n y with
    | .error q => amexec callee σ (node a d lv n b) s = some (.error q)
    | .ok z => ∃ r fs' s', amexec callee σ (node a d lv n b) s = some (.ok ⟨r, [], fs', s', 0⟩) ∧ s'.table = s.table ∧ Unused s'.mem ∧
        Keeps n.toList s.mem s'.mem ∧ Agrees fs' s'.mem ∧ (∀ m q c, (Loc.named m q, c) ∈ fs' → n = some m ∨ (Loc.named m q, c) ∈ fs) ∧
        g.Rel (fs ++ fs') r z

theorem RelO.mono {Rel : List (Loc × W) → R → S → Prop} (hm : ∀ (fs fs' : List (Loc × W)) (r : R) (x : S), fs ⊆ fs' → Rel fs r x → Rel fs' r x)
    {fs fs' : List (Loc × W)} {r : Option R} {x : Option S} (hs : fs ⊆ fs') (h : RelO Rel fs r x) : RelO Rel fs' r x := by
  cases r <;> cases x
  · trivial
  · exact h
  · exact h
  · exact hm _ _ _ _ hs h

/-- The stored call has folded this tree. -/
structure IsFor (g : Sem R S D (Cell D' X')) (e : AEntry (Cell D X) (Cell D' X') Tr R) (v : Tree (Tr × D)) : Prop where
  root : rootH v = some e.key
  det : ∀ σ', Agrees e.reads σ' → View σ' (some e.key) v
  cov : ∀ σ', View σ' (some e.key) v → Agrees e.reads σ'
  inn : InNames e.facts v
  res : ∃ t', (plain v).foldUpMeta g.f = .ok t' ∧ RelO g.Rel e.facts (some e.res) t'

/-- All stored calls are good. -/
structure SInv (g : Sem R S D (Cell D' X')) (s : USpace D X D' X' R) : Prop where
  fresh : Unused s.mem
  calls : ∀ m e, s.table m = some e → ∃ v, IsFor g e v

theorem IsFor.at {g : Sem R S D (Cell D' X')} {e : AEntry (Cell D X) (Cell D' X') Tr R} {v c : Tree (Tr × D)} (h : IsFor g e v) {σ : Mem D X}
    (hr : Agrees e.reads σ) (hc : View σ (some e.key) c) : IsFor g e c := by
  have := View.unique (h.det σ hr) hc
  subst this
  exact h

/-- A stored call for a branch that is found again has the calls below it stored too. -/
def DeepAt (g : Sem R S D (Cell D' X')) (σ : Mem D X) (s : USpace D X D' X' R) (q : Name × Tree (Tr × D)) : Prop :=
  ∀ e, s.table q.1 = some e → rootH q.2 = some e.key → Agrees e.reads σ →
    ∀ q' ∈ points q.2, ∃ e', s.table q'.1 = some e' ∧ IsFor g e' q'.2 ∧ e'.facts ⊆ e.facts

/-- The branch has a stored call that can be used. -/
def Hit (g : Sem R S D (Cell D' X')) (s : USpace D X D' X' R) (q : Name × Tree (Tr × D)) : Prop :=
  ∃ e, s.table q.1 = some e ∧ IsFor g e q.2 ∧ Agrees e.facts s.mem

/-- The branch has a stored call, and so have the branches below. -/
def Stored (g : Sem R S D (Cell D' X')) (s : USpace D X D' X' R) (q : Name × Tree (Tr × D)) (fs : List (Loc × Cell D' X')) : Prop :=
  ∃ e, s.table q.1 = some e ∧ IsFor g e q.2 ∧ e.facts ⊆ fs ∧
    ∀ q' ∈ points q.2, ∃ e', s.table q'.1 = some e' ∧ IsFor g e' q'.2 ∧ e'.facts ⊆ e.facts

/-- What folding a tree (or a branch, with its own stored call) does. -/
structure Part [DecidableEq D] (g : Sem R S D (Cell D' X')) (σ : Mem D X) (old : List (Name × Tree (Tr × D))) (s : USpace D X D' X' R) (h : Option Tr) (v : Tree (Tr × D))
    (t' : Option S) (pts : List (Name × Tree (Tr × D))) (k : Nat) (rd : List (Loc × Cell D X)) (fs : List (Loc × Cell D' X')) (w : Nat)
    (s' : USpace D X D' X' R) (h' : Option R) : Prop where
  det : ∀ σ', Agrees rd σ' → View σ' h v
  cov : ∀ σ', View σ' h v → Agrees rd σ'
  facts : Agrees fs s'.mem
  res : RelO g.Rel fs h' t'
  inn : InNames fs v
  inv : SInv g s'
  keeps : Keeps (nodeNames v) s.mem s'.mem
  tab : ∀ m, m ∉ pts.map (·.1) → s'.table m = s.table m
  hits : (∀ q ∈ pts, DeepAt g σ s q) → ∀ q ∈ pts, Stored g s' q fs
  work : (∀ q ∈ pts, q ∈ old → Hit g s q) → w ≤ k

section
variable [DecidableEq D] [DecidableEq X] [DecidableEq D'] [DecidableEq X']

theorem alookup_some {s : USpace D X D' X' R} {n : Name} {σ : Mem D X} {key : Tr} {e : AEntry (Cell D X) (Cell D' X') Tr R}
    (h : s.lookup n σ key = some e) : s.table n = some e ∧ e.key = key ∧ Agrees e.reads σ ∧ Agrees e.facts s.mem := by
  unfold Space.lookup at h
  rw [Option.filter_eq_some_iff] at h
  refine ⟨h.1, ?_⟩
  have h2 := h.2
  simp only [AEntry.usable, Bool.and_eq_true, decide_eq_true_eq, List.all_eq_true] at h2
  exact ⟨h2.1.1, fun q hq => h2.1.2 q hq, fun q hq => h2.2 q hq⟩

theorem alookup_hit {s : USpace D X D' X' R} {n : Name} {σ : Mem D X} {e : AEntry (Cell D X) (Cell D' X') Tr R}
    (h : s.table n = some e) (hr : Agrees e.reads σ) (hf : Agrees e.facts s.mem) : s.lookup n σ e.key = some e := by
  unfold Space.lookup
  rw [Option.filter_eq_some_iff]
  refine ⟨h, ?_⟩
  simp only [AEntry.usable, Bool.and_eq_true, decide_eq_true_eq, List.all_eq_true, true_and]
  exact ⟨fun q hq => hr q hq, fun q hq => hf q hq⟩

/-- The statement about a whole tree. -/
def RunOK (node : NodeProg (Cell D X) (Cell D' X') R D) (g : Sem R S D (Cell D' X')) (σ : Mem D X) (old : List (Name × Tree (Tr × D))) (n : Nat) (v : Tree (Tr × D)) : Prop :=
  ∀ (h : Tr) (s : USpace D X D' X' R), View σ (some h) v → (nodeNames v).Nodup → SInv g s →
    match (plain v).foldUpMeta g.f with
    | .error q => amrun (upBody node) σ n h s = some (.error q)
    | .ok t' => ∃ o, amrun (upBody node) σ n h s = some (.ok o) ∧
        Part g σ old s (some h) v t' (points v) (cost old v) o.reads o.facts o.work o.space (some o.val)

theorem branch_run {node : NodeProg (Cell D X) (Cell D' X') R D} {g : Sem R S D (Cell D' X')} {σ : Mem D X} {old : List (Name × Tree (Tr × D))} {n : Nat} {c : Tree (Tr × D)}
    (ih : RunOK node g σ old n c) {h : Option Tr} (hv : View σ h c) (hn : (nodeNames c).Nodup) {nm : Option Name} (hb : ((bpts nm c).map (·.1)).Nodup)
    {s : USpace D X D' X' R} (hs : SInv g s) (k : Option R → AProg (Cell D X) (Cell D' X') Tr R A) :
    match (plain c).foldUpMeta g.f with
    | .error q => amexec (amrun (upBody node) σ n) σ (memoBranch nm h k) s = some (.error q)
    | .ok t' => ∃ rd fs w s' h', amexec (amrun (upBody node) σ n) σ (memoBranch nm h k) s =
          after rd fs w (amexec (amrun (upBody node) σ n) σ (k h') s') ∧
        Part g σ old s h c t' (bpts nm c) (if (point nm c).any (· ∈ old) then 0 else cost old c) rd fs w s' h' := by
  cases hv with
  | nil =>
    refine ⟨[], [], 0, s, none, ?_, ?_⟩
    · simp only [memoBranch]
      rcases amexec (amrun (upBody node) σ n) σ (k none) s with _ | (_ | _) <;> simp [after]
    · refine ⟨fun _ _ => .nil, fun _ _ => Agrees.nil _, Agrees.nil _, trivial, ?_, hs,
        Keeps.refl _ _, fun _ _ => rfl, fun _ q hq => ?_, fun _ => Nat.zero_le _⟩
      · intro n q x hx; cases hx
      · simp [bpts, points, point_nil] at hq
  | @node h d hl hr l r hc h1 h2 =>
    have hv : View σ (some h) (.node h.level h.name (h, d) l r) := .node hc h1 h2
    generalize hceq : Tree.node h.level h.name (h, d) l r = c at *
    have hroot : rootH c = some h := hv.root
    have ih := ih h s hv hn hs
    -- without a stored call
    have miss : (∀ m, nm = some m → s.lookup m σ h = none) →
        amexec (amrun (upBody node) σ n) σ (memoBranch nm (some h) k) s =
          (match amrun (upBody node) σ n h s with
          | none => none
          | some (.error q) => some (.error q)
          | some (.ok o) => after o.reads o.facts o.work (amexec (amrun (upBody node) σ n) σ (k (some o.val))
              (match nm with
              | none => o.space
              | some m => o.space.set m ⟨h, o.reads, o.facts, o.val⟩))) := by
      intro hm
      cases nm with
      | none =>
        simp only [memoBranch, amexec]
        rcases amrun (upBody node) σ n h s with _ | (_ | _) <;> rfl
      | some m =>
        simp only [memoBranch, amexec, hm m rfl]
        rcases amrun (upBody node) σ n h s with _ | (_ | _) <;> rfl
    have hit : ∀ m e, nm = some m → s.lookup m σ h = some e →
        amexec (amrun (upBody node) σ n) σ (memoBranch nm (some h) k) s =
          after e.reads e.facts 0 (amexec (amrun (upBody node) σ n) σ (k (some e.res)) s) := by
      rintro m e rfl he
      simp only [memoBranch, amexec, he]
    by_cases hlook : ∀ m, nm = some m → s.lookup m σ h = none
    · rw [miss hlook]
      cases hmap : (plain c).foldUpMeta g.f with
      | error q => rw [hmap] at ih; simp only at ih ⊢; rw [ih]
      | ok t' =>
        rw [hmap] at ih
        obtain ⟨o, ho, p⟩ := ih
        simp only [ho]
        have hfor : IsFor g (⟨h, o.reads, o.facts, o.val⟩ : AEntry (Cell D X) (Cell D' X') Tr R) c :=
          ⟨hroot, p.det, p.cov, p.inn, ⟨t', hmap, p.res⟩⟩
        have hcost : (∀ q ∈ bpts nm c, q ∈ old → Hit g s q) →
            o.work ≤ (if (point nm c).any (· ∈ old) then 0 else cost old c) := by
          intro hh
          rw [if_neg]
          · exact p.work (fun q hq => hh q (List.mem_append_right _ hq))
          · intro hany
            simp only [List.any_eq_true, decide_eq_true_eq] at hany
            obtain ⟨q, hq, hq'⟩ := hany
            obtain ⟨e, e1, e2, e3⟩ := hh q (List.mem_append_left _ hq) hq'
            obtain ⟨m1, m2⟩ := mem_point hq
            have hk : e.key = h := by
              have := e2.root
              rw [m2, hroot] at this
              exact (Option.some.inj this).symm
            rw [m2] at e2
            have := alookup_hit e1 (e2.cov σ (hk ▸ hv)) e3
            rw [hk, hlook _ m1] at this
            cases this
        refine ⟨o.reads, o.facts, o.work, _, some o.val, rfl, p.det, p.cov, ?_, p.res, p.inn, ?_, ?_, ?_, ?_, hcost⟩
        · cases nm <;> exact p.facts
        · cases nm with
          | none => exact p.inv
          | some m =>
            refine ⟨p.inv.fresh, fun m' e' he' => ?_⟩
            simp only [Space.set] at he'
            split at he'
            · cases he'; exact ⟨c, hfor⟩
            · exact p.inv.calls m' e' he'
        · cases nm <;> exact p.keeps
        · intro m hm
          simp only [bpts, List.map_append, List.mem_append, not_or] at hm
          cases nm with
          | none => exact p.tab m hm.2
          | some m' =>
            have : m ≠ m' := by
              rintro rfl
              apply hm.1
              rw [← hceq]
              simp [point]
            simp only [Space.set, if_neg this]
            exact p.tab m hm.2
        · intro hd q hq
          simp only [bpts, List.mem_append] at hq
          have hin : ∀ q ∈ points c, Stored g o.space q o.facts := p.hits (fun q hq => hd q (List.mem_append_right _ hq))
          cases nm with
          | none =>
            rcases hq with hq | hq
            · exact absurd (mem_point hq).1 (by simp)
            · exact hin q hq
          | some m =>
            have hne : ∀ q ∈ points c, q.1 ≠ m := by
              rintro q hq hqm
              simp only [bpts, List.map_append, List.nodup_append] at hb
              refine hb.2.2 m ?_ q.1 (List.mem_map.2 ⟨q, hq, rfl⟩) hqm.symm
              rw [← hceq]
              simp [point]
            have htab : ∀ q ∈ points c, (o.space.set m ⟨h, o.reads, o.facts, o.val⟩).table q.1 = o.space.table q.1 := by
              intro q hq
              simp only [Space.set, if_neg (hne q hq)]
            rcases hq with hq | hq
            · obtain ⟨m1, m2⟩ := mem_point hq
              simp only [Option.some.injEq] at m1
              refine ⟨⟨h, o.reads, o.facts, o.val⟩, by simp only [Space.set, if_pos m1.symm], by rw [m2]; exact hfor, fun _ h => h, ?_⟩
              intro q' hq'
              rw [m2] at hq'
              obtain ⟨e', b1, b2, b3, -⟩ := hin q' hq'
              exact ⟨e', by rw [htab q' hq']; exact b1, b2, b3⟩
            · obtain ⟨e, b1, b2, b3, b4⟩ := hin q hq
              refine ⟨e, by rw [htab q hq]; exact b1, b2, b3, fun q' hq' => ?_⟩
              obtain ⟨e', c1, c2, c3⟩ := b4 q' hq'
              exact ⟨e', by rw [htab q' ((points_below hq).1 hq')]; exact c1, c2, c3⟩
    · have : ∃ m e, nm = some m ∧ s.lookup m σ h = some e := by
        apply Classical.byContradiction
        intro hno
        apply hlook
        intro m hm
        cases hx : s.lookup m σ h with
        | none => rfl
        | some e => exact absurd ⟨m, e, hm, hx⟩ hno
      obtain ⟨m, e, rfl, he⟩ := this
      obtain ⟨e1, rfl, e3, e4⟩ := alookup_some he
      obtain ⟨v, hv0⟩ := hs.calls m e e1
      have hf := hv0.at e3 hv
      obtain ⟨t', r1, r2⟩ := hf.res
      rw [r1]
      simp only
      refine ⟨e.reads, e.facts, 0, s, some e.res, hit m e rfl he, hf.det, hf.cov, e4, r2, hf.inn, hs, Keeps.refl _ _, fun _ _ => rfl, ?_,
        fun _ => Nat.zero_le _⟩
      · intro hd q hq
        simp only [bpts, List.mem_append] at hq
        have hm : (m, c) ∈ bpts (some m) c := List.mem_append_left _ (by rw [← hceq]; simp [point])
        rcases hq with hq | hq
        · obtain ⟨m1, m2⟩ := mem_point hq
          simp only [Option.some.injEq] at m1
          refine ⟨e, by rw [← m1]; exact e1, by rw [m2]; exact hf, fun _ h => h, ?_⟩
          rw [m2]
          exact hd (m, c) hm e e1 hroot e3
        · obtain ⟨e', b1, b2, b3⟩ := hd (m, c) hm e e1 hroot e3 q hq
          refine ⟨e', b1, b2, b3, hd q (List.mem_append_right _ hq) e' b1 b2.root ?_⟩
          refine b2.cov σ ?_
          have := view_points hv q hq
          rw [b2.root] at this
          exact this

omit [DecidableEq D] [DecidableEq X] [DecidableEq D'] [DecidableEq X'] in
theorem hit_keep {g : Sem R S D (Cell D' X')} {s s' : USpace D X D' X' R} {N : List Name} {q : Name × Tree (Tr × D)} (h : Hit g s q) (hf : Unused s.mem)
    (hk : Keeps N s.mem s'.mem) (hd : Dis (nodeNames q.2) N) (ht : s'.table q.1 = s.table q.1) : Hit g s' q := by
  obtain ⟨e, e1, e2, e3⟩ := h
  exact ⟨e, ht.trans e1, e2, facts_keep e3 e2.inn hf hk hd⟩

theorem fold_run {node : NodeProg (Cell D X) (Cell D' X') R D} {g : Sem R S D (Cell D' X')} (ok : NodeOK node g) (σ : Mem D X)
    (old : List (Name × Tree (Tr × D))) : ∀ (v : Tree (Tr × D)) (n : Nat), v.size ≤ n → RunOK node g σ old n v := by
  intro v
  induction v with
  | nil => intro n _ h s hv; cases hv
  | node lv nm hd l r ihl ihr =>
    intro n hn h s hv hnd hs
    simp only [Tree.size] at hn
    obtain ⟨n, rfl⟩ : ∃ m, n = m + 1 := ⟨n - 1, by omega⟩
    cases hv with
    | @node _ d hl hr _ _ hc h1 h2 =>
    have cnt := List.nodup_iff_count_le_one.1 (memos_nodup hnd)
    have hnd' := hnd
    simp only [nodeNames, List.append_assoc] at hnd
    have nd1 := List.nodup_append.1 hnd
    have nd2 := List.nodup_append.1 nd1.2.1
    have dlr : Dis (nodeNames l) (nodeNames r) := Heap.dis_app nd1.2.1
    have dn : Dis h.name.toList (nodeNames l ++ nodeNames r) := Heap.dis_app hnd
    have bl : ((bpts (h.name.map .forkL) l).map (·.1)).Nodup := by
      rw [List.nodup_iff_count_le_one]
      intro x
      have := cnt x
      simp only [points, bpts, List.map_append, List.count_append] at this ⊢
      omega
    have br : ((bpts (h.name.map .forkR) r).map (·.1)).Nodup := by
      rw [List.nodup_iff_count_le_one]
      intro x
      have := cnt x
      simp only [points, bpts, List.map_append, List.count_append] at this ⊢
      omega
    have dm : ∀ x, x ∈ (bpts (h.name.map .forkL) l).map (·.1) → x ∉ (bpts (h.name.map .forkR) r).map (·.1) := by
      intro x hx hx'
      have := cnt x
      have c1 := List.count_pos_iff.2 hx
      have c2 := List.count_pos_iff.2 hx'
      simp only [points, bpts, List.map_append, List.count_append] at this c1 c2
      omega
    simp only [amrun, upBody, amexec, hc, forks_eq, plain, Tree.foldUpMeta]
    have L := branch_run (ihl n (by omega)) h1 nd2.1 bl hs (fun a =>
      memoBranch (h.name.map .forkR) hr fun b => node a d h.level h.name b)
    cases hl' : (plain l).foldUpMeta g.f with
    | error q =>
      rw [hl'] at L
      simp only at L
      rw [L]
      rfl
    | ok tl =>
    rw [hl'] at L
    obtain ⟨rd1, fs1, w1, s1, l', e1, p1⟩ := L
    rw [e1]
    have R := branch_run (ihr n (by omega)) h2 nd2.2.1 br p1.inv (fun b => node l' d h.level h.name b)
    cases hr' : (plain r).foldUpMeta g.f with
    | error q =>
      rw [hr'] at R
      simp only at R
      rw [R]
      rfl
    | ok tr =>
    rw [hr'] at R
    obtain ⟨rd2, fs2, w2, s2, r', e2, p2⟩ := R
    rw [e2]
    have f1 : Agrees fs1 s2.mem := facts_keep p1.facts p1.inn p1.inv.fresh p2.keeps dlr
    have nodeRun := ok.run (amrun (upBody node) σ n) σ s2 (fs1 ++ fs2) l' r' tl tr d h.level h.name p2.inv.fresh
      (agrees_append.2 ⟨f1, p2.facts⟩) (p1.res.mono ok.mono (List.subset_append_left _ _)) (p2.res.mono ok.mono (List.subset_append_right _ _))
      (by
        intro m q c hm hn
        rcases List.mem_append.1 hm with hm | hm
        · exact dn m (by rw [hn]; simp) (List.mem_append_left _ (p1.inn m q c hm))
        · exact dn m (by rw [hn]; simp) (List.mem_append_right _ (p2.inn m q c hm)))
    simp only [bind, Except.bind]
    cases hg : g.f tl d h.level h.name tr with
    | error q =>
      rw [hg] at nodeRun
      simp only at nodeRun ⊢
      rw [nodeRun]
      rfl
    | ok z =>
    rw [hg] at nodeRun
    obtain ⟨z', fs3, s3, e3, a1, a2, a3, a4, a5, a6⟩ := nodeRun
    simp only [pure, Except.pure]
    rw [e3]
    refine ⟨_, rfl, ?_⟩
    simp only [List.append_nil, List.nil_append, Nat.add_zero, Nat.zero_add]
    have f1' : Agrees fs1 s3.mem := facts_keep f1 p1.inn p2.inv.fresh a3 (fun x hx hx' => dn x hx' (List.mem_append_left _ hx))
    have f2' : Agrees fs2 s3.mem := facts_keep p2.facts p2.inn p2.inv.fresh a3 (fun x hx hx' => dn x hx' (List.mem_append_right _ hx))
    have sl : nodeNames l ⊆ nodeNames (.node h.level h.name (h, d) l r) := by
      intro x hx; simp only [nodeNames, List.mem_append]; tauto
    have sr : nodeNames r ⊆ nodeNames (.node h.level h.name (h, d) l r) := by
      intro x hx; simp only [nodeNames, List.mem_append]; tauto
    have sn : h.name.toList ⊆ nodeNames (.node h.level h.name (h, d) l r) := by
      intro x hx; simp only [nodeNames, List.mem_append]; tauto
    have pin : ∀ q, q ∈ points (.node h.level h.name (h, d) l r) ↔ q ∈ bpts (h.name.map .forkL) l ∨ q ∈ bpts (h.name.map .forkR) r := by
      intro q; simp only [points, bpts, List.mem_append]; tauto
    have tab2 : ∀ m, m ∈ (bpts (h.name.map .forkL) l).map (·.1) → s3.table m = s1.table m := by
      intro m hm; rw [a1]; exact p2.tab m (dm m hm)
    have tab1 : ∀ m, m ∈ (bpts (h.name.map .forkR) r).map (·.1) → s1.table m = s.table m := by
      intro m hm; exact p1.tab m (fun hm' => dm m hm' hm)
    have mem : ∀ {q : Name × Tree (Tr × D)} {ps : List (Name × Tree (Tr × D))}, q ∈ ps → q.1 ∈ ps.map (·.1) :=
      fun {q ps} hq => List.mem_map.2 ⟨q, hq, rfl⟩
    refine ⟨?_, ?_, ?_, ?_, ?_, ?_, ?_, ?_, ?_, ?_⟩
    · intro σ' ha
      simp only [List.singleton_append] at ha
      have b1 := agrees_cons.1 ha
      have b2 := agrees_append.1 b1.2
      exact .node b1.1 (p1.det σ' b2.1) (p2.det σ' b2.2)
    · intro σ' hv'
      cases hv' with
      | node hc' h1' h2' =>
        have q1 := h1.root
        have q2 := h2.root
        have q3 := h1'.root
        have q4 := h2'.root
        rw [q1] at q3; rw [q2] at q4
        subst q3 q4
        have := agrees_cons.2 ⟨hc', agrees_append.2 ⟨p1.cov σ' h1', p2.cov σ' h2'⟩⟩
        simpa using this
    · exact agrees_append.2 ⟨f1', agrees_append.2 ⟨f2', a4⟩⟩
    · show g.Rel _ _ _
      rw [← List.append_assoc]
      exact a6
    · intro m q x hx
      simp only [List.mem_append] at hx
      rcases hx with hx | hx | hx
      · exact sl (p1.inn m q x hx)
      · exact sr (p2.inn m q x hx)
      · rcases a5 m q x hx with hx | hx
        · exact sn (by rw [hx]; simp)
        · rcases List.mem_append.1 hx with hx | hx
          · exact sl (p1.inn m q x hx)
          · exact sr (p2.inn m q x hx)
    · exact ⟨a2, fun m e he => p2.inv.calls m e (by rw [← a1]; exact he)⟩
    · exact (p1.keeps.mono sl).trans ((p2.keeps.mono sr).trans (a3.mono sn))
    · intro m hm
      have hm1 : m ∉ (bpts (h.name.map .forkL) l).map (·.1) := by
        intro hx
        obtain ⟨q, hq, rfl⟩ := List.mem_map.1 hx
        exact hm (mem ((pin q).2 (.inl hq)))
      have hm2 : m ∉ (bpts (h.name.map .forkR) r).map (·.1) := by
        intro hx
        obtain ⟨q, hq, rfl⟩ := List.mem_map.1 hx
        exact hm (mem ((pin q).2 (.inr hq)))
      rw [a1]
      exact (p2.tab m hm2).trans (p1.tab m hm1)
    · intro hdeep q hq
      rcases (pin q).1 hq with hq | hq
      · obtain ⟨e, b1, b2, b3, b4⟩ := p1.hits (fun q hq => hdeep q ((pin q).2 (.inl hq))) q hq
        refine ⟨e, (tab2 _ (mem hq)).trans b1, b2, fun x hx => List.mem_append_left _ (b3 hx), fun q' hq' => ?_⟩
        obtain ⟨e', d1, d2, d3⟩ := b4 q' hq'
        exact ⟨e', (tab2 _ (mem ((bpts_sub hq).1 hq'))).trans d1, d2, d3⟩
      · have hd2 : ∀ q ∈ bpts (h.name.map .forkR) r, DeepAt g σ s1 q := by
          intro q hq e he hr hag q' hq'
          obtain ⟨e', b1, b2, b3⟩ := hdeep q ((pin q).2 (.inr hq)) e (by rw [← tab1 _ (mem hq)]; exact he) hr hag q' hq'
          exact ⟨e', (tab1 _ (mem ((bpts_sub hq).1 hq'))).trans b1, b2, b3⟩
        obtain ⟨e, b1, b2, b3, b4⟩ := p2.hits hd2 q hq
        refine ⟨e, (by rw [a1]; exact b1), b2, fun x hx => List.mem_append_right _ (List.mem_append_left _ (b3 hx)), fun q' hq' => ?_⟩
        obtain ⟨e', d1, d2, d3⟩ := b4 q' hq'
        exact ⟨e', (by rw [a1]; exact d1), d2, d3⟩
    · intro hh
      have c1 := p1.work (fun q hq ho => hh q ((pin q).2 (.inl hq)) ho)
      have c2 := p2.work (fun q hq ho => hit_keep (hh q ((pin q).2 (.inr hq)) ho) hs.fresh p1.keeps
        (fun x hx hx' => dlr x hx' ((bpts_sub hq).2 hx)) (tab1 _ (mem hq)))
      simp only [cost]
      omega

omit [DecidableEq D] [DecidableEq X] [DecidableEq D'] [DecidableEq X'] in
theorem sInv_empty (g : Sem R S D (Cell D' X')) : SInv g (Space.empty : USpace D X D' X' R) :=
  ⟨fun _ _ => rfl, fun _ _ h => by cases h⟩

theorem run_part {node : NodeProg (Cell D X) (Cell D' X') R D} {g : Sem R S D (Cell D' X')} (ok : NodeOK node g) {σ : Mem D X} (old : List (Name × Tree (Tr × D))) {h : Tr} {v : Tree (Tr × D)} {s : USpace D X D' X' R} {n : Nat}
    {o : AOut (Cell D X) (Cell D' X') Tr R R} (hs : SInv g s) (hv : View σ (some h) v) (hn : (nodeNames v).Nodup)
    (ho : amrun (upBody node) σ n h s = some (.ok o)) : ∃ t', (plain v).foldUpMeta g.f = .ok t' ∧
      Part g σ old s (some h) v t' (points v) (cost old v) o.reads o.facts o.work o.space (some o.val) := by
  have h1 := fold_run ok σ old v (max n v.size) (Nat.le_max_right _ _) h s hv hn hs
  have h2 := amrun_mono (Nat.le_max_left n v.size) ho
  cases hm : (plain v).foldUpMeta g.f with
  | error q => rw [hm] at h1; simp only at h1; rw [h1] at h2; cases h2
  | ok t' =>
    rw [hm] at h1
    obtain ⟨o', h3, h4⟩ := h1
    rw [h3] at h2
    cases h2
    exact ⟨t', rfl, h4⟩

/-- What the namespace holds after folding these trees. -/
structure Kept (g : Sem R S D (Cell D' X')) (s : USpace D X D' X' R) (vs : List (Tree (Tr × D))) : Prop where
  inv : SInv g s
  dom : ∀ m e, s.table m = some e → ∃ v ∈ vs, m ∈ memoNames v
  last : ∀ v vs', vs = v :: vs' → ∃ fs, Agrees fs s.mem ∧ ∀ q ∈ points v, Stored g s q fs

omit [DecidableEq D] [DecidableEq X] [DecidableEq D'] [DecidableEq X'] in
theorem Kept.deep {g : Sem R S D (Cell D' X')} {s : USpace D X D' X' R} {vs : List (Tree (Tr × D))} (hk : Kept g s vs) {σ : Mem D X} {h : Tr}
    {v : Tree (Tr × D)} (hv : View σ (some h) v) (hr : NoReturn vs v) : ∀ q ∈ points v, DeepAt g σ s q := by
  intro q hq e he hroot hag
  have hm : q.1 ∈ memoNames v := List.mem_map.2 ⟨q, hq, rfl⟩
  obtain ⟨w, hw, hw'⟩ := hk.dom q.1 e he
  cases vs with
  | nil => cases hw
  | cons v0 vs =>
    have h0 : q.1 ∈ memoNames v0 := by
      apply Classical.byContradiction
      intro hno
      rcases List.mem_cons.1 hw with rfl | hw
      · exact hno hw'
      · exact hr q.1 hm hno w hw hw'
    obtain ⟨q0, hq0, e0⟩ := List.mem_map.1 h0
    obtain ⟨fs, -, hst⟩ := hk.last v0 vs rfl
    obtain ⟨e', b1, b2, -, b4⟩ := hst q0 hq0
    rw [e0, he] at b1
    cases b1
    have hvq := view_points hv q hq
    rw [hroot] at hvq
    have : q0.2 = q.2 := View.unique (b2.det σ hag) hvq
    rw [← this]
    exact b4

theorem Kept.next {node : NodeProg (Cell D X) (Cell D' X') R D} {g : Sem R S D (Cell D' X')} {s : USpace D X D' X' R} {vs : List (Tree (Tr × D))} (ok : NodeOK node g) (hk : Kept g s vs) {σ : Mem D X} {h : Tr}
    {v : Tree (Tr × D)} {n : Nat} {o : AOut (Cell D X) (Cell D' X') Tr R R} (hv : View σ (some h) v) (hn : (nodeNames v).Nodup)
    (hr : NoReturn vs v) (ho : amrun (upBody node) σ n h s = some (.ok o)) : Kept g o.space (v :: vs) := by
  obtain ⟨t', -, p⟩ := run_part ok [] hk.inv hv hn ho
  refine ⟨p.inv, ?_, ?_⟩
  · intro m e he
    by_cases hm : m ∈ memoNames v
    · exact ⟨v, List.mem_cons_self, hm⟩
    · rw [p.tab m hm] at he
      obtain ⟨w, hw, hw'⟩ := hk.dom m e he
      exact ⟨w, List.mem_cons_of_mem _ hw, hw'⟩
  · rintro v1 vs1 e
    cases e
    exact ⟨o.facts, p.facts, p.hits (hk.deep hv hr)⟩

end
end Iodyn.Incr.Up
