import Verif.Spec.IncrMemoFrom
import Verif.Proof.IncrMap
import Verif.Proof.HeapMemoVars
/-
The memoised `memo_from`.
-/
namespace Iodyn.Incr
open Iodyn.Heap (Tr Head Cell Mem HTree ASt FromRes RepT Keeps Dis LinkOK Sub tN nm sN RMem nodup_count count_nodup dis_count)
variable {V W K R A D X E M : Type}

/-! ### With values, for both ends -/

section
variable [RazMeta E M]

/-- `from_stack` with values. -/
def fromW (w : End) : Nat → AStack E Nat → Nat → Option Name → Tree (TreeData E M) → Nat → P (FromStackRes E M) :=
  match w with
  | .tail => fromStackTail
  | .head => fromStackHead

/-- The new node. -/
def joinW (w : End) (small : Tree (TreeData E M)) (l : Nat) (n : Option Name) (accum : Tree (TreeData E M)) : P (Tree (TreeData E M)) :=
  match w with
  | .tail => bin small l n accum
  | .head => bin accum l n small

/-- The part before the new node. -/
def subW (w : End) (k : Nat) (s' : AStack E Nat) (nn : Option Name) (vec : List E) (nl : Option Nat) (l : Nat) : P (FromStackRes E M) :=
  match nl with
  | none => .ok (AStack.new, none, none, leaf (w.vec vec) none)
  | some lev =>
    if w.below lev l then fromW w k s' lev nn (leaf (w.vec vec) none) l
    else .ok (s', some lev, nn, leaf (w.vec vec) none)

/-- The part after it. -/
def restW (w : End) (k : Nat) (r : FromStackRes E M) (t : Tree (TreeData E M)) (m : Nat) : P (FromStackRes E M) :=
  match r.2.1 with
  | none => .ok (AStack.new, none, none, t)
  | some lev => if w.below lev m then fromW w k r.1 lev r.2.2.1 t m else .ok (r.1, some lev, r.2.2.1, t)

theorem fromW_succ (w : End) (k : Nat) (s : AStack E Nat) (l : Nat) (n : Option Name) (T : Tree (TreeData E M)) (m : Nat) :
    fromW w (k+1) s l n T m =
      if w.fits (levelOr0 T) l && w.below l m then
        match s.nextArchive.2 with
        | none => .error .explicit
        | some (vec, nl) => subW w k s.nextArchive.1 s.name vec nl l >>= fun r => joinW w r.2.2.2 l n T >>= fun t => restW w k r t m
      else .error .assertion := by
  have aux : ∀ (a b : Bool) (x y : P (FromStackRes E M)), x = y →
      ((do assert a; assert b; x) : P (FromStackRes E M)) = if a && b then y else .error .assertion := by
    rintro (_ | _) (_ | _) x y rfl <;> rfl
  cases w
  · show fromStackTail (k+1) s l n T m = _
    unfold fromStackTail
    refine aux _ _ _ _ ?_
    rcases s.nextArchive with ⟨s', _ | ⟨vec, nl⟩⟩
    · rfl
    · simp only [subW, restW, joinW, End.below, End.vec, decide_eq_true_eq]
      rfl
  · show fromStackHead (k+1) s l n T m = _
    unfold fromStackHead
    refine aux _ _ _ _ ?_
    rcases s.nextArchive with ⟨s', _ | ⟨vec, nl⟩⟩
    · rfl
    · simp only [subW, restW, joinW, End.below, End.vec, decide_eq_true_eq]
      rfl

/-- What `from_stack` does with names: those of the result are from the accumulated tree, the pending name and the stack. -/
structure FromVal (s : AStack E Nat) (fn : Option Name) (T : Tree (TreeData E M)) (b : FromStackRes E M) : Prop where
  names : Sub (tN .dcg b.2.2.2 ++ (nm .dcg b.2.2.1 ++ sN .dcg b.1.archived)) (tN .dcg T ++ (nm .dcg fn ++ sN .dcg s.archived))
  less : ∀ l, b.2.1 = some l → b.1.archived.length < s.archived.length
  keep : Sub (tN .dcg T) (tN .dcg b.2.2.2)

theorem joinW_names {w : End} {small accum t : Tree (TreeData E M)} {l : Nat} {n : Option Name} (h : joinW w small l n accum = .ok t) (x : Name) :
    (tN .dcg t).count x = (tN .dcg small).count x + ((nm .dcg n).count x + (tN .dcg accum).count x) := by
  cases w
  all_goals
    simp only [joinW, bin] at h
    obtain ⟨d, -, h⟩ := bind_ok.1 h
    cases h
    simp only [tN, List.count_append]
    try omega

theorem fromW_val {w : End} : ∀ (k : Nat) {s : AStack E Nat} {l : Nat} {fn : Option Name} {T : Tree (TreeData E M)} {m : Nat} {b : FromStackRes E M},
    fromW w k s l fn T m = .ok b → FromVal s fn T b := by
  intro k
  induction k with
  | zero => intro s l fn T m b h; cases w <;> cases h
  | succ k ih =>
    intro s l fn T m b h
    rw [fromW_succ] at h
    split at h
    · have hna := Heap.nextArchive_names .dcg s
      have hless := fun v l s' (h : s.nextArchive = (s', some (v, some l))) => Heap.nextArchive_less h
      generalize s.nextArchive = na at h hna hless
      rcases na with ⟨s', _ | ⟨vec, nl⟩⟩
      · cases h
      · simp only at h hna
        obtain ⟨r, h1, h⟩ := bind_ok.1 h
        obtain ⟨t, h2, h⟩ := bind_ok.1 h
        have hj := joinW_names h2
        have hr : (∀ x, (tN .dcg r.2.2.2).count x + ((nm .dcg r.2.2.1).count x + (sN .dcg r.1.archived).count x) ≤ (sN .dcg s.archived).count x) ∧
            ∀ l, r.2.1 = some l → r.1.archived.length < s.archived.length := by
          unfold subW at h1
          cases nl with
          | none =>
            cases h1
            simp only [Heap.tN_leaf]
            exact ⟨fun x => by simp [nm, AStack.new, sN], by simp⟩
          | some lev =>
            have hl := hless vec lev s' rfl
            simp only at h1
            split at h1
            · have := ih h1
              refine ⟨fun x => ?_, fun l hl' => by have := this.less l hl'; omega⟩
              have h3 := this.names x
              have h4 := hna x
              simp only [Heap.tN_leaf, List.nil_append, List.count_append] at h3
              omega
            · cases h1
              refine ⟨fun x => ?_, fun l _ => by simp only; omega⟩
              have h4 := hna x
              simp only [Heap.tN_leaf, List.count_nil]
              omega
        have keep : Sub (tN .dcg T) (tN .dcg t) := fun x => by have := hj x; omega
        unfold restW at h
        split at h
        · cases h
          refine ⟨fun x => ?_, by simp, keep⟩
          have := hj x; have := hr.1 x
          simp [nm, AStack.new, sN] at *
          omega
        · next lev hlev =>
          have hl := hr.2 lev hlev
          split at h
          · have v := ih h
            refine ⟨fun x => ?_, fun l hl' => by have := v.less l hl'; omega, keep.trans v.keep⟩
            have h3 := v.names x
            have := hj x; have := hr.1 x
            simp only [List.count_append] at h3 ⊢
            omega
          · cases h
            refine ⟨fun x => ?_, fun l _ => hl, keep⟩
            have := hj x; have := hr.1 x
            simp only [List.count_append]
            omega
    · cases h

end

/-! ### Steps -/

/-- A memory of a namespace. -/
structure Fresh (τ : Mem D X) : Prop where
  path : τ.path = []
  unused : Unused τ

theorem Fresh.lt {τ : Mem D X} (h : Fresh τ) {k : Nat} {x : Cell D X} (hc : τ.cells (.anon k) = some x) : k < τ.next := by
  apply Classical.byContradiction
  intro hn
  rw [h.unused k (by omega)] at hc
  cases hc

theorem AView.name {σ : Mem D (Nat × List E)} {hs : ASt E} {s : AStack E Nat} (h : AView σ hs s) : hs.name = s.name := by
  obtain ⟨cur, arch⟩ := hs
  obtain ⟨cur', arch'⟩ := s
  obtain ⟨-, h⟩ := h
  simp only at h
  cases h <;> rfl

theorem AView.isEmpty {σ : Mem D (Nat × List E)} {hs : ASt E} {s : AStack E Nat} (h : AView σ hs s) : hs.isEmpty = s.isEmpty := by
  obtain ⟨cur, arch⟩ := hs
  obtain ⟨cur', arch'⟩ := s
  obtain ⟨h1, h⟩ := h
  simp only at h h1
  subst h1
  cases h <;> simp [ASt.isEmpty, AStack.isEmpty, Stack.isEmpty]

/-- Facts about named cells have names from the list. -/
def Within (fs : List (Loc × W)) (N : List Name) : Prop := ∀ n q x, (Loc.named n q, x) ∈ fs → n ∈ N

theorem Within.nil (N : List Name) : Within ([] : List (Loc × W)) N := by intro n q x h; cases h

theorem Within.mono {fs : List (Loc × W)} {N N' : List Name} (h : Within fs N) (hs : N ⊆ N') : Within fs N' :=
  fun n q x hx => hs (h n q x hx)

theorem Within.append {fs fs' : List (Loc × W)} {N : List Name} (h : Within fs N) (h' : Within fs' N) : Within (fs ++ fs') N := by
  intro n q x hx
  rcases List.mem_append.1 hx with hx | hx
  · exact h n q x hx
  · exact h' n q x hx

theorem within_keep {fs : List (Loc × Cell D X)} {τ τ' : Mem D X} {N N' : List Name} (h : Agrees fs τ) (hi : Within fs N')
    (hf : Unused τ) (hk : Keeps N τ τ') (hd : Dis N' N) : Agrees fs τ' := by
  rintro ⟨l, x⟩ hm
  have h1 := h _ hm
  cases l with
  | named n q =>
    by_cases hq : q = τ.path
    · subst hq; rw [hk.named n (hd n (hi n _ x hm))]; exact h1
    · rw [hk.other n q hq]; exact h1
  | anon k =>
    have : k < τ.next := by
      apply Classical.byContradiction
      intro hn
      have h2 := hf k (by omega)
      simp only at h1
      rw [h2] at h1
      cases h1
    simp only at h1 ⊢
    rw [hk.anon k this]; exact h1

theorem after_zero (x : Option (P (AOut V W K R A))) : after [] [] 0 x = x := by
  rcases x with _ | (_ | _) <;> simp [after]

section
variable [DecidableEq D] [DecidableEq E] [DecidableEq W] [DecidableEq K]

theorem nextArchive_exec {σ : Mem D (Nat × List E)} {hs : ASt E} {s : AStack E Nat} (h : AView σ hs s) :
    ∃ rd hs', Agrees rd σ ∧ AView σ hs' s.nextArchive.1 ∧
      (∀ (callee : K → Space (Cell D (Nat × List E)) W K R → Option (P (AOut (Cell D (Nat × List E)) W K R R))) (k) (sp : Space (Cell D (Nat × List E)) W K R),
        amexec (A := A) callee σ (nextArchiveProg hs k) sp = after rd [] 0 (amexec callee σ (k hs' s.nextArchive.2) sp)) ∧
      ∀ σ' s2, Agrees rd σ' → AView σ' hs s2 → s2.nextArchive.2 = s.nextArchive.2 ∧ AView σ' hs' s2.nextArchive.1 := by
  have he := h.isEmpty
  obtain ⟨cur, arch⟩ := hs
  obtain ⟨cur', arch'⟩ := s
  obtain ⟨h1, h2⟩ := h
  simp only at h1 h2
  subst h1
  have emp : ∀ {σ' : Mem D (Nat × List E)} {s2 : AStack E Nat}, AView σ' ⟨cur, none⟩ s2 → s2 = ⟨cur, []⟩ := by
    rintro σ' ⟨c, a⟩ ⟨e1, e2⟩
    simp only at e1 e2
    subst e1
    cases e2
    rfl
  have na0 : cur.length = 0 → (⟨cur, []⟩ : AStack E Nat).nextArchive = (⟨cur, []⟩, none) := by
    intro hc; simp [AStack.nextArchive, AStack.isEmpty, Stack.isEmpty, hc]
  have na1 : cur.length ≠ 0 → (⟨cur, []⟩ : AStack E Nat).nextArchive = (⟨[], []⟩, some (cur, none)) := by
    intro hc; simp [AStack.nextArchive, AStack.isEmpty, Stack.isEmpty] at hc ⊢; exact hc
  have na2 : ∀ n m v l, (⟨cur, (n, m, v) :: l⟩ : AStack E Nat).nextArchive = (⟨v, l⟩, some (cur, some m)) := by
    intro n m v l; simp [AStack.nextArchive, AStack.isEmpty, Stack.isEmpty]
  cases h2 with
  | nil =>
    by_cases hc : cur.length = 0
    · refine ⟨[], ⟨cur, none⟩, Agrees.nil _, ?_, ?_, ?_⟩
      · rw [na0 hc]
        exact ⟨rfl, .nil⟩
      · intro callee k sp
        rw [after_zero, na0 hc]
        simp [nextArchiveProg, ASt.isEmpty, hc]
      · intro σ' s2 _ h2
        rw [emp h2, na0 hc]
        exact ⟨rfl, rfl, .nil⟩
    · refine ⟨[], ⟨[], none⟩, Agrees.nil _, ?_, ?_, ?_⟩
      · rw [na1 hc]
        exact ⟨rfl, .nil⟩
      · intro callee k sp
        rw [after_zero, na1 hc]
        simp [nextArchiveProg, ASt.isEmpty, hc]
      · intro σ' s2 _ h2
        rw [emp h2, na1 hc]
        exact ⟨rfl, rfl, .nil⟩
  | @cons h x t l hc ht =>
    obtain ⟨m, v⟩ := x
    refine ⟨[(h.main, .body (m, v) t), (h.main, .body (m, v) t)], ⟨v, t⟩, ?_, ?_, ?_, ?_⟩
    · intro p hp
      simp only [List.mem_cons, List.not_mem_nil, or_false, or_self] at hp
      subst hp
      exact hc
    · rw [na2]; exact ⟨rfl, ht⟩
    · intro callee k sp
      rw [na2]
      simp [nextArchiveProg, ASt.isEmpty, amexec, hc, after_after]
    · rintro σ' ⟨c, a⟩ hag ⟨e1, e2⟩
      simp only at e1 e2
      subst e1
      have hc' := hag (h.main, .body (m, v) t) (by simp)
      cases e2 with
      | cons hc2 ht2 =>
        simp only at hc'
        rw [hc'] at hc2
        cases hc2
        rw [na2, na2]
        exact ⟨rfl, rfl, ht2⟩
end

/-! ### Calls -/

section
variable [RazMeta E M]

/-- The handles for a result of `from_stack`. -/
structure Ans (σ τ : RMem E M) (a : FromRes E) (b : FromStackRes E M) : Prop where
  stack : AView σ a.1 b.1
  level : a.2.1 = b.2.1
  name : a.2.2.1 = b.2.2.1
  tree : RepT .dcg τ (some a.2.2.2) b.2.2.2

/-- The call has read `rd` and has read or made `fs`. Wherever they are as they were, its result is that of `from_stack`. -/
def Again (key : FromKey E) (rd fs : List (Loc × Cell (TreeData E M) (Nat × List E))) (a : FromRes E) : Prop :=
  ∀ σ τ : RMem E M, Fresh τ → Agrees rd σ → Agrees fs τ → ∀ s T k, AView σ key.stack s → RepT .dcg τ (some key.tree) T →
    s.archived.length + 1 ≤ k →
    ∃ b, fromW key.side k s key.level key.name T key.max = .ok b ∧ Ans σ τ a b ∧ Within fs (tN .dcg b.2.2.2)

/-- All stored calls are good. -/
structure FInv (sp : FSpace E M) : Prop where
  fresh : Fresh sp.mem
  calls : ∀ m e, sp.table m = some e → Again e.key e.reads e.facts e.res

/-- What a call does. -/
structure FPart (σ : RMem E M) (sp : FSpace E M) (key : FromKey E) (s : AStack E Nat) (rd fs : List (Loc × Cell (TreeData E M) (Nat × List E)))
    (sp' : FSpace E M) (a : FromRes E) : Prop where
  reads : Agrees rd σ
  facts : Agrees fs sp'.mem
  again : Again key rd fs a
  inv : FInv sp'
  keeps : Keeps (nm .dcg key.name ++ sN .dcg s.archived) sp.mem sp'.mem

variable [DecidableEq E] [DecidableEq M]

/-- The statement about one call. -/
def FromRunOK (σ : RMem E M) (n : Nat) : Prop :=
  ∀ (key : FromKey E) (s : AStack E Nat) (T : Tree (TreeData E M)) (sp : FSpace E M), FInv sp → AView σ key.stack s →
    RepT .dcg sp.mem (some key.tree) T → (tN .dcg T ++ (nm .dcg key.name ++ sN .dcg s.archived)).Nodup → s.archived.length + 1 ≤ n →
    match fromW key.side n s key.level key.name T key.max with
    | .error q => amrun fromBody σ n key sp = some (.error q)
    | .ok _ => ∃ o, amrun fromBody σ n key sp = some (.ok o) ∧ FPart σ sp key s o.reads o.facts o.space o.val

omit [RazMeta E M] in
theorem flookup_some {s : FSpace E M} {n : Name} {σ : RMem E M} {key : FromKey E} {e} (h : s.lookup n σ key = some e) :
    s.table n = some e ∧ e.key = key ∧ Agrees e.reads σ ∧ Agrees e.facts s.mem := by
  unfold Space.lookup at h
  rw [Option.filter_eq_some_iff] at h
  refine ⟨h.1, ?_⟩
  have h2 := h.2
  simp only [AEntry.usable, Bool.and_eq_true, decide_eq_true_eq, List.all_eq_true] at h2
  exact ⟨h2.1.1, fun q hq => h2.1.2 q hq, fun q hq => h2.2 q hq⟩

theorem call_exec {σ : RMem E M} {n : Nat} (ih : FromRunOK σ n) {key : FromKey E} {s : AStack E Nat} {T : Tree (TreeData E M)} {sp : FSpace E M}
    (hi : FInv sp) (hv : AView σ key.stack s) (hT : RepT .dcg sp.mem (some key.tree) T)
    (hn : (tN .dcg T ++ (nm .dcg key.name ++ sN .dcg s.archived)).Nodup) (hl : s.archived.length + 1 ≤ n)
    (k : FromRes E → AProg (Cell (TreeData E M) (Nat × List E)) (Cell (TreeData E M) (Nat × List E)) (FromKey E) (FromRes E) A) :
    match fromW key.side n s key.level key.name T key.max with
    | .error q => amexec (amrun fromBody σ n) σ (callFrom key k) sp = some (.error q)
    | .ok _ => ∃ rd fs w sp' a, amexec (amrun fromBody σ n) σ (callFrom key k) sp =
          after rd fs w (amexec (amrun fromBody σ n) σ (k a) sp') ∧ FPart σ sp key s rd fs sp' a := by
  have ih := ih key s T sp hi hv hT hn hl
  have miss : (∀ m, key.name.map .forkL = some m → sp.lookup m σ key = none) →
      amexec (amrun fromBody σ n) σ (callFrom key k) sp =
        (match amrun fromBody σ n key sp with
        | none => none
        | some (.error q) => some (.error q)
        | some (.ok o) => after o.reads o.facts o.work (amexec (amrun fromBody σ n) σ (k o.val)
            (match key.name.map Name.forkL with
            | none => o.space
            | some m => o.space.set m ⟨key, o.reads, o.facts, o.val⟩))) := by
    intro hm
    unfold callFrom
    cases hnm : key.name.map Name.forkL with
    | none =>
      simp only [amexec]
      rcases amrun fromBody σ n key sp with _ | (_ | _) <;> rfl
    | some m =>
      simp only [amexec, hm m hnm]
      rcases amrun fromBody σ n key sp with _ | (_ | _) <;> rfl
  by_cases hlook : ∀ m, key.name.map .forkL = some m → sp.lookup m σ key = none
  · rw [miss hlook]
    cases hw : fromW key.side n s key.level key.name T key.max with
    | error q => rw [hw] at ih; simp only at ih ⊢; rw [ih]
    | ok b =>
      rw [hw] at ih
      obtain ⟨o, ho, p⟩ := ih
      simp only [ho]
      refine ⟨o.reads, o.facts, o.work, _, o.val, rfl, p.reads, ?_, p.again, ?_, ?_⟩
      · cases key.name <;> exact p.facts
      · cases key.name with
        | none => exact p.inv
        | some m =>
          refine ⟨p.inv.fresh, fun m' e' he' => ?_⟩
          simp only [Option.map_some, Space.set] at he'
          split at he'
          · cases he'; exact p.again
          · exact p.inv.calls m' e' he'
      · have : ∀ x : Option Name, (match x with
            | none => o.space
            | some m => o.space.set m ⟨key, o.reads, o.facts, o.val⟩).mem = o.space.mem := by rintro (_ | _) <;> rfl
        rw [this]
        exact p.keeps
  · have : ∃ m e, key.name.map .forkL = some m ∧ sp.lookup m σ key = some e := by
      apply Classical.byContradiction
      intro hno
      apply hlook
      intro m hm
      cases hx : sp.lookup m σ key with
      | none => rfl
      | some e => exact absurd ⟨m, e, hm, hx⟩ hno
    obtain ⟨m, e, hm, he⟩ := this
    obtain ⟨e1, e2, e3, e4⟩ := flookup_some he
    have hag := hi.calls m e e1
    rw [e2] at hag
    obtain ⟨b, b1, -, -⟩ := hag σ sp.mem hi.fresh e3 e4 s T n hv hT hl
    rw [b1]
    refine ⟨e.reads, e.facts, 0, sp, e.res, ?_, e3, e4, hag, hi, Keeps.refl _ _⟩
    unfold callFrom
    simp only [hm, amexec, he]

/-- What the part before the new node does. -/
structure SubPart (σ : RMem E M) (sp : FSpace E M) (w : End) (hs : ASt E) (s : AStack E Nat) (nn : Option Name) (vec : List E) (nl : Option Nat)
    (l : Nat) (tr : Tr) (rd fs : List (Loc × Cell (TreeData E M) (Nat × List E))) (sp' : FSpace E M) (a : FromRes E) : Prop where
  reads : Agrees rd σ
  facts : Agrees fs sp'.mem
  again : ∀ σ τ : RMem E M, Fresh τ → Agrees rd σ → Agrees fs τ → ∀ s k, AView σ hs s → RepT .dcg τ (some tr) (leaf (w.vec vec) none) →
    (∀ lev, nl = some lev → s.archived.length + 1 ≤ k) → ∃ b, subW w k s nn vec nl l = .ok b ∧ Ans σ τ a b ∧ Within fs (tN .dcg b.2.2.2)
  inv : FInv sp'
  keeps : Keeps (nm .dcg nn ++ sN .dcg s.archived) sp.mem sp'.mem

omit [RazMeta E M] [DecidableEq E] [DecidableEq M] in
theorem aview_new (σ : RMem E M) : AView σ ASt.new AStack.new := ⟨rfl, .nil⟩

theorem next_exec {σ : RMem E M} {n : Nat} (ih : FromRunOK σ n) {key : FromKey E} {hs : ASt E} {s : AStack E Nat} {vec : List E} {tr : Tr}
    {sp : FSpace E M} (hi : FInv sp) (hv : AView σ hs s) (hT : RepT .dcg sp.mem (some tr) (leaf (key.side.vec vec) none))
    (hn : (nm .dcg key.stack.name ++ sN .dcg s.archived).Nodup) (nl : Option Nat)
    (hl : ∀ lev, nl = some lev → s.archived.length + 1 ≤ n)
    (go : FromRes E → AProg (Cell (TreeData E M) (Nat × List E)) (Cell (TreeData E M) (Nat × List E)) (FromKey E) (FromRes E) A) :
    match subW key.side n s key.stack.name vec nl key.level with
    | .error q => amexec (amrun fromBody σ n) σ (fromNext key hs nl tr go) sp = some (.error q)
    | .ok (_ : FromStackRes E M) => ∃ rd fs w sp' a, amexec (amrun fromBody σ n) σ (fromNext key hs nl tr go) sp =
          after rd fs w (amexec (amrun fromBody σ n) σ (go a) sp') ∧
        SubPart σ sp key.side hs s key.stack.name vec nl key.level tr rd fs sp' a := by
  unfold subW fromNext
  cases nl with
  | none =>
    refine ⟨[], [], 0, sp, _, (after_zero _).symm, Agrees.nil _, Agrees.nil _, ?_, hi, Keeps.refl _ _⟩
    intro σ τ _ _ _ s k _ ht _
    exact ⟨_, rfl, ⟨aview_new _, rfl, rfl, ht⟩, Within.nil _⟩
  | some lev =>
    by_cases hb : key.side.below lev key.level = true
    · simp only [if_pos hb]
      have h1 := call_exec ih (key := ⟨key.side, hs, lev, key.stack.name, tr, key.level⟩) hi hv hT (by rw [Heap.tN_leaf]; exact hn) (hl lev rfl) go
      simp only at h1
      cases hw : fromW (M := M) key.side n s lev key.stack.name (leaf (key.side.vec vec) none) key.level with
      | error q => rw [hw] at h1; exact h1
      | ok b =>
        rw [hw] at h1
        obtain ⟨rd, fs, w, sp', a, e1, p⟩ := h1
        refine ⟨rd, fs, w, sp', a, e1, p.reads, p.facts, ?_, p.inv, p.keeps⟩
        intro σ τ hf h1 h2 s k hv ht hk
        obtain ⟨b, b1, b2, b3⟩ := p.again σ τ hf h1 h2 s _ k hv ht (hk lev rfl)
        refine ⟨b, ?_, b2, b3⟩
        simp only [subW, hb, if_true]
        exact b1
    · simp only [if_neg hb]
      refine ⟨[], [], 0, sp, _, (after_zero _).symm, Agrees.nil _, Agrees.nil _, ?_, hi, Keeps.refl _ _⟩
      intro σ τ _ _ _ s k hv ht _
      refine ⟨(s, some lev, key.stack.name, leaf (key.side.vec vec) none), ?_, ⟨hv, rfl, rfl, ht⟩, Within.nil _⟩
      simp only [subW, if_neg hb]

omit [RazMeta E M] in
theorem alloc_link (sp : FSpace E M) (n : Option Name) (x : Cell (TreeData E M) (Nat × List E)) (hf : Fresh sp.mem) {τ : RMem E M} (hτ : Fresh τ)
    (hc : τ.cells (sp.alloc n x).2 = some x) : LinkOK .dcg τ n (sp.alloc n x).2 := by
  cases n with
  | none =>
    obtain ⟨-, -, -, -, k, h5, -⟩ := put_spec hf.unused x
    have : (sp.alloc none x).2 = .anon k := h5
    rw [this] at hc ⊢
    exact ⟨k, rfl, hτ.lt hc⟩
  | some n => exact ⟨[], .inl hτ.path.symm, by simp [Space.alloc, Store.cell, hf.path]⟩

omit [RazMeta E M] in
theorem alloc_inv [RazMeta E M] {sp : FSpace E M} (hi : FInv sp) (n : Option Name) (x : Cell (TreeData E M) (Nat × List E)) :
    FInv (sp.alloc n x).1 ∧ Keeps (nm .dcg n) sp.mem (sp.alloc n x).1.mem ∧ (sp.alloc n x).1.mem.cells (sp.alloc n x).2 = some x := by
  obtain ⟨a1, a2, a3, a4, -⟩ := alloc_spec hi.fresh.unused n x
  refine ⟨⟨⟨a3.path.trans hi.fresh.path, a2⟩, fun m e he => hi.calls m e (by rw [← a1]; exact he)⟩, a3, a4⟩

omit [RazMeta E M] in
theorem link_within {τ : RMem E M} {h : Tr} {T : Tree (TreeData E M)} (hr : RepT .dcg τ (some h) T) {m : Name} {q : NsPath}
    (hl : h.link = .named m q) : m ∈ tN .dcg T := by
  cases T with
  | nil => cases hr
  | node lv n d l r =>
    obtain ⟨k, hl', hr', e1, e2, -⟩ := hr
    cases e1
    simp only at hl
    subst hl
    cases n with
    | none => obtain ⟨k, hk, -⟩ := e2; cases hk
    | some x =>
      obtain ⟨q', -, hq⟩ := e2
      cases hq
      simp [tN, nm]

theorem bin_exec {callee} {σ : RMem E M} {sp : FSpace E M} (hi : FInv sp) {h1 h2 : Tr} {T1 T2 : Tree (TreeData E M)}
    (r1 : RepT .dcg sp.mem (some h1) T1) (r2 : RepT .dcg sp.mem (some h2) T2) (l : Nat) (n : Option Name)
    (hn : (tN .dcg T1 ++ (nm .dcg n ++ tN .dcg T2)).Nodup)
    (k : Tr → AProg (Cell (TreeData E M) (Nat × List E)) (Cell (TreeData E M) (Nat × List E)) (FromKey E) (FromRes E) A) :
    match bin T1 l n T2 with
    | .error q => amexec callee σ (binProg h1 l n h2 k) sp = some (.error q)
    | .ok _ => ∃ fs sp' tr, amexec callee σ (binProg h1 l n h2 k) sp = after [] fs 0 (amexec callee σ (k tr) sp') ∧
        Agrees fs sp'.mem ∧ FInv sp' ∧ Keeps (nm .dcg n) sp.mem sp'.mem ∧
        ∀ τ : RMem E M, Fresh τ → Agrees fs τ → ∀ T1 T2, RepT .dcg τ (some h1) T1 → RepT .dcg τ (some h2) T2 →
          ∃ t, bin T1 l n T2 = .ok t ∧ RepT .dcg τ (some tr) t ∧ Within fs (tN .dcg t) := by
  have cnt := nodup_count hn
  simp only [List.count_append] at cnt
  have d1 : Dis (tN .dcg T1) (nm .dcg n) := dis_count fun x => by have := cnt x; omega
  have d2 : Dis (tN .dcg T2) (nm .dcg n) := dis_count fun x => by have := cnt x; omega
  have root : ∀ {τ : RMem E M} {h : Tr} {T : Tree (TreeData E M)}, RepT .dcg τ (some h) T →
      ∃ d hl hr, τ.cells h.link = some (.node d hl hr) ∧ T.peek? = some d := by
    intro τ h T hr
    cases T with
    | nil => cases hr
    | node lv n d l r =>
      obtain ⟨k, hl, hr, e1, -, e3, -⟩ := hr
      cases e1
      exact ⟨d, hl, hr, e3, rfl⟩
  obtain ⟨a, hl1, hr1, c1, p1⟩ := root r1
  obtain ⟨b, hl2, hr2, c2, p2⟩ := root r2
  simp only [bin, p1, p2, binProg, amexec, c1, c2]
  cases hd : TreeData.rebuild (some a) .dummy l n (some b) with
  | error q => rfl
  | ok d =>
    simp only [bind, Except.bind, pure, Except.pure, amexec]
    obtain ⟨i1, i2, i3⟩ := alloc_inv hi n (.node d (some h1) (some h2))
    have hlink := fun {τ : RMem E M} hτ hc => alloc_link sp n (.node d (some h1) (some h2)) hi.fresh (τ := τ) hτ hc
    generalize sp.alloc n (.node d (some h1) (some h2)) = al at i1 i2 i3 hlink
    obtain ⟨sp', kk⟩ := al
    simp only at i1 i2 i3 hlink ⊢
    refine ⟨_, sp', ⟨l, n, kk⟩, by rw [after_after, after_after]; rfl, ?_, i1, i2, ?_⟩
    · obtain ⟨_, _, _, c1', p1'⟩ := root (r1.keep i2 d1)
      obtain ⟨_, _, _, c2', p2'⟩ := root (r2.keep i2 d2)
      have e1 : sp'.mem.cells h1.link = some (.node a hl1 hr1) := by
        rw [← c1]
        cases T1 with
        | nil => cases r1
        | node lv n1 d0 l0 r0 =>
          obtain ⟨k0, _, _, e1, e2, -⟩ := r1
          cases e1
          exact e2.cell i2 (d1.mono (fun x hx => by simp [tN, hx]) (List.Subset.refl _))
      have e2 : sp'.mem.cells h2.link = some (.node b hl2 hr2) := by
        rw [← c2]
        cases T2 with
        | nil => cases r2
        | node lv n1 d0 l0 r0 =>
          obtain ⟨k0, _, _, e1, e2, -⟩ := r2
          cases e1
          exact e2.cell i2 (d2.mono (fun x hx => by simp [tN, hx]) (List.Subset.refl _))
      exact agrees_cons.2 ⟨e1, agrees_cons.2 ⟨e2, agrees_cons.2 ⟨i3, Agrees.nil _⟩⟩⟩
    · intro τ hτ hag T1' T2' q1 q2
      obtain ⟨f1, hag⟩ := agrees_cons.1 hag
      obtain ⟨f2, hag⟩ := agrees_cons.1 hag
      obtain ⟨f3, -⟩ := agrees_cons.1 hag
      obtain ⟨a', _, _, g1, g2⟩ := root q1
      obtain ⟨b', _, _, g3, g4⟩ := root q2
      rw [f1] at g1; cases g1
      rw [f2] at g3; cases g3
      have hlk := hlink hτ f3
      refine ⟨.node l n d T1' T2', ?_, ⟨kk, _, _, rfl, hlk, f3, q1, q2⟩, ?_⟩
      · simp only [bin, g2, g4, hd, bind, Except.bind, pure, Except.pure]
      · intro m q x hx
        simp only [tN, List.mem_append]
        simp only [List.cons_append, List.nil_append, List.mem_cons, Prod.mk.injEq, List.not_mem_nil, or_false] at hx
        rcases hx with ⟨hx, -⟩ | ⟨hx, -⟩ | ⟨hx, -⟩
        · exact .inl (link_within q1 hx.symm)
        · exact .inr (.inr (link_within q2 hx.symm))
        · right; left
          subst hx
          cases n with
          | none => obtain ⟨k, hk, -⟩ := hlk; cases hk
          | some x => obtain ⟨q', -, hq⟩ := hlk; cases hq; simp [nm]

theorem join_exec {callee} {σ : RMem E M} {sp : FSpace E M} (hi : FInv sp) (w : End) {h1 h2 : Tr} {T1 T2 : Tree (TreeData E M)}
    (r1 : RepT .dcg sp.mem (some h1) T1) (r2 : RepT .dcg sp.mem (some h2) T2) (l : Nat) (n : Option Name)
    (hn : (tN .dcg T1 ++ (nm .dcg n ++ tN .dcg T2)).Nodup)
    (k : Tr → AProg (Cell (TreeData E M) (Nat × List E)) (Cell (TreeData E M) (Nat × List E)) (FromKey E) (FromRes E) A) :
    match joinW w T1 l n T2 with
    | .error q => amexec callee σ (joinProg w h1 l n h2 k) sp = some (.error q)
    | .ok _ => ∃ fs sp' tr, amexec callee σ (joinProg w h1 l n h2 k) sp = after [] fs 0 (amexec callee σ (k tr) sp') ∧
        Agrees fs sp'.mem ∧ FInv sp' ∧ Keeps (nm .dcg n) sp.mem sp'.mem ∧
        ∀ τ : RMem E M, Fresh τ → Agrees fs τ → ∀ T1 T2, RepT .dcg τ (some h1) T1 → RepT .dcg τ (some h2) T2 →
          ∃ t, joinW w T1 l n T2 = .ok t ∧ RepT .dcg τ (some tr) t ∧ Within fs (tN .dcg t) := by
  cases w with
  | tail => exact bin_exec hi r1 r2 l n hn k
  | head =>
    have hn' : (tN .dcg T2 ++ (nm .dcg n ++ tN .dcg T1)).Nodup := by
      have cnt := nodup_count hn
      refine count_nodup fun x => ?_
      have := cnt x
      simp only [List.count_append] at this ⊢
      omega
    have h := bin_exec (callee := callee) (σ := σ) hi r2 r1 l n hn' k
    simp only [joinW, joinProg]
    cases hb : bin T2 l n T1 with
    | error q => rw [hb] at h; exact h
    | ok t =>
      rw [hb] at h
      obtain ⟨fs, sp', tr, h1, h2, h3, h4, h5⟩ := h
      exact ⟨fs, sp', tr, h1, h2, h3, h4, fun τ hf ha T1 T2 q1 q2 => h5 τ hf ha T2 T1 q2 q1⟩

theorem final_exec {σ : RMem E M} {n : Nat} (ih : FromRunOK σ n) {key : FromKey E} {r : FromRes E} {r' : FromStackRes E M} {tr : Tr}
    {t : Tree (TreeData E M)} {sp : FSpace E M} (hi : FInv sp) (hv : AView σ r.1 r'.1) (hlv : r.2.1 = r'.2.1) (hnm : r.2.2.1 = r'.2.2.1)
    (hT : RepT .dcg sp.mem (some tr) t) (hn : (tN .dcg t ++ (nm .dcg r'.2.2.1 ++ sN .dcg r'.1.archived)).Nodup)
    (hl : ∀ lev, r'.2.1 = some lev → r'.1.archived.length + 1 ≤ n) :
    match restW key.side n r' t key.max with
    | .error q => amexec (amrun fromBody σ n) σ (fromFinal key r tr) sp = some (.error q)
    | .ok _ => ∃ rd fs w sp' a, amexec (amrun fromBody σ n) σ (fromFinal key r tr) sp = some (.ok ⟨a, rd, fs, sp', w⟩) ∧
        Agrees rd σ ∧ Agrees fs sp'.mem ∧ FInv sp' ∧ Keeps (nm .dcg r'.2.2.1 ++ sN .dcg r'.1.archived) sp.mem sp'.mem ∧
        ∀ σ τ : RMem E M, Fresh τ → Agrees rd σ → Agrees fs τ → ∀ (r' : FromStackRes E M) t k, AView σ r.1 r'.1 → r.2.1 = r'.2.1 →
          r.2.2.1 = r'.2.2.1 → RepT .dcg τ (some tr) t → (∀ lev, r'.2.1 = some lev → r'.1.archived.length + 1 ≤ k) →
          ∃ b, restW key.side k r' t key.max = .ok b ∧ Ans σ τ a b ∧ Within fs (tN .dcg b.2.2.2) := by
  unfold restW fromFinal
  rw [← hlv] at hl ⊢
  cases hr : r.2.1 with
  | none =>
    refine ⟨[], [], 0, sp, _, rfl, Agrees.nil _, Agrees.nil _, hi, Keeps.refl _ _, ?_⟩
    intro σ τ _ _ _ r' t k _ h2 _ h4 _
    simp only [← h2]
    exact ⟨_, rfl, ⟨aview_new _, rfl, rfl, h4⟩, Within.nil _⟩
  | some lev =>
    by_cases hb : key.side.below lev key.max = true
    · simp only [if_pos hb]
      have h1 := call_exec ih (key := ⟨key.side, r.1, lev, r.2.2.1, tr, key.max⟩) hi hv hT (by rw [hnm]; exact hn) (hl lev hr) .ret
      simp only [hnm] at h1 ⊢
      cases hw : fromW (M := M) key.side n r'.1 lev r'.2.2.1 t key.max with
      | error q => rw [hw] at h1; exact h1
      | ok b =>
        rw [hw] at h1
        obtain ⟨rd, fs, w, sp', a, e1, p⟩ := h1
        refine ⟨rd, fs, w, sp', a, ?_, p.reads, p.facts, p.inv, p.keeps, ?_⟩
        · rw [e1]; simp [amexec, after]
        intro σ τ hf h1 h2 r2 t2 k q1 q2 q3 q4 q5
        simp only [← q2, if_pos hb, ← q3]
        exact p.again σ τ hf h1 h2 r2.1 t2 k q1 q4 (q5 lev q2.symm)
    · simp only [if_neg hb]
      refine ⟨[], [], 0, sp, _, rfl, Agrees.nil _, Agrees.nil _, hi, Keeps.refl _ _, ?_⟩
      intro σ τ _ _ _ r2 t2 k q1 q2 q3 q4 _
      simp only [← q2, if_neg hb]
      exact ⟨_, rfl, ⟨q1, rfl, q3, q4⟩, Within.nil _⟩

theorem subW_val {w : End} {k : Nat} {s s' : AStack E Nat} {vec : List E} {nl : Option Nat} {l : Nat} {r : FromStackRes E M}
    (hs : s.nextArchive = (s', some (vec, nl))) (h : subW w k s' s.name vec nl l = .ok r) :
    (∀ x, (tN .dcg r.2.2.2).count x + ((nm .dcg r.2.2.1).count x + (sN .dcg r.1.archived).count x) ≤ (sN .dcg s.archived).count x) ∧
      ∀ l, r.2.1 = some l → r.1.archived.length < s.archived.length := by
  have hna := Heap.nextArchive_names .dcg s
  rw [hs] at hna
  simp only at hna
  unfold subW at h
  cases nl with
  | none =>
    cases h
    simp only [Heap.tN_leaf]
    exact ⟨fun x => by simp [nm, AStack.new, sN], by simp⟩
  | some lev =>
    have hl := Heap.nextArchive_less hs
    simp only at h
    split at h
    · have := fromW_val _ h
      refine ⟨fun x => ?_, fun l hl' => by have := this.less l hl'; omega⟩
      have h3 := this.names x
      have h4 := hna x
      simp only [Heap.tN_leaf, List.nil_append, List.count_append] at h3
      omega
    · cases h
      refine ⟨fun x => ?_, fun l _ => by simp only; omega⟩
      have h4 := hna x
      simp only [Heap.tN_leaf, List.count_nil]
      omega

omit [RazMeta E M] in
theorem leaf_rep {τ : RMem E M} (hτ : Fresh τ) {k : Nat} {v : List E} (hc : τ.cells (.anon k) = some (.node (.leaf v) none none)) :
    RepT .dcg τ (some ⟨0, none, .anon k⟩) (leaf v none : Tree (TreeData E M)) :=
  ⟨.anon k, none, none, rfl, ⟨k, rfl, hτ.lt hc⟩, hc, rfl, rfl⟩

theorem from_run (σ : RMem E M) : ∀ n, FromRunOK σ n := by
  intro n
  induction n with
  | zero => intro key s T sp _ _ _ _ h; omega
  | succ n ih =>
    intro key s T sp hi hv hT hn hl
    have cnt := nodup_count hn
    simp only [List.count_append] at cnt
    have hna := Heap.nextArchive_names .dcg s
    obtain ⟨rd1, hs', g1, g2, g3, g4⟩ := nextArchive_exec (W := Cell (TreeData E M) (Nat × List E)) (K := FromKey E) (R := FromRes E)
      (A := FromRes E) hv
    rw [fromW_succ]
    simp only [amrun, fromBody, hT.levelOr0]
    by_cases hcond : (key.side.fits (levelOr0 T) key.level && key.side.below key.level key.max) = true
    swap
    · simp only [if_neg hcond]
      rfl
    simp only [if_pos hcond, g3]
    rcases hs : s.nextArchive with ⟨s', _ | ⟨vec, nl⟩⟩
    · rfl
    rw [hs] at g2 hna g4
    simp only at g2 hna g4 ⊢
    -- the leaf
    obtain ⟨i1, i2, i3⟩ := alloc_inv hi none (.node (.leaf (key.side.vec vec)) none none)
    obtain ⟨-, -, -, -, kl, h5, -⟩ := put_spec hi.fresh.unused (.node (.leaf (key.side.vec vec)) none none)
    have h5 : (sp.alloc none (.node (.leaf (key.side.vec vec)) none none)).2 = .anon kl := h5
    simp only [leafProg, amexec, h5]
    generalize (sp.alloc none (.node (.leaf (key.side.vec vec)) none none)) = al at i1 i2 i3 h5
    obtain ⟨sp1, kl'⟩ := al
    simp only at i1 i2 i3 h5 ⊢
    subst h5
    have hleaf := leaf_rep i1.fresh i3
    -- up to the new node
    have hnl : ∀ lev, nl = some lev → s'.archived.length + 1 ≤ n := by
      rintro lev rfl
      have := Heap.nextArchive_less hs
      omega
    have nd1 : (nm .dcg key.stack.name ++ sN .dcg s'.archived).Nodup := by
      rw [hv.name]
      refine count_nodup fun x => ?_
      have := cnt x; have := hna x
      simp only [List.count_append]; omega
    have N := next_exec ih i1 g2 hleaf nd1 nl hnl
      (fun r => joinProg key.side r.2.2.2 key.level key.name key.tree fun newTree => fromFinal key r newTree)
    rw [hv.name] at N
    cases hsub : subW (M := M) key.side n s' s.name vec nl key.level with
    | error q => rw [hsub] at N; simp only at N ⊢; rw [N]; rfl
    | ok r' =>
    rw [hsub] at N
    obtain ⟨rd2, fs2, w2, sp2, r, e2, p⟩ := N
    obtain ⟨v1, v2⟩ := subW_val hs hsub
    rw [e2]
    simp only [bind, Except.bind]
    -- the facts about the leaf
    have lf : Within [(Loc.anon kl, (Cell.node (.leaf (key.side.vec vec)) none none : Cell (TreeData E M) (Nat × List E)))] [] := by
      intro m q x hx; simp at hx
    have l2 : Agrees [(Loc.anon kl, Cell.node (.leaf (key.side.vec vec)) none none)] sp2.mem :=
      within_keep (agrees_cons.2 ⟨i3, Agrees.nil _⟩) lf i1.fresh.unused p.keeps (by intro x hx; cases hx)
    obtain ⟨r2, s1, a2, wi2⟩ := p.again σ sp2.mem p.inv.fresh p.reads p.facts s' n g2 (leaf_rep p.inv.fresh (agrees_cons.1 l2).1) hnl
    rw [hsub] at s1
    cases s1
    -- the new node
    have k1 : Keeps (sN .dcg s.archived) sp.mem sp2.mem := (i2.mono (by simp [nm])).trans (p.keeps.mono (by
      refine Sub.subset fun x => ?_
      have := hna x
      simp only [List.count_append]; omega))
    have hT2 : RepT .dcg sp2.mem (some key.tree) T := hT.keep k1 (dis_count fun x => by have := cnt x; omega)
    have nd2 : (tN .dcg r'.2.2.2 ++ (nm .dcg key.name ++ tN .dcg T)).Nodup := by
      refine count_nodup fun x => ?_
      have := cnt x; have := v1 x
      simp only [List.count_append]; omega
    have J := join_exec (callee := amrun fromBody σ n) (σ := σ) p.inv key.side a2.tree hT2 key.level key.name nd2 (fun newTree => fromFinal key r newTree)
    cases hj : joinW key.side r'.2.2.2 key.level key.name T with
    | error q => rw [hj] at J; simp only at J ⊢; rw [J]; rfl
    | ok t =>
    rw [hj] at J
    obtain ⟨fs3, sp3, tr, e3, f3, i4, k3, j3⟩ := J
    rw [e3]
    have hjn := joinW_names hj
    have f2 : Agrees fs2 sp3.mem := within_keep p.facts wi2 p.inv.fresh.unused k3 (dis_count fun x => by
      have := cnt x; have := v1 x; omega)
    have l3 := within_keep l2 lf p.inv.fresh.unused k3 (by intro x hx; cases hx)
    have hT3 : RepT .dcg sp3.mem (some key.tree) T := hT2.keep k3 (dis_count fun x => by have := cnt x; omega)
    have hs3 : RepT .dcg sp3.mem (some r.2.2.2) r'.2.2.2 := a2.tree.keep k3 (dis_count fun x => by
      have := cnt x; have := v1 x; omega)
    obtain ⟨t', j4, j5, j6⟩ := j3 sp3.mem i4.fresh f3 _ _ hs3 hT3
    rw [hj] at j4
    cases j4
    -- the rest
    have nd3 : (tN .dcg t ++ (nm .dcg r'.2.2.1 ++ sN .dcg r'.1.archived)).Nodup := by
      refine count_nodup fun x => ?_
      have := cnt x; have := v1 x; have := hjn x
      simp only [List.count_append]; omega
    have F := final_exec ih (key := key) (tr := tr) i4 a2.stack a2.level a2.name j5 nd3 (fun lev h => by have := v2 lev h; omega)
    cases hf : restW key.side n r' t key.max with
    | error q => rw [hf] at F; simp only [hf] at F ⊢; rw [F]; rfl
    | ok b =>
    rw [hf] at F
    simp only [hf]
    obtain ⟨rd4, fs4, w4, sp4, a, e4, rd4a, f4, i5, k4, ag4⟩ := F
    rw [e4]
    refine ⟨_, rfl, ?_⟩
    have dis4 : ∀ {N : List Name}, N ⊆ tN .dcg t → Dis N (nm .dcg r'.2.2.1 ++ sN .dcg r'.1.archived) := fun hN =>
      (Heap.dis_app nd3).mono hN (List.Subset.refl _)
    have small : tN .dcg r'.2.2.2 ⊆ tN .dcg t := Sub.subset fun x => by have := hjn x; omega
    have f3' : Agrees fs3 sp4.mem := within_keep f3 j6 i4.fresh.unused k4 (dis4 (List.Subset.refl _))
    have f2' : Agrees fs2 sp4.mem := within_keep f2 (wi2.mono small) i4.fresh.unused k4 (dis4 (List.Subset.refl _))
    have l4 := within_keep l3 lf i4.fresh.unused k4 (by intro x hx; cases hx)
    refine ⟨?_, ?_, ?_, i5, ?_⟩
    · simp only [List.append_nil, List.nil_append]
      exact agrees_append.2 ⟨g1, agrees_append.2 ⟨p.reads, rd4a⟩⟩
    · simp only [List.nil_append]
      exact agrees_append.2 ⟨l4, agrees_append.2 ⟨f2', agrees_append.2 ⟨f3', f4⟩⟩⟩
    · intro σ' τ hτ ra fa s2 T2 k hv2 hT2' hk
      simp only [List.append_nil, List.nil_append] at ra fa
      obtain ⟨ra1, ra⟩ := agrees_append.1 ra
      obtain ⟨ra2, ra4⟩ := agrees_append.1 ra
      obtain ⟨fa1, fa⟩ := agrees_append.1 fa
      obtain ⟨fa2, fa⟩ := agrees_append.1 fa
      obtain ⟨fa3, fa4⟩ := agrees_append.1 fa
      obtain ⟨k, rfl⟩ : ∃ m, k = m + 1 := ⟨k - 1, by omega⟩
      obtain ⟨n1, n2⟩ := g4 σ' s2 ra1 hv2
      have hs2 : s2.nextArchive = (s2.nextArchive.1, some (vec, nl)) := by rw [← n1]
      obtain ⟨b2, u1, u2, u3⟩ := p.again σ' τ hτ ra2 fa2 _ k n2 (leaf_rep hτ (agrees_cons.1 fa1).1) (by
        rintro lev rfl
        have := Heap.nextArchive_less hs2
        omega)
      have hname : s.name = s2.name := hv.name.symm.trans hv2.name
      rw [hname] at u1
      obtain ⟨v1', v2'⟩ := subW_val hs2 u1
      obtain ⟨t2, u4, u5, u6⟩ := j3 τ hτ fa3 _ _ u2.tree hT2'
      obtain ⟨b3, u7, u8, u9⟩ := ag4 σ' τ hτ ra4 fa4 b2 t2 k u2.stack u2.level u2.name u5 (fun lev h => by have := v2' lev h; omega)
      have hjn2 := joinW_names u4
      have hlev : levelOr0 T2 = levelOr0 T := by rw [← hT2'.levelOr0, ← hT.levelOr0]
      have kp : tN .dcg t2 ⊆ tN .dcg b3.2.2.2 := by
        unfold restW at u7
        split at u7
        · cases u7; exact List.Subset.refl _
        · split at u7
          · exact (fromW_val _ u7).keep.subset
          · cases u7; exact List.Subset.refl _
      refine ⟨b3, ?_, u8, ?_⟩
      · rw [fromW_succ, hlev, if_pos hcond, n1]
        simp only [u1, bind, Except.bind, u4, u7]
      · simp only [List.nil_append]
        refine Within.append (lf.mono (by simp)) (Within.append ?_ (Within.append (u6.mono kp) u9))
        exact (u3.mono (Sub.subset fun x => by have := hjn2 x; omega)).mono kp
    · refine (k1.mono (List.subset_append_right _ _)).trans ((k3.mono (List.subset_append_left _ _)).trans (k4.mono ?_))
      refine Sub.subset fun x => ?_
      have := v1 x
      simp only [List.count_append]; omega

/-! ### The whole conversion -/

/-- `memo_from` with values, up to the metadata of the whole tree. -/
def convTree (w : End) (s : AStack E Nat) : P (Tree (TreeData E M)) :=
  match s.nextArchive.2 with
  | none => .ok .nil
  | some (vec, none) => .ok (leaf (w.vec vec) none)
  | some (vec, some level) => fromW w (s.archived.length + 1) s.nextArchive.1 level s.name (leaf (w.vec vec) none) u32Max >>= fun r =>
    if r.2.1.isNone && r.2.2.1.isNone && r.1.isEmpty then .ok r.2.2.2 else .error .assertion

omit [DecidableEq E] [DecidableEq M] in
theorem conv_eq (w : End) (s : AStack E Nat) : (w.conv s : P (RazTree E M)) = convTree w s >>= mkRazTree := by
  have aux : ∀ (a b c : Bool) (x : P (RazTree E M)) (t : Tree (TreeData E M)), x = mkRazTree t →
      ((do assert a; assert b; assert c; x) : P (RazTree E M)) =
        ((if a && b && c then .ok t else .error .assertion : P (Tree (TreeData E M))) >>= mkRazTree) := by
    rintro (_ | _) (_ | _) (_ | _) x t rfl <;> rfl
  cases w
  · show memoFromTail s = _
    unfold memoFromTail convTree
    rcases s.nextArchive with ⟨s', _ | ⟨vec, _ | lev⟩⟩
    · rfl
    · rfl
    · simp only [fromW, End.vec]
      cases fromStackTail (M := M) (s.archived.length + 1) s' lev s.name (leaf vec none) u32Max with
      | error q => rfl
      | ok r => exact aux _ _ _ _ _ rfl
  · show memoFromHead s = _
    unfold memoFromHead convTree
    rcases s.nextArchive with ⟨s', _ | ⟨vec, _ | lev⟩⟩
    · rfl
    · rfl
    · simp only [fromW, End.vec]
      cases fromStackHead (M := M) (s.archived.length + 1) s' lev s.name (leaf vec.reverse none) u32Max with
      | error q => rfl
      | ok r => exact aux _ _ _ _ _ rfl

omit [RazMeta E M] [DecidableEq E] [DecidableEq M] in
theorem sN_stackNames (s : AStack E Nat) : sN .dcg s.archived = stackNames s := by
  unfold stackNames
  induction s.archived with
  | nil => rfl
  | cons p l ih =>
    obtain ⟨n, x⟩ := p
    cases n <;> simp_all [sN, nm]

/-- What a conversion does. -/
structure ConvPart (σ : RMem E M) (sp : FSpace E M) (s : AStack E Nat) (t : Tree (TreeData E M))
    (o : AOut (Cell (TreeData E M) (Nat × List E)) (Cell (TreeData E M) (Nat × List E)) (FromKey E) (FromRes E) (Option Tr)) : Prop where
  reads : Agrees o.reads σ
  facts : Agrees o.facts o.space.mem
  inv : FInv o.space
  keeps : Keeps (stackNames s) sp.mem o.space.mem
  tree : RepT .dcg o.space.mem o.val t

theorem memoFromRun_mono {w : End} {σ : RMem E M} {n m : Nat} (h : n ≤ m) {hs : ASt E} {sp : FSpace E M} {x} (hx : memoFromRun w σ n hs sp = some x) :
    memoFromRun w σ m hs sp = some x :=
  amexec_mono (fun _ _ _ hc => amrun_mono h hc) _ hx

theorem top_run {σ : RMem E M} {sp : FSpace E M} (hi : FInv sp) (w : End) {hs : ASt E} {s : AStack E Nat} (hv : AView σ hs s)
    (hn : (stackNames s).Nodup) {n : Nat} (hl : s.archived.length + 1 ≤ n) :
    match convTree w s with
    | .error q => memoFromRun w σ n hs sp = some (.error q)
    | .ok t => ∃ o, memoFromRun w σ n hs sp = some (.ok o) ∧ ConvPart σ sp s t o := by
  suffices h : match convTree w s with
      | .error q => memoFromRun w σ (s.archived.length + 1) hs sp = some (.error q)
      | .ok t => ∃ o, memoFromRun w σ (s.archived.length + 1) hs sp = some (.ok o) ∧ ConvPart σ sp s t o by
    split at h
    · exact memoFromRun_mono hl h
    · obtain ⟨o, h1, h2⟩ := h
      exact ⟨o, memoFromRun_mono hl h1, h2⟩
  clear hl
  rw [← sN_stackNames] at hn
  have hna := Heap.nextArchive_names .dcg s
  have hless := fun v l s' (h : s.nextArchive = (s', some (v, some l))) => Heap.nextArchive_less h
  obtain ⟨rd1, hs', g1, g2, g3, -⟩ := nextArchive_exec (W := Cell (TreeData E M) (Nat × List E)) (K := FromKey E) (R := FromRes E)
    (A := Option Tr) hv
  unfold convTree memoFromRun memoFromProg
  rw [g3]
  generalize s.nextArchive = na at g2 hna hless
  rcases na with ⟨s', _ | ⟨vec, nl⟩⟩
  · exact ⟨_, rfl, by simpa using g1, Agrees.nil _, hi, Keeps.refl _ _, rfl⟩
  simp only at g2 hna hless ⊢
  obtain ⟨i1, i2, i3⟩ := alloc_inv hi none (.node (.leaf (w.vec vec)) none none)
  obtain ⟨-, -, -, -, kl, h5, -⟩ := put_spec hi.fresh.unused (.node (.leaf (w.vec vec)) none none)
  have h5 : (sp.alloc none (.node (.leaf (w.vec vec)) none none)).2 = .anon kl := h5
  have lf : Within [(Loc.anon kl, (Cell.node (.leaf (w.vec vec)) none none : Cell (TreeData E M) (Nat × List E)))] [] := by
    intro m q x hx; simp at hx
  rcases nl with _ | lev
  · simp only [leafProg, amexec, h5]
    generalize (sp.alloc none (.node (.leaf (w.vec vec)) none none)) = al at i1 i2 i3 h5
    obtain ⟨sp1, kl'⟩ := al
    simp only at i1 i2 i3 h5 ⊢
    subst h5
    exact ⟨_, rfl, by simpa using g1, by simpa using agrees_cons.2 ⟨i3, Agrees.nil _⟩, i1, i2.mono (by simp [nm]), leaf_rep i1.fresh i3⟩
  · simp only [leafProg, amexec, h5]
    generalize (sp.alloc none (.node (.leaf (w.vec vec)) none none)) = al at i1 i2 i3 h5
    obtain ⟨sp1, kl'⟩ := al
    simp only at i1 i2 i3 h5 ⊢
    subst h5
    have hleaf := leaf_rep i1.fresh i3
    have hlen := hless vec lev s' rfl
    have nd : (tN .dcg (leaf (w.vec vec) none : Tree (TreeData E M)) ++ (nm .dcg hs.name ++ sN .dcg s'.archived)).Nodup := by
      rw [hv.name, Heap.tN_leaf]
      refine count_nodup fun x => ?_
      have := nodup_count hn x; have := hna x
      simp only [List.nil_append, List.count_append]; omega
    have C := call_exec (from_run σ (s.archived.length + 1)) (key := ⟨w, hs', lev, hs.name, ⟨0, none, .anon kl⟩, u32Max⟩) i1 g2 hleaf nd
      (by omega) (fun r : FromRes E => if r.2.1.isNone && r.2.2.1.isNone && r.1.isEmpty then
        (.ret (some r.2.2.2) : AProg _ _ _ _ (Option Tr)) else .fail .assertion)
    simp only [hv.name] at C ⊢
    cases hw : fromW w (s.archived.length + 1) s' lev s.name (leaf (w.vec vec) none : Tree (TreeData E M)) u32Max with
    | error q => rw [hw] at C; simp only [bind, Except.bind]; rw [C]; rfl
    | ok b =>
      rw [hw] at C
      obtain ⟨rd, fs, wk, sp2, a, e1, p⟩ := C
      have l2 := within_keep (agrees_cons.2 ⟨i3, Agrees.nil _⟩) lf i1.fresh.unused p.keeps (by intro x hx; cases hx)
      obtain ⟨b', b1, b2, -⟩ := p.again σ sp2.mem p.inv.fresh p.reads p.facts s' _ (s.archived.length + 1) g2
        (leaf_rep p.inv.fresh (agrees_cons.1 l2).1) (by omega)
      simp only at b1
      rw [hw] at b1
      cases b1
      rw [e1]
      simp only [bind, Except.bind, b2.level, b2.name, b2.stack.isEmpty]
      by_cases hc : (b.2.1.isNone && b.2.2.1.isNone && b.1.isEmpty) = true
      · simp only [if_pos hc]
        refine ⟨_, rfl, ?_, ?_, p.inv, ?_, b2.tree⟩
        · simp only [List.append_nil, List.nil_append]
          exact agrees_append.2 ⟨g1, p.reads⟩
        · simp only [List.append_nil, List.nil_append]
          exact agrees_append.2 ⟨l2, p.facts⟩
        · rw [← sN_stackNames]
          refine (i2.mono (by simp [nm])).trans (p.keeps.mono (Sub.subset fun x => ?_))
          have := hna x
          simp only [List.count_append]; omega
      · simp only [if_neg hc]
        rfl

omit [DecidableEq E] [DecidableEq M] in
theorem FInv.empty : FInv (Space.empty : FSpace E M) :=
  ⟨⟨rfl, fun _ _ => rfl⟩, fun m e h => by cases h⟩

theorem Converted.inv {sp : FSpace E M} (h : Converted sp) : FInv sp := by
  induction h with
  | start => exact FInv.empty
  | @conv sp w σ hs a n o _ hv hn ho ih =>
    have h1 := top_run ih w hv hn (Nat.le_max_right n (a.archived.length + 1))
    have h2 := memoFromRun_mono (Nat.le_max_left n (a.archived.length + 1)) ho
    split at h1
    · rw [h1] at h2; cases h2
    · obtain ⟨o', h3, p⟩ := h1
      rw [h3] at h2
      cases h2
      exact p.inv

/-! ### Doing it twice -/

omit [RazMeta E M] in
theorem put_again {sp sp2 : FSpace E M} (x : Cell (TreeData E M) (Nat × List E)) (hf : Unused sp.mem) {N : List Name}
    (hk : Keeps N (sp.put x).1.mem sp2.mem) : sp2.put x = (sp2, (sp.put x).2) := by
  have hcell : ∀ k, k < (sp.put x).1.mem.next → sp2.mem.cells (.anon k) = (sp.put x).1.mem.cells (.anon k) := fun k h => hk.anon k h
  have hnext := hk.next
  obtain ⟨k, e1, e2, e3, e4⟩ : ∃ k, (sp.put x).2 = .anon k ∧ k < (sp.put x).1.mem.next ∧ (sp.put x).1.mem.cells (.anon k) = some x ∧
      ∀ j < k, (sp.put x).1.mem.cells (.anon j) ≠ some x := by
    unfold Space.put
    cases h : (List.range sp.mem.next).find? (fun k => decide (sp.mem.cells (.anon k) = some x)) with
    | some k =>
      rw [List.find?_range_eq_some] at h
      obtain ⟨h1, h2, h3⟩ := h
      refine ⟨k, rfl, by simpa using h2, by simpa using h1, fun j hj => by simpa using h3 j hj⟩
    | none =>
      rw [List.find?_eq_none] at h
      refine ⟨sp.mem.next, rfl, by simp [Store.put], by simp [Store.put, Store.set], fun j hj => ?_⟩
      have := h j (by simpa using hj)
      simp only [Store.put, Store.set, Loc.anon.injEq, if_neg (Nat.ne_of_lt hj)]
      simpa using this
  generalize sp.put x = q at *
  have : (List.range sp2.mem.next).find? (fun k => decide (sp2.mem.cells (.anon k) = some x)) = some k := by
    rw [List.find?_range_eq_some]
    refine ⟨?_, ?_, fun j hj => ?_⟩
    · rw [hcell k e2]; simpa using e3
    · rw [List.mem_range]; omega
    · rw [hcell j (by omega)]; simpa using e4 j hj
  unfold Space.put
  rw [this, e1]

theorem flookup_hit {s : FSpace E M} {n : Name} {σ : RMem E M} {e} (h : s.table n = some e) (h1 : Agrees e.reads σ) (h2 : Agrees e.facts s.mem) :
    s.lookup n σ e.key = some e := by
  unfold Space.lookup
  rw [h, Option.filter_some, if_pos]
  simp only [AEntry.usable, Bool.and_eq_true, decide_eq_true_eq, List.all_eq_true]
  exact ⟨⟨trivial, fun q hq => h1 q hq⟩, fun q hq => h2 q hq⟩

theorem conv_again {σ : RMem E M} {sp : FSpace E M} (hi : FInv sp) {w : End} {hs : ASt E} {s : AStack E Nat} (hv : AView σ hs s)
    (hn : (stackNames s).Nodup) (hm : s.archived = [] ∨ s.name ≠ none) {n : Nat} {o} (ho : memoFromRun w σ n hs sp = some (.ok o)) (n' : Nat) :
    memoFromRun w σ n' hs o.space = some (.ok { o with work := 0 }) := by
  rw [← sN_stackNames] at hn
  have hna := Heap.nextArchive_names .dcg s
  have hless := fun v l s' (h : s.nextArchive = (s', some (v, some l))) => Heap.nextArchive_less h
  have hemp : ∀ v l s', s.archived = [] → s.nextArchive ≠ (s', some (v, some l)) := by
    intro v l s' h1 h2
    have := Heap.nextArchive_less h2
    rw [h1] at this
    simp at this
  obtain ⟨rd1, hs', g1, g2, g3, -⟩ := nextArchive_exec (W := Cell (TreeData E M) (Nat × List E)) (K := FromKey E) (R := FromRes E)
    (A := Option Tr) hv
  unfold memoFromRun memoFromProg at ho ⊢
  rw [g3] at ho ⊢
  generalize s.nextArchive = na at g2 hna hless ho hemp
  rcases na with ⟨s', _ | ⟨vec, nl⟩⟩
  · simp only [amexec, after] at ho ⊢
    cases ho
    rfl
  simp only at g2 hna hless ho ⊢
  have again : ∀ (sp2 : FSpace E M) N, Keeps N (sp.alloc none (.node (.leaf (w.vec vec)) none none)).1.mem sp2.mem →
      sp2.alloc none (.node (.leaf (w.vec vec)) none none) = (sp2, (sp.alloc none (.node (.leaf (w.vec vec)) none none)).2) :=
    fun sp2 N hk => put_again _ hi.fresh.unused hk
  obtain ⟨i1, i2, i3⟩ := alloc_inv hi none (.node (.leaf (w.vec vec)) none none)
  obtain ⟨-, -, -, -, kl, h5, -⟩ := put_spec hi.fresh.unused (.node (.leaf (w.vec vec)) none none)
  have h5 : (sp.alloc none (.node (.leaf (w.vec vec)) none none)).2 = .anon kl := h5
  generalize hal : (sp.alloc none (.node (.leaf (w.vec vec)) none none)) = al at i1 i2 i3 h5 again ho
  obtain ⟨sp1, kl'⟩ := al
  simp only at i1 i2 i3 h5 again
  subst h5
  rcases nl with _ | lev
  · simp only [leafProg, amexec, hal, after] at ho ⊢
    cases ho
    rw [again sp1 [] (Keeps.refl _ _)]
  · have hname : ∃ m, hs.name = some m := by
      rcases hm with h | h
      · exact absurd rfl (hemp vec lev s' h)
      · rw [hv.name]
        cases hs : s.name with
        | none => exact absurd hs h
        | some m => exact ⟨m, rfl⟩
    obtain ⟨m, hm⟩ := hname
    have hlen := hless vec lev s' rfl
    have hleaf := leaf_rep i1.fresh i3
    have nd : (tN .dcg (leaf (w.vec vec) none : Tree (TreeData E M)) ++ (nm .dcg hs.name ++ sN .dcg s'.archived)).Nodup := by
      rw [hv.name, Heap.tN_leaf]
      refine count_nodup fun x => ?_
      have := nodup_count hn x; have := hna x
      simp only [List.nil_append, List.count_append]; omega
    simp only [leafProg, amexec, callFrom, Option.map_some, hal, hm] at ho ⊢
    generalize hkey : (⟨w, hs', lev, some m, ⟨0, none, .anon kl⟩, u32Max⟩ : FromKey E) = key at ho ⊢
    cases hlk : sp1.lookup m.forkL σ key with
    | some e =>
      rw [hlk] at ho
      simp only at ho
      have : o.space = sp1 := by
        split at ho <;> simp only [amexec, after] at ho
        · cases ho; rfl
        · cases ho
      rw [this, again sp1 [] (Keeps.refl _ _)]
      simp only [hkey, hlk]
      split at ho <;> simp only [amexec, after] at ho
      · rw [if_pos (by assumption)]
        simp only [amexec, after]
        cases ho
        rfl
      · cases ho
    | none =>
      rw [hlk] at ho
      simp only at ho
      cases hc : amrun fromBody σ n key sp1 with
      | none => rw [hc] at ho; cases ho
      | some r =>
      rw [hc] at ho
      cases r with
      | error q => cases ho
      | ok c =>
      simp only at ho
      have hsp : o.space = c.space.set m.forkL ⟨key, c.reads, c.facts, c.val⟩ := by
        split at ho <;> simp only [amexec, after] at ho
        · cases ho; rfl
        · cases ho
      have P : FPart σ sp1 key s' c.reads c.facts c.space c.val := by
        have h1 := from_run σ (max n (s'.archived.length + 1)) key s' (leaf (w.vec vec) none) sp1 i1 (by rw [← hkey]; exact g2)
          (by rw [← hkey]; exact hleaf) (by rw [← hkey]; simpa [hm] using nd) (Nat.le_max_right _ _)
        have h2 := amrun_mono (Nat.le_max_left n (s'.archived.length + 1)) hc
        split at h1
        · rw [h1] at h2; cases h2
        · obtain ⟨o', h3, h4⟩ := h1
          rw [h3] at h2
          cases h2
          exact h4
      have hit : o.space.lookup m.forkL σ key = some ⟨key, c.reads, c.facts, c.val⟩ := by
        refine flookup_hit (e := ⟨key, c.reads, c.facts, c.val⟩) ?_ P.reads ?_
        · rw [hsp]; simp [Space.set]
        · rw [hsp]; exact P.facts
      rw [again o.space _ (by rw [hsp]; exact P.keeps)]
      simp only [hkey, hit]
      split at ho <;> simp only [amexec, after] at ho
      · rw [if_pos (by assumption)]
        simp only [amexec, after]
        cases ho
        rfl
      · cases ho

/-! ### Clients -/
open Iodyn.Heap

omit [RazMeta E M] [DecidableEq E] [DecidableEq M] in
theorem stack_view {e : Engine} {σ : Mem D X} : ∀ {l : Stack X} {h : Option Head}, RepS e σ h l → StackView σ h l := by
  intro l
  induction l with
  | nil => rintro h rfl; exact .nil
  | cons p l ih =>
    obtain ⟨n, x⟩ := p
    rintro h ⟨k, h', rfl, -, h2, h3⟩
    exact .cons (h := ⟨n, k⟩) h2 (ih h3)

/-- All namespaces are good. -/
def AllF (S : Name → FSpace E M) : Prop := ∀ p, FInv (S p)

theorem memoFromIn_run {σ : RMem E M} {sp : FSpace E M} (hi : FInv sp) (w : End) {hs : ASt E} {s : AStack E Nat} (hv : AView σ hs s)
    (hn : (stackNames s).Nodup) :
    match (w.conv s : P (RazTree E M)) with
    | .error q => ∀ f, s.archived.length + 1 ≤ f → memoFromIn w hs sp f σ = .error q
    | .ok b => ∃ h sp', (∀ f, s.archived.length + 1 ≤ f → memoFromIn w hs sp f σ = .ok ((⟨b.info, h⟩, sp'), σ)) ∧ FInv sp' ∧
        ∃ v, View sp'.mem h v ∧ plain v = b.tree := by
  rw [conv_eq]
  have h1 := top_run hi w hv hn (Nat.le_refl (s.archived.length + 1))
  cases ht : (convTree w s : P (Tree (TreeData E M))) with
  | error q =>
    rw [ht] at h1
    intro f hf
    unfold memoFromIn
    rw [memoFromRun_mono hf h1]
  | ok t =>
    rw [ht] at h1
    obtain ⟨o, h2, p⟩ := h1
    obtain ⟨v, v1, v2, -⟩ := view_exists p.tree
    have run : ∀ f, s.archived.length + 1 ≤ f → memoFromIn w hs sp f σ =
        (mkRazTree t).map (fun t => ((⟨t.info, o.val⟩, o.space), σ)) := by
      intro f hf
      unfold memoFromIn
      simp only [memoFromRun_mono hf h2, mkTree_view v1, v2]
      cases mkRazTree (E := E) (M := M) t <;> rfl
    simp only [bind, Except.bind]
    cases hx : mkRazTree (E := E) (M := M) t with
    | error q =>
      intro f hf
      rw [run f hf, hx]
      rfl
    | ok b =>
      refine ⟨o.val, o.space, fun f hf => ?_, p.inv, v, v1, ?_⟩
      · rw [run f hf, hx]; rfl
      · rw [v2]
        unfold mkRazTree at hx
        obtain ⟨y, -, hx⟩ := bind_ok.1 hx
        cases hx
        rfl

theorem fev_sim {σ : RMem E M} {hst : HSSt E M} {st : SSt E M} {S : Name → FSpace E M} (h : RepM .dcg σ hst st) (hS : AllF S)
    (ev : FEv E (RazMeta.Index E M)) (l : List (FEv E (RazMeta.Index E M))) (hf : FineM .dcg st (FEv.evs (ev :: l))) :
    Sim (HSSt.fev hst S ev) σ (st.fev ev) (fun b a σ' => RepM .dcg σ' a.1 b.1 ∧ a.2.2 = b.2 ∧ AllF a.2.1 ∧ FineM .dcg b.1 (FEv.evs l)) := by
  cases ev with
  | ev x =>
    unfold HSSt.fev SSt.fev
    refine (sev_sim h x hf.head).bind ?_
    rintro ⟨st', o⟩ ⟨hst', o'⟩ σ' - ⟨k1, k2, k3⟩
    simp only at k1 k2 k3; subst k2
    exact Sim.pure ⟨k1, rfl, hS, hf.tail k3⟩
  | conv p w j =>
    have hf : FineM .dcg st (FEv.evs l) := hf
    unfold HSSt.fev SSt.fev
    rcases h.stacks.lookup j with ⟨h1, h2⟩ | ⟨h1, h2⟩ | ⟨hs, s, h1, h2, h3⟩ <;> simp only [h1, h2]
    · exact Sim.pure ⟨h, rfl, hS, hf⟩
    · exact Sim.pure ⟨h, rfl, hS, hf⟩
    · have hn : (stackNames s).Nodup := by
        have hx : (allN .dcg st).Nodup := by
          rcases hf with ⟨hf, -⟩ | ⟨-, hf⟩
          · rw [hf]; exact List.nodup_nil
          · exact (List.nodup_append.1 hf).1
        rw [← sN_stackNames]
        refine count_nodup fun x => ?_
        have := nodup_count hx x
        have := gsN_get (skN .dcg) st.stacks j h2 x
        simp only [allN, skN, List.count_append] at *
        omega
      have key := memoFromIn_run (hS p) w (hs := hs) (s := s) (σ := σ) ⟨h3.cur, stack_view h3.arch⟩ hn
      cases hc : (w.conv s : P (RazTree E M)) with
      | error q =>
        rw [hc] at key
        exact ⟨s.archived.length + 1, fun f hle => by simp only [bind, key f hle]⟩
      | ok b =>
        rw [hc] at key
        obtain ⟨ho, sp', k1, k2, v, k3, k4⟩ := key
        refine ⟨(hst, (fun q => if q = p then sp' else S q), .made b), σ, ⟨max (s.archived.length + 1) v.size, fun f hle => ?_⟩, h, rfl, ?_, hf⟩
        · obtain ⟨bi, bt⟩ := b
          simp only at k4
          subst k4
          simp only [bind, k1 f (Nat.le_trans (Nat.le_max_left _ _) hle), readTree_view k3 f (Nat.le_trans (Nat.le_max_right _ _) hle), pure]
        · intro q
          by_cases hq : q = p
          · subst hq; simp only [if_true]; exact k2
          · simp only [if_neg hq]; exact hS q

theorem fevs_sim : ∀ (l : List (FEv E (RazMeta.Index E M))) {σ : RMem E M} {hst : HSSt E M} {st : SSt E M} {S : Name → FSpace E M},
    RepM .dcg σ hst st → AllF S → FineM .dcg st (FEv.evs l) →
    Sim (HSSt.fevs hst S l) σ (st.fevs l) (fun b a σ' => RepM .dcg σ' a.1 b.1 ∧ a.2.2 = b.2) := by
  intro l
  induction l with
  | nil => intro σ hst st S h _ _; exact Sim.pure ⟨h, rfl⟩
  | cons ev l ih =>
    intro σ hst st S h hS hf
    unfold HSSt.fevs SSt.fevs
    refine (fev_sim h hS ev l hf).bind ?_
    rintro ⟨vs', o⟩ ⟨hvs', S', o'⟩ σ' - ⟨k1, k2, k3, k4⟩
    simp only at k1 k2 k3 k4; subst k2
    refine (ih k1 k3 k4).bind ?_
    rintro ⟨vs'', os⟩ ⟨hvs'', S'', os'⟩ σ'' - ⟨q1, q2⟩
    simp only at q1 q2; subst q2
    exact Sim.pure ⟨q1, rfl⟩

theorem fevAnswers_of_fine (l : List (FEv E (RazMeta.Index E M))) (h : FineM .dcg (⟨[], []⟩ : SSt E M) (FEv.evs l)) :
    FEvAnswers (M := M) l (fevAnswers (M := M) l) := by
  have h1 := fevs_sim l (RepM.empty (e := .dcg) (E := E) (M := M)) (S := fun _ => Space.empty) (fun p => FInv.empty) h
  unfold fevAnswers
  unfold Sim at h1
  cases hx : SSt.fevs (⟨[], []⟩ : SSt E M) l with
  | error p =>
    rw [hx] at h1
    obtain ⟨f0, hf⟩ := h1
    exact ⟨f0, fun f hle => by rw [hf f hle]; rfl⟩
  | ok b =>
    rw [hx] at h1
    obtain ⟨a, σ', ⟨f0, hf⟩, -, h3⟩ := h1
    exact ⟨f0, fun f hle => by rw [hf f hle]; exact congrArg Except.ok h3⟩
end
end Iodyn.Incr
