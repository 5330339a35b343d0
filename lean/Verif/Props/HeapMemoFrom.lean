import Verif.Proof.HeapMemoBroken
import Verif.Props.Canon
import Verif.Props.Incr
/-
C64 `memo_from` over the store: sequences made from archive stacks, in the namespace of the stacks.
-/
namespace Iodyn.Heap
variable {E M : Type} [RazMeta E M] {e : Engine}

/-- **C64, partial.** A client fills archive stacks, turns them into sequences with `memo_from`, edits, clones and joins sequences,
in any order. It gets the answers of the functional semantics: for the functional engine, for programs without names, and for
programs that use each name once and make no clones. Missing: stacks with names that are still used after the conversion,
under the incremental engine, where it is false (`C64_rerun_panics`). -/
theorem C64_memo_from_partial {l : List (SEv E (RazMeta.Index E M))} (hs : SSafe e l) :
    SEvAnswers (M := M) e l (sevAnswers M l) := by
  have h1 := mrun_sim l (e := e) (RepM.empty (E := E) (M := M)) (ssafe_fine hs)
  unfold sevAnswers
  unfold Sim at h1
  cases hx : SSt.run (⟨[], []⟩ : SSt E M) l with
  | error p =>
    rw [hx] at h1
    obtain ⟨f0, hf⟩ := h1
    exact ⟨f0, fun f hle => by rw [hf f hle]; rfl⟩
  | ok b =>
    rw [hx] at h1
    obtain ⟨a, σ', ⟨f0, hf⟩, -, h3⟩ := h1
    exact ⟨f0, fun f hle => by rw [hf f hle]; exact congrArg Except.ok h3⟩

theorem sevAnswers_unique {l : List (SEv E (RazMeta.Index E M))} {r r' : P (List (Out E))}
    (h : SEvAnswers (M := M) e l r) (h' : SEvAnswers (M := M) e l r') : r = r' := by
  obtain ⟨f, hf⟩ := h
  obtain ⟨g, hg⟩ := h'
  rw [← hf (max f g) (Nat.le_max_left _ _), hg (max f g) (Nat.le_max_right _ _)]

/-! ### Plain lists -/

/-- A stack as a list in the order of the pushes. -/
def readStack (s : AStack E Nat) : List E := s.elems.reverse

/-- All stacks as lists. -/
def readStacks (ss : List (Option (AStack E Nat))) : List (Option (List E)) := ss.map (Option.map readStack)

/-- What `Tops` tracks. -/
def topBits (ss : List (Option (AStack E Nat))) : List (Option (Bool × Bool)) :=
  ss.map (Option.map fun s => (!s.elems.isEmpty, !s.current.isEmpty))

/-- All stacks are built with levels in range. -/
def AllBuilt (ss : List (Option (AStack E Nat))) : Prop :=
  ∀ (j : Nat) s, ss[j]? = some (some s) → s.Built (fun n => 1 ≤ n ∧ n < u32Max)

section
omit [RazMeta E M]

theorem AllBuilt.append {ss : List (Option (AStack E Nat))} (h : AllBuilt ss) {s : AStack E Nat}
    (hs : s.Built (fun n => 1 ≤ n ∧ n < u32Max)) : AllBuilt (ss ++ [some s]) := by
  intro j s' hj
  rcases Nat.lt_or_ge j ss.length with hlt | hge
  · rw [List.getElem?_append_left hlt] at hj; exact h j s' hj
  · rw [List.getElem?_append_right hge] at hj
    cases hk : j - ss.length with
    | zero => rw [hk] at hj; simp at hj; subst hj; exact hs
    | succ k => rw [hk] at hj; simp at hj

theorem AllBuilt.set {ss : List (Option (AStack E Nat))} (h : AllBuilt ss) (j : Nat) {o : Option (AStack E Nat)}
    (hs : ∀ s, o = some s → s.Built (fun n => 1 ≤ n ∧ n < u32Max)) : AllBuilt (ss.set j o) := by
  intro i s hi
  by_cases hij : j = i
  · subst hij
    rw [List.getElem?_set] at hi
    simp only [if_true] at hi
    split at hi
    · exact hs s (by simpa using hi)
    · cases hi
  · rw [List.getElem?_set_ne hij] at hi
    exact h i s hi

theorem readStacks_get (ss : List (Option (AStack E Nat))) (j : Nat) :
    (readStacks ss)[j]? = (ss[j]?).map (Option.map readStack) := by simp [readStacks]

theorem topBits_get (ss : List (Option (AStack E Nat))) (j : Nat) :
    (topBits ss)[j]? = (ss[j]?).map (Option.map fun s => (!s.elems.isEmpty, !s.current.isEmpty)) := by simp [topBits]

theorem readStacks_bad {ss : List (Option (AStack E Nat))} {j : Nat} (h : ∀ s, ss[j]? ≠ some (some s)) (l : List E) :
    (readStacks ss)[j]? ≠ some (some l) := by
  rw [readStacks_get]
  rcases hx : ss[j]? with _ | _ | s
  · simp
  · simp
  · exact absurd hx (h s)

theorem topBits_bad {ss : List (Option (AStack E Nat))} {j : Nat} (h : ∀ s, ss[j]? ≠ some (some s)) (b : Bool × Bool) :
    (topBits ss)[j]? ≠ some (some b) := by
  rw [topBits_get]
  rcases hx : ss[j]? with _ | _ | s
  · simp
  · simp
  · exact absurd hx (h s)

theorem built_mono {ok ok' : Nat → Prop} (hk : ∀ n, ok n → ok' n) {s : AStack E Nat} (h : s.Built ok) : s.Built ok' := by
  induction h with
  | new => exact .new
  | push x _ ih => exact .push x ih
  | extend v _ ih => exact .extend v ih
  | extendRev v _ ih => exact .extendRev v ih
  | archive nm m hm _ ih => exact .archive nm m (hk _ hm) ih
  | pop _ hp ih => exact .pop ih hp
  | popMeta _ hp ih => exact .popMeta ih hp
  | nextArchive _ ih => exact .nextArchive ih

theorem push_elems (s : AStack E Nat) (x : E) : (s.push x).elems = x :: s.elems := by
  simp [AStack.push, AStack.elems]

theorem archive_elems (s : AStack E Nat) (nm : Option Name) (lev : Nat) : (s.archive nm lev).1.elems = s.elems := by
  unfold AStack.archive AStack.elems
  split
  · rfl
  · simp [Stack.push]

theorem archive_current (s : AStack E Nat) (nm : Option Name) (lev : Nat) : (s.archive nm lev).1.current = [] := by
  unfold AStack.archive
  split
  · next h => exact List.length_eq_zero_iff.1 h
  · rfl

theorem set_same {A : Type} (l : List A) (j : Nat) (a : A) (h : l[j]? = some a) : l.set j a = l := by
  apply List.ext_getElem?
  intro i
  by_cases hij : j = i
  · subst hij
    rw [List.getElem?_set]
    have : j < l.length := by
      rcases Nat.lt_or_ge j l.length with h' | h'
      · exact h'
      · rw [List.getElem?_eq_none h'] at h; cases h
    rw [if_pos rfl, if_pos this, h]
  · rw [List.getElem?_set_ne hij]

end

theorem conv_lists {w : End} {s : AStack E Nat} {t : RazTree E M} (hb : s.Built (fun n => 1 ≤ n ∧ n < u32Max))
    (ht : s.elems.isEmpty = false → s.current.isEmpty = false) (hc : w.conv s = .ok t) :
    t.elems = w.list (readStack s) ∧ t.Reachable .full := by
  have htop : (Usage.full.emptyTop = true ∨ s.current ≠ [] ∨ s.archived = []) := by
    rcases hcur : s.current with _ | ⟨x, c⟩
    · refine .inr (.inr ?_)
      have h1 : s.elems = [] := by
        by_contra hne
        have := ht (by simpa using hne)
        rw [hcur] at this; cases this
      have h2 := hb.inv
      unfold StackP at h2
      rcases ha : s.archived with _ | ⟨⟨nm, lev, v⟩, r⟩
      · rfl
      · unfold AStack.elems at h1
        rw [ha] at h1 h2
        have h3 := (h2 _ List.mem_cons_self)
        simp at h1
        exact absurd h1.2.1 h3.2
    · exact .inr (.inl (by simp))
  cases w with
  | tail =>
    obtain ⟨t', h1, -, h3⟩ := C17_memo_from_tail (M := M) hb
    have : t' = t := by
      have := h1.symm.trans hc
      cases this; rfl
    subst this
    exact ⟨h3, .memoTail hb htop hc⟩
  | head =>
    have hb' := built_mono (ok' := fun n => 1 ≤ n ∧ n ≤ u32Max) (fun n h => ⟨h.1, Nat.le_of_lt h.2⟩) hb
    obtain ⟨t', h1, -, h3⟩ := C18_memo_from_head (M := M) hb'
    have : t' = t := by
      have := h1.symm.trans hc
      cases this; rfl
    subst this
    refine ⟨?_, .memoHead hb' htop hc⟩
    rw [h3]; simp [End.list, readStack]

theorem lists_sev [LawfulMeta E M] {st st' : SSt E M} {ev : SEv E (RazMeta.Index E M)} {l : List (SEv E (RazMeta.Index E M))} {a : Out E}
    (h : AllReach st.vars) (hb : AllBuilt st.stacks) (hl : ev.LevelOK) (ht : Tops (topBits st.stacks) (ev :: l))
    (hs : st.step ev = .ok (st', a)) :
    LSEv ⟨readVars st.vars, readStacks st.stacks⟩ ev a ⟨readVars st'.vars, readStacks st'.stacks⟩ ∧ AllReach st'.vars ∧
      AllBuilt st'.stacks ∧ Tops (topBits st'.stacks) l := by
  obtain ⟨vs, ss⟩ := st
  simp only at h hb ht
  have look : ∀ j : Nat, (∃ s, ss[j]? = some (some s)) ∨ ∀ s, ss[j]? ≠ some (some s) := fun j => by
    rcases hx : ss[j]? with _ | _ | s
    · exact .inr (by simp)
    · exact .inr (by simp)
    · exact .inl ⟨s, rfl⟩
  have tl : ∀ {j : Nat}, ev.stackOf = some j → (∀ s, ss[j]? ≠ some (some s)) → Tops (topBits ss) l := by
    intro j hj hn
    have hn' := topBits_bad hn
    cases ev <;> simp only [SEv.stackOf, Option.some.injEq, reduceCtorEq] at hj <;> subst hj <;> 
      simpa only [Tops] using ht
  have bad : ∀ {j : Nat}, ev.stackOf = some j → (∀ s, ss[j]? ≠ some (some s)) → SSt.step ⟨vs, ss⟩ ev = .ok (⟨vs, ss⟩, .unit) := by
    intro j hj hn
    cases ev <;> simp only [SEv.stackOf, Option.some.injEq, reduceCtorEq] at hj <;> subst hj <;> 
      simp only [SSt.step] <;> rfl
  have done : ∀ {j : Nat}, ev.stackOf = some j → (∀ s, ss[j]? ≠ some (some s)) →
      LSEv ⟨readVars vs, readStacks ss⟩ ev a ⟨readVars st'.vars, readStacks st'.stacks⟩ ∧ AllReach st'.vars ∧
      AllBuilt st'.stacks ∧ Tops (topBits st'.stacks) l := by
    intro j hj hn
    rw [bad hj hn] at hs
    cases hs
    exact ⟨.bad hj (readStacks_bad hn), h, hb, tl hj hn⟩
  cases ev with
  | stmt c =>
    obtain ⟨⟨vs', o⟩, h1, h2⟩ := bind_ok.1 hs
    cases h2
    obtain ⟨k1, k2⟩ := lists_step h hl h1
    exact ⟨.stmt k1, k2, hb, ht⟩
  | stack =>
    cases hs
    refine ⟨?_, h, hb.append .new, ?_⟩
    · simp only [readStacks, List.map_append]
      exact .stack
    · simp only [topBits, List.map_append]
      exact ht
  | sclone j =>
    rcases look j with ⟨s, hj⟩ | hn
    · simp only [SSt.step, hj] at hs
      cases hs
      refine ⟨?_, h, hb.append (hb j s hj), ?_⟩
      · have := LSEv.sclone (I := RazMeta.Index E M) (vs := readVars vs) (ss := readStacks ss) (j := j) (l := readStack s) (by rw [readStacks_get, hj]; rfl)
        simpa only [readStacks, List.map_append, List.map_cons, List.map_nil, Option.map_some] using this
      · simp only [Tops, topBits_get, hj, Option.map_some] at ht
        simpa only [topBits, List.map_append, List.map_cons, List.map_nil, Option.map_some] using ht
    · exact done rfl hn
  | spush j x =>
    rcases look j with ⟨s, hj⟩ | hn
    · simp only [SSt.step, hj] at hs
      cases hs
      refine ⟨?_, h, hb.set j (by rintro _ ⟨⟩; exact .push x (hb j s hj)), ?_⟩
      · have := LSEv.spush (I := RazMeta.Index E M) (vs := readVars vs) (ss := readStacks ss) (j := j) (x := x) (l := readStack s) (by rw [readStacks_get, hj]; rfl)
        simpa only [readStacks, List.map_set, Option.map_some, readStack, push_elems, List.reverse_cons] using this
      · simp only [Tops, topBits_get, hj, Option.map_some] at ht
        have hc : (s.push x).current.isEmpty = false := by simp [AStack.push]
        simpa [topBits, List.map_set, push_elems, hc] using ht
    · exact done rfl hn
  | sarch j nm lev =>
    rcases look j with ⟨s, hj⟩ | hn
    · simp only [SSt.step, hj] at hs
      cases hs
      refine ⟨?_, h, hb.set j (by rintro _ ⟨⟩; exact .archive nm lev hl (hb j s hj)), ?_⟩
      · have hg : (readStacks ss)[j]? = some (some (readStack s)) := by rw [readStacks_get, hj]; rfl
        have := LSEv.sarch (I := RazMeta.Index E M) (vs := readVars vs) (ss := readStacks ss) (j := j) (nm := nm) (lev := lev) hg
        have e1 : readStacks (ss.set j (some (s.archive nm lev).1)) = readStacks ss := by
          simp only [readStacks, List.map_set, Option.map_some, readStack, archive_elems]
          exact set_same _ _ _ hg
        simp only [e1]; exact this
      · simp only [Tops, topBits_get, hj, Option.map_some] at ht
        simpa [topBits, List.map_set, archive_elems, archive_current] using ht
    · exact done rfl hn
  | conv w j =>
    rcases look j with ⟨s, hj⟩ | hn
    · simp only [SSt.step, hj] at hs
      obtain ⟨t, h1, h2⟩ := bind_ok.1 hs
      cases h2
      simp only [Tops, topBits_get, hj, Option.map_some] at ht
      obtain ⟨k1, k2⟩ := conv_lists (hb j s hj) (by simpa using ht.1) h1
      refine ⟨?_, h.append k2, hb.set j (by rintro _ ⟨⟩), ?_⟩
      · have := LSEv.conv (I := RazMeta.Index E M) (vs := readVars vs) (ss := readStacks ss) (w := w) (j := j) (l := readStack s) (by rw [readStacks_get, hj]; rfl)
        rw [readVars_append]
        simpa only [readStacks, List.map_set, Option.map_none, St.read, k1] using this
      · simpa [topBits, List.map_set] using ht.2
    · exact done rfl hn

theorem lists_sevs [LawfulMeta E M] (l : List (SEv E (RazMeta.Index E M))) :
    ∀ {st st' : SSt E M} {as : List (Out E)}, AllReach st.vars → AllBuilt st.stacks → (∀ ev ∈ l, ev.LevelOK) → Tops (topBits st.stacks) l →
      st.run l = .ok (st', as) →
      LSEvs ⟨readVars st.vars, readStacks st.stacks⟩ l as ⟨readVars st'.vars, readStacks st'.stacks⟩ := by
  induction l with
  | nil =>
    intro st st' as _ _ _ _ hr
    cases hr
    exact .nil _
  | cons ev l ih =>
    intro st st' as h hb hl ht hr
    obtain ⟨⟨s1, a⟩, h1, hr⟩ := bind_ok.1 hr
    obtain ⟨⟨s2, as⟩, h2, hr⟩ := bind_ok.1 hr
    cases hr
    obtain ⟨k1, k2, k3, k4⟩ := lists_sev h hb (hl ev List.mem_cons_self) ht h1
    exact .cons k1 (ih k2 k3 (fun ev h => hl ev (List.mem_cons_of_mem _ h)) k4 h2)

/-- **C64, on plain lists, partial.** The answers are those of plain lists, where pushing appends, archiving does nothing, and a
conversion makes the list of the stack a sequence: as it is for `AtTail`, reversed for `AtHead`. -/
theorem C64_lists_partial [LawfulMeta E M] {l : List (SEv E (RazMeta.Index E M))} (hs : SSafe e l)
    (hl : ∀ ev ∈ l, ev.LevelOK) (ht : Tops [] l) {as : List (Out E)} (ha : SEvAnswers (M := M) e l (.ok as)) :
    ∃ st, LSEvs ⟨[], []⟩ l as st := by
  have := sevAnswers_unique ha (C64_memo_from_partial hs)
  unfold sevAnswers at this
  cases hr : SSt.run (⟨[], []⟩ : SSt E M) l with
  | error p => rw [hr] at this; cases this
  | ok x =>
    obtain ⟨st, as'⟩ := x
    rw [hr] at this
    cases this
    exact ⟨_, lists_sevs l (st := ⟨[], []⟩) (fun i s hi => by simp at hi) (fun i s hi => by simp at hi) hl ht hr⟩

/-! ### A stack that is converted again -/

/-- One step of filling. -/
def fillStep (s : AStack E Nat) : Fill E → AStack E Nat
  | .push x => s.push x
  | .archive nm lev => (s.archive nm lev).1

omit [RazMeta E M] in
theorem fillStack_eq (ops : List (Fill E)) : fillStack ops = ops.foldl fillStep AStack.new := by
  unfold fillStack
  congr

theorem mrun_cons {st st' st'' : SSt E M} {ev : SEv E (RazMeta.Index E M)} {l : List (SEv E (RazMeta.Index E M))} {a : Out E} {as : List (Out E)}
    (h1 : st.step ev = .ok (st', a)) (h2 : st'.run l = .ok (st'', as)) : st.run (ev :: l) = .ok (st'', a :: as) := by
  rw [SSt.run, h1]
  simp only [bind, Except.bind, h2]
  rfl

theorem fill_run (j : Nat) (ops : List (Fill E)) : ∀ (vs : Vars E M) (ss : List (Option (AStack E Nat))) (s : AStack E Nat),
    ss[j]? = some (some s) → ∃ as, SSt.run (⟨vs, ss⟩ : SSt E M) (ops.map (Fill.ev j)) = .ok (⟨vs, ss.set j (some (ops.foldl fillStep s))⟩, as) := by
  induction ops with
  | nil =>
    intro vs ss s h
    exact ⟨[], by rw [List.foldl_nil, set_same _ _ _ h]; rfl⟩
  | cons op ops ih =>
    intro vs ss s h
    have hlt : j < ss.length := by
      rcases Nat.lt_or_ge j ss.length with h' | h'
      · exact h'
      · rw [List.getElem?_eq_none h'] at h; cases h
    have h1 : SSt.step (⟨vs, ss⟩ : SSt E M) (op.ev j) = .ok (⟨vs, ss.set j (some (fillStep s op))⟩, .unit) := by
      cases op <;> simp only [Fill.ev, SSt.step, h] <;> rfl
    obtain ⟨as, h2⟩ := ih vs (ss.set j (some (fillStep s op))) (fillStep s op) (List.getElem?_set_self hlt)
    refine ⟨.unit :: as, ?_⟩
    rw [List.set_set] at h2
    exact mrun_cons h1 h2

theorem mrun_append (l1 l2 : List (SEv E (RazMeta.Index E M))) : ∀ {st st' st'' : SSt E M} {as as' : List (Out E)}, st.run l1 = .ok (st', as) →
    st'.run l2 = .ok (st'', as') → st.run (l1 ++ l2) = .ok (st'', as ++ as') := by
  induction l1 with
  | nil =>
    intro st st' st'' as as' h1 h2
    cases h1
    exact h2
  | cons ev l1 ih =>
    intro st st' st'' as as' h1 h2
    obtain ⟨⟨s1, a⟩, k1, h1⟩ := bind_ok.1 h1
    obtain ⟨⟨s2, bs⟩, k2, h1⟩ := bind_ok.1 h1
    cases h1
    exact mrun_cons k1 (ih k2 h2)

/-- If the first part of a program runs and the rest panics, the whole panics. -/
theorem hrun_append (l1 l2 : List (SEv E (RazMeta.Index E M))) {f : Nat} : ∀ {st st' : HSSt E M} {σ σ' : RMem E M} {as : List (Out E)} {p : Panic},
    st.run e l1 f σ = .ok ((st', as), σ') → st'.run e l2 f σ' = .error p → st.run e (l1 ++ l2) f σ = .error p := by
  induction l1 with
  | nil =>
    intro st st' σ σ' as p h1 h2
    cases h1
    exact h2
  | cons ev l1 ih =>
    intro st st' σ σ' as p h1 h2
    rw [HSSt.run] at h1
    cases k1 : st.step e ev f σ with
    | error q => rw [run_err k1] at h1; cases h1
    | ok x =>
      obtain ⟨⟨s1, a⟩, σ1⟩ := x
      rw [run_ok k1] at h1
      simp only at h1
      cases k2 : s1.run e l1 f σ1 with
      | error q => rw [run_err k2] at h1; cases h1
      | ok y =>
        obtain ⟨⟨s2, bs⟩, σ2⟩ := y
        rw [run_ok k2] at h1
        cases h1
        rw [List.cons_append, HSSt.run]
        exact (run_ok k1).trans (run_err (ih k2 h2))

omit [RazMeta E M] in
theorem mark_names {t : Tree (TreeData E M)} {lev : Nat} {n : Name} : .mark lev (some n) ∈ t.items → n ∈ tN .dcg t := by
  induction t with
  | nil => intro h; cases h
  | node lv nm d l r ihl ihr =>
    intro h
    have key : (Item.mark lev (some n) : Item E) ∈ l.items ++ .mark lv nm :: r.items → n ∈ tN .dcg (.node lv nm d l r) := by
      intro h
      simp only [List.mem_append, List.mem_cons, Item.mark.injEq] at h
      simp only [tN, List.mem_append, Heap.nm]
      rcases h with h | ⟨-, h⟩ | h
      · exact .inl (ihl h)
      · rw [← h]; simp
      · exact .inr (.inr (ihr h))
    cases d with
    | leaf v => simp [Tree.items] at h
    | _ => exact key h

omit [RazMeta E M] in
theorem tree_cells {σ : RMem E M} {n : Name} : ∀ {t : Tree (TreeData E M)} {h : Option Tr}, RepT .dcg σ h t → n ∈ tN .dcg t →
    ∃ d l r, σ.cells (.named n σ.path) = some (.node d l r) := by
  intro t
  induction t with
  | nil => intro h _ hn; cases hn
  | node lv nm d l r ihl ihr =>
    rintro h ⟨k, hl, hr, -, h1, h2, h3, h4⟩ hn
    simp only [tN, List.mem_append, Heap.nm] at hn
    rcases hn with hn | hn | hn
    · exact ihl h3 hn
    · cases nm with
      | none => simp at hn
      | some m =>
        have hm : n = m := by simpa using hn
        subst hm
        have hk : k = .named n σ.path := by
          obtain ⟨q, rfl | h, h1⟩ := h1
          · exact h1
          · exact h.elim
        exact ⟨d, hl, hr, hk ▸ h2⟩
    · exact ihr h4 hn

omit [RazMeta E M] in
theorem side_names {a : Stack (Nat × List E)} {n : Name} (h : n ∈ sN .dcg a) : ∃ p ∈ a, p.1 = some n := by
  induction a with
  | nil => cases h
  | cons p a ih =>
    obtain ⟨nm, x⟩ := p
    simp only [sN, List.mem_append, Heap.nm] at h
    rcases h with h | h
    · exact ⟨_, List.mem_cons_self, by simpa using h⟩
    · obtain ⟨p, h1, h2⟩ := ih h
      exact ⟨p, List.mem_cons_of_mem _ h1, h2⟩

omit [RazMeta E M] in
/-- After the conversion, the stack leads to a tree node. -/
theorem broken_after {σ σ' : RMem E M} {N : List Name} (hc : ∀ n ∈ N, ∃ d l r, σ'.cells (.named n σ'.path) = some (.node d l r)) (hk : Keeps N σ σ') :
    ∀ {a : Stack (Nat × List E)} {h : Option Head}, RepS .dcg σ h a → sN .dcg a ⊆ N → (∃ p ∈ a, p.1.isSome = true) →
      Broken σ' N a.length h := by
  intro a
  induction a with
  | nil => rintro h - - ⟨p, h1, -⟩; cases h1
  | cons p a ih =>
    obtain ⟨nm, x⟩ := p
    rintro h ⟨k, h', rfl, h3, h4, h5⟩ hN ⟨p, hp1, hp2⟩
    cases nm with
    | some n =>
      have hn : n ∈ N := hN (by simp [sN, Heap.nm])
      have h3 : k = .named n σ.path := by
        obtain ⟨q, rfl | h, h3⟩ := h3
        · exact h3
        · exact h.elim
      rw [← hk.path] at h3
      subst h3
      obtain ⟨d, l, r, hd⟩ := hc n hn
      exact .here (.inl ⟨n, hn, _, rfl⟩) hd
    | none =>
      obtain ⟨j, rfl, h3⟩ := h3
      refine .next (.inr ⟨j, rfl, Nat.lt_of_lt_of_le h3 hk.next⟩) ((hk.anon j h3).trans h4) (ih h5 (fun y hy => hN (by simp [sN, hy])) ?_)
      rcases List.mem_cons.1 hp1 with rfl | hp1
      · cases hp2
      · exact ⟨p, hp1, hp2⟩

/-- Filling a stack that leads to a tree node. -/
theorem fill_broken (ops : List (Fill E)) : ∀ (vs : HVars E M) (s : ASt E) (σ : RMem E M) (N : List Name) (k : Nat), Broken σ N k s.archived →
    (N ++ ops.flatMap Fill.names).Nodup → ∃ s' σ' N' k' as,
      (∀ f, HSSt.run .dcg ⟨vs, [none, some s]⟩ (ops.map (Fill.ev 1)) f σ = .ok ((⟨vs, [none, some s']⟩, as), σ')) ∧ Broken σ' N' k' s'.archived := by
  induction ops with
  | nil => intro vs s σ N k hb _; exact ⟨s, σ, N, k, [], fun f => rfl, hb⟩
  | cons op ops ih =>
    intro vs s σ N k hb hn
    have go : ∀ {s1 : ASt E} {σ1 : RMem E M} {N1 : List Name} {k1 : Nat},
        (∀ f, HSSt.step .dcg (⟨vs, [none, some s]⟩ : HSSt E M) (op.ev 1) f σ = .ok ((⟨vs, [none, some s1]⟩, .unit), σ1)) →
        Broken σ1 N1 k1 s1.archived → (N1 ++ ops.flatMap Fill.names).Nodup → ∃ s' σ' N' k' as,
        (∀ f, HSSt.run .dcg ⟨vs, [none, some s]⟩ ((op :: ops).map (Fill.ev 1)) f σ = .ok ((⟨vs, [none, some s']⟩, as), σ')) ∧
          Broken σ' N' k' s'.archived := by
      intro s1 σ1 N1 k1 h1 hb1 hn1
      obtain ⟨s', σ', N', k', as, h2, hb'⟩ := ih vs s1 σ1 N1 k1 hb1 hn1
      refine ⟨s', σ', N', k', .unit :: as, fun f => ?_, hb'⟩
      rw [List.map_cons, HSSt.run]
      exact (run_ok (h1 f)).trans ((run_ok (h2 f)).trans rfl)
    cases op with
    | push x => exact go (s1 := s.push x) (fun f => rfl) hb (by simpa [Fill.names] using hn)
    | archive nm lev =>
      by_cases hc : s.current.length = 0
      · refine go (s1 := s) (fun f => ?_) hb (hn.sublist ?_)
        · refine run_ok (a := s) (σ' := σ) ?_
          simp only [ASt.archive, hc, if_true]; rfl
        · simp only [List.flatMap_cons]
          exact List.Sublist.append (List.Sublist.refl _) (List.sublist_append_right _ _)
      · have hd : Dis N nm.toList := by
          rw [List.flatMap_cons, ← List.append_assoc] at hn
          exact dis_app (List.nodup_append.1 hn).1
        cases nm with
        | none =>
          have hk : Keeps [] σ (σ.put (.body (lev, s.current) s.archived)).1 := ⟨Nat.le_succ _, rfl, fun j hj => by
            simp only [Store.put, Store.set, Loc.anon.injEq]
            rw [if_neg (by omega)], fun n _ => by simp [Store.put, Store.set], fun n q _ => by simp [Store.put, Store.set]⟩
          refine go (s1 := ⟨[], some ⟨none, .anon σ.next⟩⟩) (σ1 := (σ.put (.body (lev, s.current) s.archived)).1) (N1 := N) (k1 := k + 1) (fun f => ?_)
            (.next (o := s.archived) (x := (lev, s.current)) (.inr ⟨σ.next, rfl, Nat.lt_succ_self _⟩) (by simp [Store.put, Store.set])
              (by simpa using hb.keep hk (fun _ _ h => by cases h) [])) (by simpa [Fill.names] using hn)
          refine run_ok (a := (⟨[], some ⟨none, .anon σ.next⟩⟩ : ASt E)) (σ' := (σ.put (.body (lev, s.current) s.archived)).1) ?_
          simp only [ASt.archive, hc, if_false]; rfl
        | some n =>
          have hk : Keeps [n] σ (σ.set (.named n σ.path) (.body (lev, s.current) s.archived)) := ⟨Nat.le_refl _, rfl, fun j hj => by
            simp [Store.set], fun m hm => by
            simp only [Store.set, Loc.named.injEq]
            rw [if_neg (by simpa using hm)], fun m q hq => by simp [Store.set, hq]⟩
          refine go (s1 := ⟨[], some ⟨some n, .named n σ.path⟩⟩) (σ1 := σ.set (.named n σ.path) (.body (lev, s.current) s.archived)) (N1 := N ++ [n]) (k1 := k + 1) (fun f => ?_)
            (.next (o := s.archived) (x := (lev, s.current)) (.inl ⟨n, by simp, _, rfl⟩) (by simp [Store.set])
              (hb.keep hk hd [n])) (by simpa [Fill.names] using hn)
          refine run_ok (a := (⟨[], some ⟨some n, .named n σ.path⟩⟩ : ASt E)) (σ' := σ.set (.named n σ.path) (.body (lev, s.current) s.archived)) ?_
          simp only [ASt.archive, hc, if_false]; rfl

omit [RazMeta E M] in
theorem fill_built {ops : List (Fill E)} (h : ∀ op ∈ ops, op.LevelOK) {s : AStack E Nat} (hs : s.Built (fun n => 1 ≤ n ∧ n < u32Max)) :
    (ops.foldl fillStep s).Built (fun n => 1 ≤ n ∧ n < u32Max) := by
  induction ops generalizing s with
  | nil => exact hs
  | cons op ops ih =>
    refine ih (fun o ho => h o (List.mem_cons_of_mem _ ho)) ?_
    have := h op List.mem_cons_self
    cases op with
    | push x => exact .push x hs
    | archive nm lev => exact .archive nm lev this hs

omit [RazMeta E M] in
theorem fill_names (ops : List (Fill E)) : ∀ (s : AStack E Nat), Sub (sN .dcg (ops.foldl fillStep s).archived) (sN .dcg s.archived ++ ops.flatMap Fill.names) := by
  induction ops with
  | nil => intro s; simpa using Sub.refl _
  | cons op ops ih =>
    intro s x
    have h1 := ih (fillStep s op) x
    rw [List.foldl_cons]
    refine Nat.le_trans h1 ?_
    simp only [List.flatMap_cons, List.count_append]
    cases op with
    | push y => simp [fillStep, Fill.names, AStack.push]
    | archive nm lev =>
      have := archive_names (e := .dcg) s nm lev x
      simp only [skN, List.count_append, Heap.nm, fillStep, Fill.names] at this ⊢; omega

theorem conv_ok (w : End) {s : AStack E Nat} (hb : s.Built (fun n => 1 ≤ n ∧ n < u32Max)) :
    ∃ t : RazTree E M, w.conv s = .ok t ∧ ∀ n, (∃ p ∈ s.archived, p.1 = some n) → ∃ lev, .mark lev (some n) ∈ t.items := by
  have mem : ∀ n, (∃ p ∈ s.archived, p.1 = some n) → ∃ lev, (.mark lev (some n) : Item E) ∈ s.side.map Item.keep := by
    rintro n ⟨⟨nm, lev, v⟩, h1, rfl⟩
    refine ⟨lev, List.mem_map.2 ⟨.pend lev (some n), ?_, rfl⟩⟩
    unfold AStack.side
    refine List.mem_append_right _ (List.mem_flatMap.2 ⟨_, h1, ?_⟩)
    simp
  cases w with
  | tail =>
    obtain ⟨t, h1, h2, -⟩ := C17_memo_from_tail (M := M) hb
    refine ⟨t, h1, fun n hn => ?_⟩
    rw [h2]
    obtain ⟨lev, h⟩ := mem n hn
    exact ⟨lev, List.mem_reverse.2 h⟩
  | head =>
    obtain ⟨t, h1, h2, -⟩ := C18_memo_from_head (M := M) (built_mono (ok' := fun n => 1 ≤ n ∧ n ≤ u32Max) (fun n h => ⟨h.1, Nat.le_of_lt h.2⟩) hb)
    refine ⟨t, h1, fun n hn => ?_⟩
    rw [h2]
    exact mem n hn

/-- **C64, false in general.** A client fills a stack, keeps a clone, converts the stack, fills the clone some more and converts it too:
the use that src/memo.rs describes, "run again with a slightly modified" argument. If at least one archive point has a name, the program
panics under the incremental engine, for every stack, every continuation and both directions, although every name is used only once;
under the functional engine the same program runs to its end. The nodes of the first tree have replaced the cells of the stack. -/
theorem C64_rerun_panics {ops ops' : List (Fill E)} (w w' : End) (hl : ∀ op ∈ ops ++ ops', op.LevelOK)
    (hd : ((ops ++ ops').flatMap Fill.names).Nodup) (hn : ∃ p ∈ (fillStack ops).archived, p.1.isSome = true) :
    (∃ p, SEvAnswers (M := M) .dcg (rerun w ops w' ops') (.error p)) ∧
      ∃ as, SEvAnswers (M := M) .naive (rerun w ops w' ops') (.ok as) := by
  rw [fillStack_eq] at hn
  rw [List.flatMap_append] at hd
  have hl1 : ∀ op ∈ ops, op.LevelOK := fun o h => hl o (List.mem_append_left _ h)
  have hl2 : ∀ op ∈ ops', op.LevelOK := fun o h => hl o (List.mem_append_right _ h)
  have hb1 := fill_built hl1 (.new)
  have hb2 := fill_built hl2 hb1
  obtain ⟨t1, hc1, hm1⟩ := conv_ok (M := M) w hb1
  obtain ⟨t2, hc2, -⟩ := conv_ok (M := M) w' hb2
  obtain ⟨as1, hr1⟩ := fill_run (M := M) 0 ops [] [some AStack.new] AStack.new rfl
  have hr0 : SSt.run (⟨[], []⟩ : SSt E M) (.stack :: ops.map (Fill.ev 0)) = .ok (⟨[], [some (ops.foldl fillStep AStack.new)]⟩, .unit :: as1) := mrun_cons rfl hr1
  refine ⟨?_, ?_⟩
  · -- the incremental engine
    have hfine : FineM .dcg (⟨[], []⟩ : SSt E M) (.stack :: ops.map (Fill.ev 0)) := by
      refine .inr ⟨?_, ?_⟩
      · intro ev hev
        rcases List.mem_cons.1 hev with rfl | hev
        · rfl
        · obtain ⟨op, -, rfl⟩ := List.mem_map.1 hev
          cases op <;> rfl
      · have e1 : (SEv.stack :: ops.map (Fill.ev 0) : List (SEv E (RazMeta.Index E M))).flatMap (evN .dcg) = ops.flatMap Fill.names := by
          rw [List.flatMap_cons, List.flatMap_map]
          show [] ++ _ = _
          rw [List.nil_append]
          congr
          funext op
          cases op <;> rfl
        rw [e1]
        exact (List.nodup_append.1 hd).1
    have h1 := mrun_sim _ (RepM.empty (E := E) (M := M)) hfine
    rw [hr0] at h1
    obtain ⟨⟨hst, outs⟩, σ1, ⟨f1, hf1⟩, hrep, -⟩ := h1
    obtain ⟨hvs, hss⟩ := hst
    have hss1 := hrep.stacks
    simp only at hss1 hrep
    obtain ⟨hs, rfl, hA⟩ : ∃ hs, hss = [some hs] ∧ RepA .dcg σ1 hs (ops.foldl fillStep AStack.new) := by
      have h2 := hss1.1
      have h3 := hss1.2 0
      rcases hss with _ | ⟨o, _ | ⟨o', r⟩⟩
      · cases h2
      · cases o with
        | none => exact h3.elim
        | some hs => exact ⟨hs, rfl, h3⟩
      · simp at h2
    have hsub : Sub (sN .dcg (ops.foldl fillStep AStack.new).archived) (ops.flatMap Fill.names) := by
      have := fill_names ops AStack.new
      simpa [AStack.new, sN] using this
    have hnd : (sN .dcg (ops.foldl fillStep AStack.new).archived).Nodup := count_nodup fun x =>
      Nat.le_trans (hsub x) (nodup_count (List.nodup_append.1 hd).1 x)
    have h2 := conv_sim hA hnd w
    rw [hc1] at h2
    obtain ⟨ht, σ2, ⟨f2, hf2⟩, hT, -, hK⟩ := h2
    have hbr : Broken σ2 (sN .dcg (ops.foldl fillStep AStack.new).archived) (ops.foldl fillStep AStack.new).archived.length hs.archived := by
      refine broken_after (fun n hn => ?_) hK hA.arch (List.Subset.refl _) hn
      obtain ⟨lev, hm⟩ := hm1 n (side_names hn)
      exact tree_cells hT.tree (mark_names hm)
    obtain ⟨s', σ3, N', k', as3, hf3, hbr'⟩ := fill_broken (M := M) ops' (hvs ++ [some (.tree ht)]) hs σ2 _ _ hbr (count_nodup fun x => by
      have a := hsub x
      have b := nodup_count hd x
      simp only [List.count_append] at b ⊢; omega)
    obtain ⟨p, hp⟩ := conv_broken .dcg w' hbr'
    refine ⟨p, max (max f1 f2) (k' + 1), fun f hf => ?_⟩
    have q1 := hf1 f (by omega)
    have q2 := hf2 f (by omega)
    have q3 := hf3 f
    have q4 := hp f (by omega)
    have r4 : HSSt.run .dcg (⟨hvs ++ [some (.tree ht)], [none, some s']⟩ : HSSt E M) [.conv w' 1] f σ3 = .error p := by
      rw [HSSt.run]
      exact run_err (run_err q4)
    have r3 := hrun_append (e := .dcg) (ops'.map (Fill.ev 1)) [.conv w' 1] q3 r4
    have r2 : HSSt.run .dcg (⟨hvs, [some hs]⟩ : HSSt E M) (.sclone 0 :: .conv w 0 :: (ops'.map (Fill.ev 1) ++ [.conv w' 1])) f σ1 = .error p := by
      rw [HSSt.run]
      refine (run_ok (a := (⟨hvs, [some hs, some hs]⟩, .unit)) (σ' := σ1) rfl).trans (run_err ?_)
      rw [HSSt.run]
      refine (run_ok (a := (⟨hvs ++ [some (.tree ht)], [none, some hs]⟩, .unit)) (σ' := σ2) ?_).trans (run_err r3)
      exact (run_ok q2).trans rfl
    have r1 := hrun_append (e := .dcg) (.stack :: ops.map (Fill.ev 0)) _ q1 r2
    show (HSSt.run .dcg _ (rerun w ops w' ops') f Store.empty).map _ = _
    unfold rerun
    rw [List.cons_append] at r1
    rw [r1]
    rfl
  · -- the functional engine
    have h1 := C64_memo_from_partial (M := M) (e := .naive) (l := rerun w ops w' ops') (.inl rfl)
    obtain ⟨as3, hr3⟩ := fill_run (M := M) 1 ops' ([] ++ [some (.tree t1)]) [none, some (ops.foldl fillStep AStack.new)] (ops.foldl fillStep AStack.new) rfl
    have hr4 : SSt.run (⟨[] ++ [some (.tree t1)], [none, some (ops'.foldl fillStep (ops.foldl fillStep AStack.new))]⟩ : SSt E M) [.conv w' 1] =
        .ok (⟨[] ++ [some (.tree t1)] ++ [some (.tree t2)], [none, none]⟩, [.unit]) := by
      have : SSt.step (⟨[] ++ [some (.tree t1)], [none, some (ops'.foldl fillStep (ops.foldl fillStep AStack.new))]⟩ : SSt E M) (.conv w' 1) =
          .ok (⟨[] ++ [some (.tree t1)] ++ [some (.tree t2)], [none, none]⟩, .unit) := by
        show (do let t ← w'.conv _; return _ : P _) = _
        rw [hc2]; rfl
      exact mrun_cons this rfl
    have hr5 := mrun_append _ _ hr3 hr4
    have hr6 : SSt.run (⟨[], [some (ops.foldl fillStep AStack.new)]⟩ : SSt E M) (.sclone 0 :: .conv w 0 :: (ops'.map (Fill.ev 1) ++ [.conv w' 1])) =
        .ok (⟨[] ++ [some (.tree t1)] ++ [some (.tree t2)], [none, none]⟩, .unit :: .unit :: (as3 ++ [.unit])) := by
      have k1 : SSt.step (⟨[], [some (ops.foldl fillStep AStack.new)]⟩ : SSt E M) (.sclone 0) =
        .ok (⟨[], [some (ops.foldl fillStep AStack.new), some (ops.foldl fillStep AStack.new)]⟩, .unit) := rfl
      have k2 : SSt.step (⟨[], [some (ops.foldl fillStep AStack.new), some (ops.foldl fillStep AStack.new)]⟩ : SSt E M) (.conv w 0) =
          .ok (⟨[] ++ [some (.tree t1)], [none, some (ops.foldl fillStep AStack.new)]⟩, .unit) := by
        show (do let t ← w.conv _; return _ : P _) = _
        rw [hc1]; rfl
      exact mrun_cons k1 (mrun_cons k2 hr5)
    have hr7 := mrun_append _ _ hr0 hr6
    have hm : sevAnswers M (rerun w ops w' ops') = .ok ((.unit :: as1) ++ (.unit :: .unit :: (as3 ++ [.unit]))) := by
      unfold sevAnswers
      have hq : (rerun w ops w' ops' : List (SEv E (RazMeta.Index E M))) = (.stack :: ops.map (Fill.ev 0)) ++
        (.sclone 0 :: .conv w 0 :: (ops'.map (Fill.ev 1) ++ [.conv w' 1])) := rfl
      rw [hq, hr7]
      rfl
    exact ⟨_, hm ▸ h1⟩

/-! ### Instances -/

/-- A client that fills two stacks with names and levels, converts both, joins and reads. -/
def exConv : List (SEv Nat (RazMeta.Index Nat Count)) :=
  [.stack, .spush 0 1, .spush 0 2, .sarch 0 (some (.str "a")) 2, .spush 0 3, .sarch 0 none 1, .spush 0 4,
   .stack, .spush 1 5, .sarch 1 (some (.str "b")) 4, .spush 1 6, .conv .tail 0, .conv .head 1,
   .stmt (.join 0 3 (some (.str "c")) 1), .stmt (.op 1 .focusLeft), .stmt (.op 1 .popR), .stmt (.op 1 .popR), .stmt (.op 1 .popR),
   .stmt (.op 1 .popR), .stmt (.op 1 .popR), .stmt (.op 1 .popR), .stmt (.op 1 .popR)]

/-- A client without names that keeps a stack and converts it in both ways. -/
def exConvClone : List (SEv Nat (RazMeta.Index Nat Count)) :=
  [.stack, .spush 0 1, .sarch 0 none 2, .spush 0 2, .sclone 0, .conv .tail 0, .spush 1 3, .conv .head 1,
   .stmt (.op 0 .focusLeft), .stmt (.op 0 .popR), .stmt (.op 1 .focusLeft), .stmt (.op 1 .popR)]

example : (SSafe .dcg exConv ∧ (∀ ev ∈ exConv, ev.LevelOK) ∧ Tops [] exConv ∧ ∃ as, SEvAnswers (M := Count) .dcg exConv (.ok as) ∧
      as.drop 15 = [.val (some 1), .val (some 2), .val (some 3), .val (some 4), .val (some 6), .val (some 5), .val none]) ∧
    SSafe .dcg exConvClone ∧ (∀ ev ∈ exConvClone, ev.LevelOK) ∧ Tops [] exConvClone ∧ ∃ as, SEvAnswers (M := Count) .dcg exConvClone (.ok as) ∧
      as.drop 9 = [.val (some 1), .unit, .val (some 3)] := by
  have h1 : SSafe .dcg exConv := by
    refine .inr (.inr ⟨?_, ?_, ?_⟩)
    · decide
    · intro n hn m
      have : n ∈ [Name.str "a", .str "b", .str "c"] := hn
      simp at this
      rcases this with rfl | rfl | rfl <;> simp
    · decide
  have h2 : SSafe .dcg exConvClone := .inr (.inl rfl)
  have a1 : sevAnswers Count exConv = .ok (List.replicate 13 .unit ++ [.found true, .unit, .val (some 1), .val (some 2), .val (some 3),
    .val (some 4), .val (some 6), .val (some 5), .val none]) := by decide +kernel
  have a2 : sevAnswers Count exConvClone = .ok (List.replicate 9 .unit ++ [.val (some 1), .unit, .val (some 3)]) := by decide +kernel
  refine ⟨⟨h1, ?_, ?_, _, a1 ▸ C64_memo_from_partial h1, rfl⟩, h2, ?_, ?_, _, a2 ▸ C64_memo_from_partial h2, rfl⟩
  · intro ev hev
    simp only [exConv, List.mem_cons, List.not_mem_nil, or_false] at hev
    rcases hev with rfl | rfl | rfl | rfl | rfl | rfl | rfl | rfl | rfl | rfl | rfl | rfl | rfl | rfl | rfl | rfl | rfl | rfl | rfl | rfl | rfl | rfl <;>
      simp [SEv.LevelOK, Cmd.LevelOK, ApiOp.LevelOK, u32Max]
  · simp [exConv, Tops]
  · intro ev hev
    simp only [exConvClone, List.mem_cons, List.not_mem_nil, or_false] at hev
    rcases hev with rfl | rfl | rfl | rfl | rfl | rfl | rfl | rfl | rfl | rfl | rfl | rfl <;>
      simp [SEv.LevelOK, Cmd.LevelOK, ApiOp.LevelOK, u32Max]
  · simp [exConvClone, Tops]

/-- A stack with one archive point that has no name and one that has one, and a continuation with a new name. -/
def exFill : List (Fill Nat) := [.push 1, .archive (some (.str "a")) 2, .push 2, .archive none 1, .push 3]
/-- The continuation. -/
def exFill' : List (Fill Nat) := [.push 4, .archive (some (.str "b")) 3, .push 5]

example : (∀ op ∈ exFill ++ exFill', op.LevelOK) ∧ ((exFill ++ exFill').flatMap Fill.names).Nodup ∧
    (∃ p ∈ (fillStack exFill).archived, p.1.isSome = true) ∧
    (∃ p, SEvAnswers (M := Count) .dcg (rerun .tail exFill .head exFill') (.error p)) := by
  have h1 : ∀ op ∈ exFill ++ exFill', op.LevelOK := by
    intro op hop
    simp only [exFill, exFill', List.mem_cons, List.mem_append, List.not_mem_nil, or_false] at hop
    rcases hop with (rfl | rfl | rfl | rfl | rfl) | rfl | rfl | rfl <;> simp [Fill.LevelOK, u32Max]
  have h2 : ((exFill ++ exFill').flatMap Fill.names).Nodup := by decide
  have h3 : ∃ p ∈ (fillStack exFill).archived, p.1.isSome = true := ⟨(some (.str "a"), 2, [1]), by decide, rfl⟩
  exact ⟨h1, h2, h3, (C64_rerun_panics (M := Count) .tail .head h1 h2 h3).1⟩

end Iodyn.Heap
