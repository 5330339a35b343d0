import Verif.Proof.IncrMemoFrom
import Verif.Props.HeapMemoFrom
/-
C70 the memoised `memo_from`.
-/
namespace Iodyn.Incr
open Iodyn.Heap
variable {E M : Type}

/-! ### C70 -/

section
variable [RazMeta E M] [DecidableEq E] [DecidableEq M]

/-- **C70.** In a namespace in which any stacks from any stores were converted before, from either end, converting a stack gives a handle
behind which is the tree that converting from scratch gives, or the panic of converting from scratch. -/
theorem C70_convert_again {sp : FSpace E M} (hc : Converted sp) {σ : RMem E M} {hs : ASt E} {s : AStack E Nat} (hv : AView σ hs s)
    (hn : (stackNames s).Nodup) (w : End) :
    (∀ q, (w.conv s : P (RazTree E M)) = .error q → ∀ f, s.archived.length + 1 ≤ f → memoFromIn w hs sp f σ = .error q) ∧
    (∀ b : RazTree E M, w.conv s = .ok b → ∃ h sp', (∀ f, s.archived.length + 1 ≤ f → memoFromIn w hs sp f σ = .ok ((⟨b.info, h⟩, sp'), σ)) ∧
      ∃ v, View sp'.mem h v ∧ plain v = b.tree) := by
  have h1 := memoFromIn_run hc.inv w hv hn
  constructor
  · intro q hq
    rw [hq] at h1
    exact h1
  · intro b hb
    rw [hb] at h1
    obtain ⟨h, sp', k1, -, k3⟩ := h1
    exact ⟨h, sp', k1, k3⟩

/-- **C70, the same stack again.** Converting a stack a second time runs no body at all and changes nothing in the namespace: the result is
the handle of the first time. (If the last archive point has no name, its part is not memoised.) -/
theorem C70_same_again {sp : FSpace E M} (hc : Converted sp) {σ : RMem E M} {hs : ASt E} {s : AStack E Nat} (hv : AView σ hs s)
    (hn : (stackNames s).Nodup) (hm : s.archived = [] ∨ s.name ≠ none) {w : End} {n : Nat} {o} (ho : memoFromRun w σ n hs sp = some (.ok o))
    (n' : Nat) : ∃ o', memoFromRun w σ n' hs o.space = some (.ok o') ∧ o'.val = o.val ∧ o'.space = o.space ∧ o'.work = 0 :=
  ⟨_, conv_again hc.inv hv hn hm ho n', rfl, rfl, rfl⟩

/-- **C70, clients.** A client fills archive stacks, makes, edits and reads sequences, and converts stacks, which it goes on using, in any
order, with the incremental engine. Every conversion is memoised, in a namespace, and reuses the calls that earlier ones have stored.
Every tree that it makes, read in full, and a panic at the end, is that of converting from scratch. -/
theorem C70_client {l : List (FEv E (RazMeta.Index E M))} (hs : SSafe .dcg (FEv.evs l)) : FEvAnswers (M := M) l (fevAnswers (M := M) l) :=
  fevAnswers_of_fine l (ssafe_fine hs)

theorem fevAnswers_unique {l : List (FEv E (RazMeta.Index E M))} {r r' : P (List (FAns E M))} (h : FEvAnswers (M := M) l r)
    (h' : FEvAnswers (M := M) l r') : r = r' := by
  obtain ⟨f, hf⟩ := h
  obtain ⟨g, hg⟩ := h'
  rw [← hf (max f g) (Nat.le_max_left _ _), hg (max f g) (Nat.le_max_right _ _)]
end

/-- What a client sees with plain lists. -/
inductive LFAns (E : Type) where
  | out (o : Out E)
  | made (l : List E)
  | bad
deriving DecidableEq

/-- An event with plain lists. -/
inductive LFEv {I : Type} : LSSt E → FEv E I → LFAns E → LSSt E → Prop
  | ev {st st' x o} : LSEv st x o st' → LFEv st (.ev x) (.out o) st'
  | conv {st p w j l} : st.stacks[j]? = some (some l) → LFEv st (.conv p w j) (.made (w.list l)) st
  | bad {st p w j} : (∀ l, st.stacks[j]? ≠ some (some l)) → LFEv st (.conv p w j) .bad st

/-- Events with plain lists. -/
inductive LFEvs {I : Type} : LSSt E → List (FEv E I) → List (LFAns E) → LSSt E → Prop
  | nil (st) : LFEvs st [] [] st
  | cons {st st' st'' ev l a as} : LFEv st ev a st' → LFEvs st' l as st'' → LFEvs st (ev :: l) (a :: as) st''

/-- The elements of an answer. -/
def _root_.Iodyn.FAns.read : FAns E M → Option (LFAns E)
  | .out o => some (.out o)
  | .made t => some (.made t.elems)
  | .bad => some .bad
  | .lost => none

section
variable [RazMeta E M]

theorem conv_elems {w : End} {s : AStack E Nat} {t : RazTree E M} (hb : s.Built (fun n => 1 ≤ n ∧ n < u32Max)) (hc : w.conv s = .ok t) :
    t.elems = w.list (readStack s) := by
  cases w with
  | tail =>
    obtain ⟨t', h1, -, h3⟩ := C17_memo_from_tail (M := M) hb
    cases h1.symm.trans hc
    exact h3
  | head =>
    obtain ⟨t', h1, -, h3⟩ := C18_memo_from_head (M := M) (built_mono (fun n h => ⟨h.1, Nat.le_of_lt h.2⟩) hb)
    cases h1.symm.trans hc
    rw [h3]; simp [End.list, readStack]

theorem lists_fevs [LawfulMeta E M] (l : List (FEv E (RazMeta.Index E M))) :
    ∀ {st st' : SSt E M} {as : List (FAns E M)}, AllReach st.vars → AllBuilt st.stacks → (∀ x ∈ FEv.evs l, x.LevelOK) →
      Tops (topBits st.stacks) (FEv.evs l) → st.fevs l = .ok (st', as) →
      ∃ bs, as.map FAns.read = bs.map some ∧
        LFEvs ⟨readVars st.vars, readStacks st.stacks⟩ l bs ⟨readVars st'.vars, readStacks st'.stacks⟩ := by
  induction l with
  | nil =>
    intro st st' as _ _ _ _ hr
    cases hr
    exact ⟨[], rfl, .nil _⟩
  | cons ev l ih =>
    intro st st' as h hb hl ht hr
    obtain ⟨⟨s1, a⟩, h1, hr⟩ := bind_ok.1 hr
    obtain ⟨⟨s2, as⟩, h2, hr⟩ := bind_ok.1 hr
    cases hr
    cases ev with
    | ev x =>
      obtain ⟨⟨s3, o⟩, h3, h4⟩ := bind_ok.1 h1
      cases h4
      obtain ⟨k1, k2, k3, k4⟩ := lists_sev h hb (hl x (by simp [FEv.evs])) ht h3
      obtain ⟨bs, q1, q2⟩ := ih k2 k3 (fun y hy => hl y (by simp [FEv.evs, hy])) k4 h2
      exact ⟨.out o :: bs, by simp [FAns.read, q1], .cons (.ev k1) q2⟩
    | conv p w j =>
      simp only [SSt.fev] at h1
      split at h1
      · next s hj =>
        obtain ⟨t, h3, h4⟩ := bind_ok.1 h1
        cases h4
        obtain ⟨bs, q1, q2⟩ := ih h hb hl ht h2
        refine ⟨.made (w.list (readStack s)) :: bs, by simp [FAns.read, q1, conv_elems (hb j s hj) h3], .cons (.conv ?_) q2⟩
        simp only [readStacks_get, hj]
        rfl
      · next hno =>
        cases h1
        obtain ⟨bs, q1, q2⟩ := ih h hb hl ht h2
        exact ⟨.bad :: bs, by simp [FAns.read, q1], .cons (.bad (readStacks_bad hno)) q2⟩

/-- **C70, on plain lists.** The elements of every tree made are those pushed on the stack so far: in this order for `AtTail`, in the
reverse order for `AtHead`. -/
theorem C70_lists [LawfulMeta E M] [DecidableEq E] [DecidableEq M] {l : List (FEv E (RazMeta.Index E M))} (hs : SSafe .dcg (FEv.evs l))
    (hl : ∀ x ∈ FEv.evs l, x.LevelOK) (ht : Tops [] (FEv.evs l)) {as : List (FAns E M)} (ha : FEvAnswers (M := M) l (.ok as)) :
    ∃ bs st, as.map FAns.read = bs.map some ∧ LFEvs ⟨[], []⟩ l bs st := by
  have := fevAnswers_unique ha (C70_client hs)
  unfold fevAnswers at this
  cases hr : SSt.fevs (⟨[], []⟩ : SSt E M) l with
  | error p => rw [hr] at this; cases this
  | ok x =>
    obtain ⟨st, as'⟩ := x
    rw [hr] at this
    cases this
    obtain ⟨bs, h1, h2⟩ := lists_fevs l (st := ⟨[], []⟩) (fun i s hi => by simp at hi) (fun i s hi => by simp at hi) hl ht hr
    exact ⟨bs, _, h1, h2⟩
end

/-! ### Examples -/

/-- Two archive points. -/
def exHeadA : Head := ⟨some (.str "a"), .named (.str "a") []⟩
def exHeadB : Head := ⟨some (.str "b"), .named (.str "b") []⟩
def exCells : RMem Nat Count :=
  ((Store.empty.cell .dcg (.str "a") (.body (3, [1, 2]) none)).1.cell .dcg (.str "b") (.body (2, [3, 4]) (some exHeadA))).1
/-- The stack with the elements 1 to 5. -/
def exStack : ASt Nat := ⟨[5], some exHeadB⟩
def exStackV : AStack Nat Nat := ⟨[5], [(some (.str "b"), 2, [3, 4]), (some (.str "a"), 3, [1, 2])]⟩

theorem exStack_view : AView exCells exStack exStackV :=
  ⟨rfl, .cons (h := exHeadB) (by decide +kernel) (.cons (h := exHeadA) (by decide +kernel) .nil)⟩

/-- The same stack after another archive point and the element 6. -/
def exCells2 : RMem Nat Count := (exCells.cell .dcg (.str "c") (.body (5, [5]) (some exHeadB))).1
def exStack2 : ASt Nat := ⟨[6], some ⟨some (.str "c"), .named (.str "c") []⟩⟩
def exStackV2 : AStack Nat Nat := ⟨[6], (some (.str "c"), 5, [5]) :: exStackV.archived⟩

theorem exStack_view2 : AView exCells2 exStack2 exStackV2 :=
  ⟨rfl, .cons (h := ⟨some (.str "c"), .named (.str "c") []⟩) (by decide +kernel)
    (.cons (h := exHeadB) (by decide +kernel) (.cons (h := exHeadA) (by decide +kernel) .nil))⟩

/-- What a conversion gives: the number of bodies run, and the levels. -/
def exWork (sp : FSpace Nat Count) (w : End) (σ : RMem Nat Count) (hs : ASt Nat) : Option (Nat × FSpace Nat Count) :=
  match memoFromRun w σ 10 hs sp with
  | some (.ok o) => some (o.work, o.space)
  | _ => none

/-- The first conversion runs one body for each archive point, the second of the same stack none. -/
example : ∃ o, memoFromRun .tail exCells 10 exStack (Space.empty : FSpace Nat Count) = some (.ok o) ∧ o.work = 2 ∧
    ∃ o', memoFromRun .tail exCells 0 exStack o.space = some (.ok o') ∧ o'.val = o.val ∧ o'.space = o.space ∧ o'.work = 0 := by
  have h : ∃ o, memoFromRun .tail exCells 10 exStack (Space.empty : FSpace Nat Count) = some (.ok o) ∧ o.work = 2 := by
    cases h : memoFromRun .tail exCells 10 exStack (Space.empty : FSpace Nat Count) with
    | none =>
      have : (exWork Space.empty .tail exCells exStack).isSome = true := by decide +kernel
      rw [exWork, h] at this; cases this
    | some x =>
      have : (exWork Space.empty .tail exCells exStack).map (·.1) = some 2 := by decide +kernel
      rw [exWork, h] at this
      cases x with
      | error q => cases this
      | ok o => exact ⟨o, rfl, by simpa using this⟩
  obtain ⟨o, h1, h2⟩ := h
  exact ⟨o, h1, h2, C70_same_again .start exStack_view (by decide +kernel) (.inr (by decide +kernel)) h1 0⟩

/-- In the namespace of the first conversion, converting the longer stack gives the tree with the elements 1 to 6. -/
example : ∃ (sp : FSpace Nat Count), Converted sp ∧ sp.table (.forkL (.str "b")) ≠ none ∧
    ∃ b h sp', End.tail.conv exStackV2 = .ok b ∧ b.elems = [1, 2, 3, 4, 5, 6] ∧ memoFromIn .tail exStack2 sp 4 exCells2 = .ok ((⟨b.info, h⟩, sp'), exCells2) ∧
      ∃ v, View sp'.mem h v ∧ plain v = b.tree := by
  cases h : memoFromRun .tail exCells 10 exStack (Space.empty : FSpace Nat Count) with
  | none =>
    have : (exWork Space.empty .tail exCells exStack).isSome = true := by decide +kernel
    rw [exWork, h] at this; cases this
  | some x =>
    have : (exWork Space.empty .tail exCells exStack).map (fun x => (x.2.table (.forkL (.str "b"))).isSome) = some true := by decide +kernel
    rw [exWork, h] at this
    cases x with
    | error q => cases this
    | ok o =>
      have hc : Converted o.space := .conv .start exStack_view (by decide +kernel) h
      refine ⟨o.space, hc, ?_, ?_⟩
      · intro hn
        simp [hn] at this
      · have hk : (End.tail.conv exStackV2 : P (RazTree Nat Count)).map (·.elems) = .ok [1, 2, 3, 4, 5, 6] := by decide +kernel
        cases hb : (End.tail.conv exStackV2 : P (RazTree Nat Count)) with
        | error q => rw [hb] at hk; cases hk
        | ok b =>
          rw [hb] at hk
          obtain ⟨h, sp', h1, h2⟩ := (C70_convert_again hc exStack_view2 (by decide +kernel) .tail).2 b hb
          exact ⟨b, h, sp', rfl, by simpa [Except.map] using hk, h1 4 (by decide +kernel), h2⟩

/-- A client that fills a stack, converts it, fills it further and converts it again, from both ends, in one namespace; cf.
`C64_rerun_panics`. -/
def exFEvs : List (FEv Nat (RazMeta.Index Nat Count)) :=
  [.ev .stack, .ev (.spush 0 1), .ev (.spush 0 2), .ev (.sarch 0 (some (.str "a")) 3), .ev (.spush 0 3), .ev (.sarch 0 (some (.str "b")) 2),
   .ev (.spush 0 4), .conv (.str "t") .tail 0, .conv (.str "t") .head 0, .ev (.sarch 0 (some (.str "c")) 5), .ev (.spush 0 5),
   .conv (.str "t") .tail 0, .conv (.str "t") .head 0, .conv (.str "t") .tail 1]

theorem exFEvs_safe : SSafe .dcg (FEv.evs exFEvs) ∧ (∀ x ∈ FEv.evs exFEvs, x.LevelOK) ∧ Tops [] (FEv.evs exFEvs) := by
  refine ⟨.inr (.inr ⟨?_, ?_, ?_⟩), ?_, ?_⟩
  · simp [exFEvs, FEv.evs, SEv.names]
  · simp [exFEvs, FEv.evs, SEv.names]
  · simp [exFEvs, FEv.evs, SEv.isClone]
  · simp [exFEvs, FEv.evs, SEv.LevelOK, u32Max]
  · simp [exFEvs, FEv.evs, Tops]

example : ∃ as, FEvAnswers (M := Count) exFEvs (.ok as) ∧
    as.filterMap FAns.read = [.out .unit, .out .unit, .out .unit, .out .unit, .out .unit, .out .unit, .out .unit, .made [1, 2, 3, 4], .made [4, 3, 2, 1],
      .out .unit, .out .unit, .made [1, 2, 3, 4, 5], .made [5, 4, 3, 2, 1], .bad] ∧
    ∃ bs st, as.map FAns.read = bs.map some ∧ LFEvs ⟨[], []⟩ exFEvs bs st := by
  have h1 := C70_client (M := Count) exFEvs_safe.1
  have h2 : (fevAnswers (M := Count) exFEvs).map (fun as => as.filterMap FAns.read) = .ok [.out .unit, .out .unit, .out .unit, .out .unit, .out .unit,
      .out .unit, .out .unit, .made [1, 2, 3, 4], .made [4, 3, 2, 1], .out .unit, .out .unit, .made [1, 2, 3, 4, 5], .made [5, 4, 3, 2, 1], .bad] := by
    decide +kernel
  cases h : fevAnswers (M := Count) exFEvs with
  | error q => rw [h] at h2; cases h2
  | ok as =>
    rw [h] at h1 h2
    exact ⟨as, h1, by simpa [Except.map] using h2, C70_lists exFEvs_safe.1 exFEvs_safe.2.1 exFEvs_safe.2.2 h1⟩

end Iodyn.Incr
