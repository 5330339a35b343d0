import Verif.Proof.Stack
import Verif.Spec.StackApi
/-
C25–C28: archive stacks and cons-list stacks.
-/
set_option linter.unusedSimpArgs false

namespace Iodyn
variable {E M : Type}

/-- Reading a stack as items. -/
def sItems (s : AStack E M) : List (SItem E M) :=
  s.current.reverse.map .elem ++ s.archived.flatMap (fun p => .arch p.1 p.2.1 :: p.2.2.reverse.map .elem)

theorem topSegment_elems (v : List E) (l : List (SItem E M)) :
    topSegment (v.map .elem ++ l) = (v ++ (topSegment l).1, (topSegment l).2) := by
  induction v with
  | nil => rfl
  | cons e v ih => simp [topSegment, ih]

theorem topSegment_arch (a : Stack (M × List E)) :
    topSegment (a.flatMap (fun p => SItem.arch p.1 p.2.1 :: p.2.2.reverse.map SItem.elem)) =
      ([], a.flatMap (fun p => SItem.arch p.1 p.2.1 :: p.2.2.reverse.map SItem.elem)) := by
  cases a with
  | nil => rfl
  | cons p a => rfl

theorem topSegment_sItems (s : AStack E M) :
    topSegment (sItems s) = (s.current.reverse, s.archived.flatMap (fun p => .arch p.1 p.2.1 :: p.2.2.reverse.map .elem)) := by
  rw [sItems, topSegment_elems, topSegment_arch]; simp

theorem sItems_isEmpty (s : AStack E M) : s.isEmpty = (sItems s).isEmpty := by
  obtain ⟨cur, arch⟩ := s
  cases cur with
  | nil => cases arch <;> rfl
  | cons e cur =>
    simp [AStack.isEmpty, sItems]

theorem getLast_cons_reverse {v : List E} (hv : v ≠ []) : ∃ e w, v.reverse = e :: w ∧ v.getLast? = some e ∧ v.dropLast = w.reverse := by
  obtain ⟨e, w, h⟩ := List.exists_cons_of_ne_nil (List.reverse_eq_nil_iff.not.2 hv)
  have : v = w.reverse ++ [e] := by
    have := congrArg List.reverse h
    simpa using this
  refine ⟨e, w, h, ?_, ?_⟩ <;> simp [this]

/-- `pop_meta` on a well-formed stack. -/
theorem popMeta_spec {s : AStack E M} (h : StackP (fun _ => True) s) :
    ∃ s' o, s.popMeta = .ok (s', o) ∧ s.pop = .ok (s', o.map Prod.fst) ∧
      specStep (sItems s) .popMeta = (sItems s', .valMeta o) ∧ specStep (sItems s) .pop = (sItems s', .val (o.map Prod.fst)) ∧
      StackP (fun _ => True) s' := by
  obtain ⟨cur, arch⟩ := s
  by_cases hc : cur = []
  · subst hc
    cases arch with
    | nil => exact ⟨_, none, rfl, rfl, rfl, rfl, h⟩
    | cons p arch =>
      obtain ⟨nm, m, v⟩ := p
      have hv : v ≠ [] := (h _ (List.mem_cons_self ..)).2
      obtain ⟨e, w, h1, h2, h3⟩ := getLast_cons_reverse hv
      refine ⟨⟨w.reverse, arch⟩, some (e, some m), ?_, ?_, ?_, ?_, fun p hp => h p (List.mem_cons_of_mem _ hp)⟩
      · simp [AStack.popMeta, AStack.isEmpty, Stack.isEmpty, AStack.retrieve, Stack.peek, Stack.pull, unwrap, bind, Except.bind,
          pure, Except.pure, AStack.popCurrent, h2, h3]
      · simp [AStack.pop, AStack.isEmpty, Stack.isEmpty, AStack.retrieve, Stack.peek, Stack.pull, unwrap, bind, Except.bind,
          pure, Except.pure, AStack.popCurrent, h2, h3]
      · simp only [sItems, List.reverse_nil, List.map_nil, List.nil_append, List.flatMap_cons, h1, List.map_cons, List.cons_append,
          specStep, List.reverse_reverse, Option.map_some]
      · simp only [sItems, List.reverse_nil, List.map_nil, List.nil_append, List.flatMap_cons, h1, List.map_cons, List.cons_append,
          specStep, List.reverse_reverse, Option.map_some]
  · obtain ⟨e, w, h1, h2, h3⟩ := getLast_cons_reverse hc
    refine ⟨⟨w.reverse, arch⟩, some (e, none), ?_, ?_, ?_, ?_, h⟩
    · simp [AStack.popMeta, AStack.isEmpty, AStack.retrieve, hc, bind, Except.bind,
          pure, Except.pure, AStack.popCurrent, h2, h3]
    · simp [AStack.pop, AStack.isEmpty, AStack.retrieve, hc, bind, Except.bind,
          pure, Except.pure, AStack.popCurrent, h2, h3]
    · simp only [sItems, List.reverse_nil, List.map_nil, List.nil_append, List.flatMap_cons, h1, List.map_cons, List.cons_append,
          specStep, List.reverse_reverse, Option.map_some]
    · simp only [sItems, List.reverse_nil, List.map_nil, List.nil_append, List.flatMap_cons, h1, List.map_cons, List.cons_append,
          specStep, List.reverse_reverse, Option.map_some]

theorem sItems_elems (s : AStack E M) : (sItems s).filterMap SItem.elem? = s.elems := by
  obtain ⟨cur, arch⟩ := s
  have he : ∀ v : List E, (v.map (SItem.elem (M := M))).filterMap SItem.elem? = v := by
    intro v; induction v with
    | nil => rfl
    | cons e v ih => simp [SItem.elem?] at ih ⊢; exact ih
  simp only [sItems, AStack.elems, List.filterMap_append, he]
  congr 1
  induction arch with
  | nil => rfl
  | cons p arch ih =>
    simp only [List.flatMap_cons, List.filterMap_append, List.filterMap_cons, SItem.elem?, ih]
    congr 1
    exact he _

theorem specPop_elems (l : List (SItem E M)) {l' o} (h : specStep l (.pop) = (l', .val o)) (hne : o = none → l.filterMap SItem.elem? = []) :
    l.filterMap SItem.elem? = o.elim [] (fun e => e :: l'.filterMap SItem.elem?) := by
  cases l with
  | nil => simp [specStep] at h; obtain ⟨-, rfl⟩ := h; rfl
  | cons i l =>
    cases i with
    | elem e => simp [specStep] at h; obtain ⟨rfl, rfl⟩ := h; rfl
    | arch nm m =>
      cases l with
      | nil => simp [specStep] at h; obtain ⟨-, rfl⟩ := h; rfl
      | cons j l =>
        cases j with
        | elem e => simp [specStep] at h; obtain ⟨rfl, rfl⟩ := h; rfl
        | arch => simp [specStep] at h; obtain ⟨-, rfl⟩ := h; exact hne rfl

theorem drain_spec (n : Nat) : ∀ {s : AStack E M}, StackP (fun _ => True) s → s.elems.length < n → s.drain n = .ok s.elems := by
  induction n with
  | zero => intro s _ h; omega
  | succ n ih =>
    intro s h hn
    obtain ⟨s', o, h1, h2, h3, h4, h5⟩ := popMeta_spec h
    have hnone : o = none → s.elems = [] := by
      rintro rfl
      obtain ⟨cur, arch⟩ := s
      by_cases hc : cur = []
      · subst hc
        cases arch with
        | nil => rfl
        | cons p arch =>
          exfalso
          obtain ⟨nm, m, v⟩ := p
          have hv : v ≠ [] := (h _ (List.mem_cons_self ..)).2
          obtain ⟨e, w, g1, g2, g3⟩ := getLast_cons_reverse hv
          simp [sItems, List.flatMap_cons, ← List.map_reverse, g1, specStep] at h4
      · obtain ⟨e, w, g1, g2, g3⟩ := getLast_cons_reverse hc
        simp [sItems, List.flatMap_cons, ← List.map_reverse, g1, specStep] at h4
    have := specPop_elems (sItems s) h4 (by rw [sItems_elems]; intro he; exact hnone (by simpa using he))
    rw [sItems_elems] at this
    unfold AStack.drain
    rw [h2]
    cases o with
    | none => simp at this; simp [bind, Except.bind, pure, Except.pure, this]
    | some x =>
      simp only [Option.map_some, Option.elim] at this
      rw [sItems_elems] at this
      have hi := ih h5 (by rw [this] at hn; simp at hn; omega)
      simp only [bind, Except.bind, Option.map_some, hi, this]; rfl

theorem elems_length (s : AStack E M) : s.elems.length = s.current.length + (s.archived.map (fun p => p.2.2.length)).sum := by
  obtain ⟨cur, arch⟩ := s
  simp [AStack.elems, List.length_flatMap]

/-- One call agrees with the specification. -/
theorem step_spec {s : AStack E M} (h : StackP (fun _ => True) s) (op : SOp E M) :
    ∃ s', s.step op = .ok (s', (specStep (sItems s) op).2) ∧ sItems s' = (specStep (sItems s) op).1 ∧ StackP (fun _ => True) s' := by
  cases op with
  | push e => exact ⟨_, rfl, by simp [sItems, AStack.push, specStep], h⟩
  | extend v => exact ⟨_, rfl, by simp [sItems, AStack.extend, specStep], h⟩
  | extendRev v =>
    refine ⟨_, rfl, ?_, h⟩
    simp only [specStep, topSegment_sItems]
    simp [sItems, AStack.extendRev]
  | archive nm m =>
    obtain ⟨cur, arch⟩ := s
    by_cases hc : cur = []
    · subst hc
      refine ⟨⟨[], arch⟩, ?_, ?_, h⟩
      · cases arch with
        | nil => rfl
        | cons p arch => rfl
      · cases arch with
        | nil => rfl
        | cons p arch => rfl
    · obtain ⟨e, w, h1, h2, h3⟩ := getLast_cons_reverse hc
      refine ⟨⟨[], (nm, (m, cur)) :: arch⟩, ?_, ?_, ?_⟩
      · simp [AStack.step, AStack.archive, hc, Stack.push, sItems, specStep, h1]
      · simp only [sItems, List.reverse_nil, List.map_nil, List.nil_append, List.flatMap_cons, h1, List.map_cons, List.cons_append,
          specStep, List.reverse_reverse, Option.map_some]
      · intro p hp
        rcases List.mem_cons.1 hp with rfl | hp
        · exact ⟨trivial, hc⟩
        · exact h p hp
  | pop =>
    obtain ⟨s', o, h1, h2, h3, h4, h5⟩ := popMeta_spec h
    refine ⟨s', ?_, by rw [h4], h5⟩
    rw [h4]
    simp [AStack.step, h2, bind, Except.bind, pure, Except.pure]
  | popMeta =>
    obtain ⟨s', o, h1, h2, h3, h4, h5⟩ := popMeta_spec h
    refine ⟨s', ?_, by rw [h3], h5⟩
    rw [h3]
    simp [AStack.step, h1, bind, Except.bind, pure, Except.pure]
  | nextArchive =>
    obtain ⟨cur, arch⟩ := s
    by_cases he : (⟨cur, arch⟩ : AStack E M).isEmpty = true
    · have := (astack_isEmpty_iff _).1 he
      simp at this
      obtain ⟨rfl, rfl⟩ := this
      exact ⟨_, rfl, rfl, h⟩
    · have he' := he
      rw [sItems_isEmpty] at he'
      refine ⟨_, ?_, ?_, h.nextArchive⟩
      · simp only [AStack.step, AStack.nextArchive, he, specStep, he', topSegment_sItems]
        cases arch with
        | nil => simp
        | cons p arch => simp
      · simp only [AStack.nextArchive, he, specStep, he', topSegment_sItems]
        cases arch with
        | nil => simp [sItems]
        | cons p arch => simp [sItems]
  | iter =>
    refine ⟨AStack.new, ?_, rfl, by intro p hp; simp [AStack.new] at hp⟩
    have := drain_spec (s.current.length + (s.archived.map (fun p => p.2.2.length)).sum + 1) h (by rw [elems_length]; omega)
    simp only [AStack.step, this, bind, Except.bind, pure, Except.pure, specStep, sItems_elems]
  | peek =>
    refine ⟨s, ?_, rfl, h⟩
    simp only [specStep, sItems_elems]
    obtain ⟨cur, arch⟩ := s
    by_cases hc : cur = []
    · subst hc
      cases arch with
      | nil => rfl
      | cons p arch =>
        obtain ⟨nm, m, v⟩ := p
        have hv : v ≠ [] := (h _ (List.mem_cons_self ..)).2
        obtain ⟨e, w, h1, h2, h3⟩ := getLast_cons_reverse hv
        simp [AStack.step, AStack.peek, AStack.isEmpty, Stack.isEmpty, Stack.peek, unwrap, bind, Except.bind, pure, Except.pure, h2,
          AStack.elems, h1]
    · obtain ⟨e, w, h1, h2, h3⟩ := getLast_cons_reverse hc
      simp [AStack.step, AStack.peek, AStack.isEmpty, hc, unwrap, bind, Except.bind, pure, Except.pure, h2,
          AStack.elems, h1]
  | name =>
    refine ⟨s, ?_, rfl, h⟩
    obtain ⟨cur, arch⟩ := s
    have : ∀ v : List E, List.findSome? (fun i : SItem E M => match i with
        | .arch nm _ => some nm
        | .elem _ => none) (v.map .elem ++ arch.flatMap (fun p => .arch p.1 p.2.1 :: p.2.2.reverse.map .elem)) = (arch.head?).map Prod.fst := by
      intro v
      induction v with
      | nil => cases arch with
        | nil => rfl
        | cons p arch => simp
      | cons e v ih => simpa using ih
    have h2 := this cur.reverse
    simp only [AStack.step, specStep, sItems]
    erw [h2]
    cases arch with
    | nil => rfl
    | cons p arch => obtain ⟨nm, m, v⟩ := p; cases nm <;> rfl
  | isEmpty => exact ⟨s, by simp [AStack.step, specStep, sItems_isEmpty], rfl, h⟩
  | activeLen => exact ⟨s, by simp [AStack.step, specStep, topSegment_sItems, AStack.activeLen], rfl, h⟩
  | activeData => exact ⟨s, by simp [AStack.step, specStep, topSegment_sItems, AStack.activeData], rfl, h⟩

/-- **C25, C26, C27.** For every history of calls on a new archive stack, all answers are those of the list
specification. No call panics. -/
theorem C25_stack_histories (ops : List (SOp E M)) : (AStack.new : AStack E M).answers ops = .ok (specAnswers [] ops) := by
  have key : ∀ (ops : List (SOp E M)) {s : AStack E M}, StackP (fun _ => True) s → s.answers ops = .ok (specAnswers (sItems s) ops) := by
    intro ops
    induction ops with
    | nil => intro s _; rfl
    | cons op ops ih =>
      intro s h
      obtain ⟨s', h1, h2, h3⟩ := step_spec h op
      unfold AStack.answers specAnswers
      rw [h1]
      simp only [bind, Except.bind, ih h3, h2, pure, Except.pure]
  exact key ops (by intro p hp; simp [AStack.new] at hp)

/-- In the list specification no archive point is directly above another or at the bottom. -/
def NoGap : List (SItem E M) → Prop
  | [] => True
  | .elem _ :: l => NoGap l
  | .arch _ _ :: l => (∃ e r, l = .elem e :: r) ∧ NoGap l

theorem NoGap.topSegment {l : List (SItem E M)} (h : NoGap l) : NoGap (topSegment l).2 := by
  induction l with
  | nil => trivial
  | cons i l ih =>
    cases i with
    | elem e => exact ih h
    | arch => exact h

theorem noGap_elems (v : List E) {l : List (SItem E M)} (h : NoGap l) : NoGap (v.map .elem ++ l) := by
  induction v with
  | nil => exact h
  | cons e v ih => exact ih

theorem specStep_noGap {l : List (SItem E M)} (h : NoGap l) (op : SOp E M) : NoGap (specStep l op).1 := by
  cases op with
  | push e => exact h
  | extend v => exact noGap_elems _ h
  | extendRev v => exact noGap_elems _ h.topSegment
  | archive nm m =>
    cases l with
    | nil => trivial
    | cons i l =>
      cases i with
      | elem e => exact ⟨⟨e, l, rfl⟩, h⟩
      | arch => exact h
  | pop =>
    cases l with
    | nil => trivial
    | cons i l =>
      cases i with
      | elem e => exact h
      | arch nm m =>
        obtain ⟨⟨e, r, rfl⟩, h⟩ := h
        exact h
  | popMeta =>
    cases l with
    | nil => trivial
    | cons i l =>
      cases i with
      | elem e => exact h
      | arch nm m =>
        obtain ⟨⟨e, r, rfl⟩, h⟩ := h
        exact h
  | nextArchive =>
    simp only [specStep]
    split
    · exact h
    · have := h.topSegment
      split
      · rename_i heq
        rw [heq] at this
        exact this.2
      · exact this
  | iter => trivial
  | peek => exact h
  | name => exact h
  | isEmpty => exact h
  | activeLen => exact h
  | activeData => exact h

/-- The calls of a plain stack. -/
def SOp.plain : SOp E M → Prop
  | .extendRev _ => False
  | .nextArchive => False
  | .iter => False
  | _ => True

/-- The elements reported along a history. -/
def plainAnswers (l : List E) : List (SOp E M) → List (Option E)
  | [] => []
  | op :: ops => (plainStep l op).2 :: plainAnswers (plainStep l op).1 ops

/-- **C25.** The archive stack is a LIFO stack: along every history of push, extend, pop, pop_meta, peek,
archive and inspection calls, the elements reported are those of a plain stack of elements, whatever archives
are made. -/
theorem C25_lifo (ops : List (SOp E M)) (h : ∀ op ∈ ops, op.plain) :
    ∃ outs, (AStack.new : AStack E M).answers ops = .ok outs ∧ outs.map SOut.elem? = plainAnswers [] ops := by
  refine ⟨_, C25_stack_histories ops, ?_⟩
  have step : ∀ {l : List (SItem E M)}, NoGap l → ∀ op : SOp E M, op.plain →
      (specStep l op).1.filterMap SItem.elem? = (plainStep (l.filterMap SItem.elem?) op).1 ∧
      (specStep l op).2.elem? = (plainStep (l.filterMap SItem.elem?) op).2 := by
    intro l hl op hp
    cases op with
    | push e => exact ⟨rfl, rfl⟩
    | extend v =>
      refine ⟨?_, rfl⟩
      simp only [specStep, plainStep, List.filterMap_append]
      congr 1
      rw [List.filterMap_map]
      have := List.filterMap_some (l := v.reverse)
      exact this
    | extendRev v => exact absurd hp id
    | nextArchive => exact absurd hp id
    | iter => exact absurd hp id
    | archive nm m =>
      cases l with
      | nil => exact ⟨rfl, rfl⟩
      | cons i l => cases i <;> exact ⟨rfl, rfl⟩
    | pop =>
      cases l with
      | nil => exact ⟨rfl, rfl⟩
      | cons i l =>
        cases i with
        | elem e => exact ⟨rfl, rfl⟩
        | arch nm m =>
          obtain ⟨⟨e, r, rfl⟩, -⟩ := hl
          exact ⟨rfl, rfl⟩
    | popMeta =>
      cases l with
      | nil => exact ⟨rfl, rfl⟩
      | cons i l =>
        cases i with
        | elem e => exact ⟨rfl, rfl⟩
        | arch nm m =>
          obtain ⟨⟨e, r, rfl⟩, -⟩ := hl
          exact ⟨rfl, rfl⟩
    | peek => exact ⟨rfl, rfl⟩
    | name => exact ⟨rfl, rfl⟩
    | isEmpty => exact ⟨rfl, rfl⟩
    | activeLen => exact ⟨rfl, rfl⟩
    | activeData => exact ⟨rfl, rfl⟩
  have key : ∀ (ops : List (SOp E M)) (l : List (SItem E M)), NoGap l → (∀ op ∈ ops, op.plain) →
      (specAnswers l ops).map SOut.elem? = plainAnswers (l.filterMap SItem.elem?) ops := by
    intro ops
    induction ops with
    | nil => intros; rfl
    | cons op ops ih =>
      intro l hl hp
      obtain ⟨s1, s2⟩ := step hl op (hp op (List.mem_cons_self ..))
      simp only [specAnswers, plainAnswers, List.map_cons, s2, ← s1]
      rw [ih _ (specStep_noGap hl op) (fun o ho => hp o (List.mem_cons_of_mem _ ho))]
  exact key ops [] trivial h

/-- **C25.** Iterating yields all elements from top to bottom: what a plain stack holds. -/
theorem C25_iter {s : AStack E M} (h : s.Built (fun _ => True)) :
    ∃ s', s.step .iter = .ok (s', .data s.elems) := by
  obtain ⟨s', h1, -⟩ := step_spec h.inv .iter
  refine ⟨s', ?_⟩
  rw [h1]
  simp only [specStep, sItems_elems]

example : (AStack.new : AStack Nat Nat).answers [.push 1, .push 2, .archive none 7, .peek, .push 3, .pop, .popMeta, .pop, .pop] =
    .ok [.unit, .unit, .bool true, .val (some 2), .unit, .val (some 3), .valMeta (some (2, some 7)), .val (some 1), .val none] :=
  C25_stack_histories _
example : plainAnswers (M := Nat) ([] : List Nat) [.push 1, .push 2, .archive none 7, .push 3, .pop, .pop, .pop, .pop] =
    [none, none, none, none, some 3, some 2, some 1, none] := rfl
/-- An example: two archives, the upper one named, and an active vector. -/
def exS : AStack Nat Nat := ((((AStack.new.push 1).push 2).archive none 5).1.push 3 |>.archive (some (.usize 8)) 6).1.push 4
theorem exS_built : exS.Built (fun _ => True) :=
  .push 4 (.archive (some (.usize 8)) 6 trivial (.push 3 (.archive none 5 trivial (.push 2 (.push 1 .new)))))
example : exS.elems = [4, 3, 2, 1] := rfl

/-! ### C26 -/

/-- `while let Some(x) = s.next_archive()`: the results of repeated calls (at most `n`), and the stack left. -/
def takeArchives : Nat → AStack E M → List (List E × Option M) × AStack E M
  | 0, s => ([], s)
  | n+1, s => match s.nextArchive with
    | (s', none) => ([], s')
    | (s', some x) => (x :: (takeArchives n s').1, (takeArchives n s').2)

/-- A stack filled by one client: each segment is pushed and archived, then the last one is pushed. -/
def fillSegs (segs : List (List E × Option Name × M)) (last : List E) : AStack E M :=
  (segs.foldl (fun s g => ((s.extend g.1).archive g.2.1 g.2.2).1) AStack.new).extend last

/-- **C26.** The archived vectors come back from most recent to oldest, each with the metadata given when the
data below it was archived; the oldest one comes without metadata; then `None`, and the stack is empty. -/
theorem C26_archives (segs : List (List E × Option Name × M)) (last : List E) (hne : ∀ g ∈ segs, g.1 ≠ [])
    (hany : segs ≠ [] ∨ last ≠ []) (n : Nat) (hn : segs.length + 1 < n) :
    takeArchives n (fillSegs segs last) =
      (List.zip (last :: (segs.reverse.map (·.1))) (segs.reverse.map (fun g => some g.2.2) ++ [none]), AStack.new) := by
  have key : ∀ (a : Stack (M × List E)) (v : List E) (n : Nat), (∀ p ∈ a, p.2.2 ≠ []) → (a ≠ [] ∨ v ≠ []) → a.length + 1 < n →
      takeArchives n ⟨v, a⟩ = (List.zip (v :: a.map (·.2.2)) (a.map (fun p => some p.2.1) ++ [none]), (AStack.new : AStack E M)) := by
    intro a
    induction a with
    | nil =>
      intro v n _ hv hn
      obtain ⟨n, rfl⟩ : ∃ k, n = k + 2 := ⟨n - 2, by simp at hn; omega⟩
      have hv : v ≠ [] := by simpa using hv
      simp [takeArchives, AStack.nextArchive, AStack.isEmpty, Stack.isEmpty, hv, AStack.new]
    | cons p a ih =>
      intro v n hp _ hn
      obtain ⟨nm, m, w⟩ := p
      obtain ⟨n, rfl⟩ : ∃ k, n = k + 1 := ⟨n - 1, by omega⟩
      have hw : w ≠ [] := hp _ (List.mem_cons_self ..)
      have := ih w n (fun p h => hp p (List.mem_cons_of_mem _ h)) (.inr hw) (by simp at hn; omega)
      simp [takeArchives, AStack.nextArchive, AStack.isEmpty, Stack.isEmpty, this]
  have hfill : ∀ (segs : List (List E × Option Name × M)) (a : Stack (M × List E)), (∀ g ∈ segs, g.1 ≠ []) →
      segs.foldl (fun s g => ((s.extend g.1).archive g.2.1 g.2.2).1) (⟨[], a⟩ : AStack E M) =
        ⟨[], segs.reverse.map (fun g => (g.2.1, (g.2.2, g.1))) ++ a⟩ := by
    intro segs
    induction segs with
    | nil => intro a _; rfl
    | cons g segs ih =>
      intro a hg
      have h1 : g.1 ≠ [] := hg g (List.mem_cons_self ..)
      have h2 : (((⟨[], a⟩ : AStack E M).extend g.1).archive g.2.1 g.2.2).1 = ⟨[], (g.2.1, (g.2.2, g.1)) :: a⟩ := by
        simp [AStack.extend, AStack.archive, Stack.push, h1]
      rw [List.foldl_cons, h2, ih _ (fun x h => hg x (List.mem_cons_of_mem _ h))]
      simp
  have : fillSegs segs last = ⟨last, segs.reverse.map (fun g => (g.2.1, (g.2.2, g.1)))⟩ := by
    have h0 := hfill segs [] hne
    rw [fillSegs, AStack.new, h0]
    simp [AStack.extend]
  rw [this, key _ _ _ (by
    intro p hp
    obtain ⟨g, hg, rfl⟩ := List.mem_map.1 hp
    exact hne g (by simpa using hg)) (by simpa using hany) (by simpa using hn)]
  simp [Function.comp_def]

/-- **C26.** Nothing is lost or duplicated: from every stack a client can build, the returned vectors hold
exactly its elements, and the stack ends empty. -/
theorem C26_nothing_lost {s : AStack E M} (h : s.Built (fun _ => True)) (n : Nat) (hn : s.archived.length + 1 < n) :
    ((takeArchives n s).1.flatMap (fun x => x.1.reverse)) = s.elems ∧ (takeArchives n s).2 = AStack.new := by
  have key : ∀ (a : Stack (M × List E)) (v : List E) (n : Nat), (∀ p ∈ a, p.2.2 ≠ []) → a.length + 1 < n →
      (takeArchives n ⟨v, a⟩).1.flatMap (fun x => x.1.reverse) = (⟨v, a⟩ : AStack E M).elems ∧ (takeArchives n ⟨v, a⟩).2 = (AStack.new : AStack E M) := by
    intro a
    induction a with
    | nil =>
      intro v n _ hn
      obtain ⟨n, rfl⟩ : ∃ k, n = k + 2 := ⟨n - 2, by simp at hn; omega⟩
      by_cases hv : v = []
      · subst hv; exact ⟨rfl, rfl⟩
      · simp [takeArchives, AStack.nextArchive, AStack.isEmpty, Stack.isEmpty, hv, AStack.new, AStack.elems]
    | cons p a ih =>
      intro v n hp hn
      obtain ⟨nm, m, w⟩ := p
      obtain ⟨n, rfl⟩ : ∃ k, n = k + 1 := ⟨n - 1, by omega⟩
      have := ih w n (fun p h => hp p (List.mem_cons_of_mem _ h)) (by simp at hn; omega)
      simp [takeArchives, AStack.nextArchive, AStack.isEmpty, Stack.isEmpty, this]
      simp [AStack.elems]
  obtain ⟨cur, arch⟩ := s
  exact key arch cur n (fun p hp => (h.inv p hp).2) hn

example : takeArchives 9 (fillSegs [([4, 2, 4], some (.usize 1), 10), ([9, 3, 7], some (.usize 2), 20)] ([] : List Nat)) =
    ([([], some 20), ([9, 3, 7], some 10), ([4, 2, 4], none)], AStack.new) :=
  C26_archives _ _ (by decide) (by decide) 9 (by decide)
example : (takeArchives 9 exS).1.flatMap (fun x => x.1.reverse) = [4, 3, 2, 1] := (C26_nothing_lost exS_built 9 (by decide)).1

/-! ### C27 -/

/-- **C27.** `pop_meta` returns the element that `pop` returns and leaves the same stack; the metadata is there
exactly when the active vector was empty, and is then the metadata of the archive that was opened (the one
`next_archive` reports). -/
theorem C27_pop_meta {s : AStack E M} (h : s.Built (fun _ => True)) :
    ∃ s' o, s.popMeta = .ok (s', o) ∧ s.pop = .ok (s', o.map Prod.fst) ∧ (o = none ↔ s.elems = []) ∧
      ∀ e m, o = some (e, m) → (m.isSome ↔ s.activeLen = 0) ∧ (s.activeLen = 0 → ∃ v, s.nextArchive.2 = some (v, m)) := by
  obtain ⟨s', o, h1, h2, h3, h4, h5⟩ := popMeta_spec h.inv
  refine ⟨s', o, h1, h2, ?_, ?_⟩
  · obtain ⟨cur, arch⟩ := s
    by_cases hc : cur = []
    · subst hc
      cases arch with
      | nil => simp [sItems, specStep] at h3; simp [← h3.2, AStack.elems]
      | cons p arch =>
        obtain ⟨nm, m, v⟩ := p
        have hv : v ≠ [] := (h.inv _ (List.mem_cons_self ..)).2
        obtain ⟨e, w, g1, g2, g3⟩ := getLast_cons_reverse hv
        simp [sItems, List.flatMap_cons, ← List.map_reverse, g1, specStep] at h3
        simp [← h3.2, AStack.elems, g1]
    · obtain ⟨e, w, g1, g2, g3⟩ := getLast_cons_reverse hc
      simp [sItems, List.flatMap_cons, ← List.map_reverse, g1, specStep] at h3
      simp [← h3.2, AStack.elems, g1]
  · rintro e m rfl
    obtain ⟨cur, arch⟩ := s
    by_cases hc : cur = []
    · subst hc
      cases arch with
      | nil => simp [sItems, specStep] at h3
      | cons p arch =>
        obtain ⟨nm, m', v⟩ := p
        have hv : v ≠ [] := (h.inv _ (List.mem_cons_self ..)).2
        obtain ⟨e, w, g1, g2, g3⟩ := getLast_cons_reverse hv
        simp [sItems, List.flatMap_cons, ← List.map_reverse, g1, specStep] at h3
        simp [← h3.2.2, AStack.activeLen, AStack.nextArchive, AStack.isEmpty, Stack.isEmpty]
    · obtain ⟨e, w, g1, g2, g3⟩ := getLast_cons_reverse hc
      simp [sItems, List.flatMap_cons, ← List.map_reverse, g1, specStep] at h3
      simp [← h3.2.2, AStack.activeLen, hc]

/-- **C27.** `is_empty` is true exactly if no element is left. -/
theorem C27_is_empty {s : AStack E M} (h : s.Built (fun _ => True)) : s.isEmpty = true ↔ s.elems = [] := by
  obtain ⟨s', o, h1, h2, h3, h4⟩ := C27_pop_meta h
  rw [← h3]
  constructor
  · intro he
    simp [AStack.popMeta, he] at h1
    exact h1.2.symm
  · rintro rfl
    by_contra he
    have hne : s.elems = [] := h3.1 rfl
    have : sItems s ≠ [] := by
      intro h0
      rw [sItems_isEmpty, h0] at he
      exact he rfl
    obtain ⟨cur, arch⟩ := s
    cases arch with
    | nil =>
      simp [AStack.elems] at hne
      simp [sItems, hne] at this
    | cons p arch =>
      have hv : p.2.2 ≠ [] := (h.inv _ (List.mem_cons_self ..)).2
      simp [AStack.elems] at hne
      exact hv hne.2.1

/-- **C27.** `name` after each call: a new archive's name; unchanged by push; the name below once the archive
is opened by a pop or by `next_archive`. Together with the histories of `C25_stack_histories` (answer to
`name`): the name of the most recent archive still closed. -/
theorem C27_name_archive (s : AStack E M) (nm : Option Name) (m : M) (v : List E) (e : E) :
    (s.push e).name = s.name ∧ (s.extend v).name = s.name ∧
    (s.activeLen ≠ 0 → (s.archive nm m).1.name = nm ∧ (s.archive nm m).1.nextArchive.1 = s) ∧
    (s.activeLen = 0 → (s.archive nm m).1 = s) := by
  refine ⟨rfl, rfl, fun h => ?_, fun h => ?_⟩
  · have h' : s.current ≠ [] := by simpa [AStack.activeLen] using h
    simp [AStack.archive, h', AStack.name, Stack.push, Stack.name, AStack.nextArchive, AStack.isEmpty, Stack.isEmpty]
  · have h' : s.current = [] := by simpa [AStack.activeLen] using h
    simp [AStack.archive, h']

/-- **C27.** A pop that does not open an archive keeps the name; one that opens an archive leaves the name of
the archive below it. -/
theorem C27_name_pop {s s' : AStack E M} {o : Option E} (h : s.pop = .ok (s', o)) :
    (s.activeLen ≠ 0 → s'.name = s.name) ∧ (s.activeLen = 0 → s'.name = s.nextArchive.1.name) := by
  obtain ⟨cur, arch⟩ := s
  constructor
  · intro hc
    have hc : cur ≠ [] := by simpa [AStack.activeLen] using hc
    simp [AStack.pop, AStack.isEmpty, AStack.retrieve, hc, bind, Except.bind, pure, Except.pure, AStack.popCurrent] at h
    simp [← h.1, AStack.name]
  · intro hc
    have hc : cur = [] := by simpa [AStack.activeLen] using hc
    subst hc
    cases arch with
    | nil => simp [AStack.pop, AStack.isEmpty, Stack.isEmpty] at h; simp [← h.1, AStack.nextArchive, AStack.isEmpty, Stack.isEmpty]
    | cons p arch =>
      simp [AStack.pop, AStack.isEmpty, Stack.isEmpty, AStack.retrieve, Stack.peek, Stack.pull, unwrap, bind, Except.bind,
          pure, Except.pure, AStack.popCurrent] at h
      simp [← h.1, AStack.name, AStack.nextArchive, AStack.isEmpty, Stack.isEmpty]

/-- **C27, what holds for active_len.** It is the number of elements not archived, so never more than the
total item count. (Full claim: `s.activeLen = s.elems.length`, refuted below.) -/
theorem C27_active_len_partial (s : AStack E M) :
    s.activeLen = s.activeData.length ∧ s.activeLen ≤ s.elems.length ∧
    ∀ m nm, (s.archive nm m).1.activeLen = 0 ∧ (s.archive nm m).1.elems = s.elems := by
  refine ⟨rfl, ?_, fun m nm => ?_⟩
  · rw [elems_length]; exact Nat.le_add_right ..
  · by_cases hc : s.current = [] <;> simp [AStack.archive, hc, AStack.activeLen, AStack.elems, Stack.push]

/-- **C27 violated for active_len.** The documentation says "the total item count of the `AStack`, including
archived data"; after archiving it does not count the archived data. -/
theorem C27_active_len_counterexample :
    ∃ s : AStack Nat Nat, s.Built (fun _ => True) ∧ s.elems.length = 2 ∧ s.activeLen = 0 :=
  ⟨(((AStack.new.push 1).push 2).archive none 5).1, .archive none 5 trivial (.push 2 (.push 1 .new)), rfl, rfl⟩

example : ∃ s' o, exS.popMeta = .ok (s', o) ∧ exS.pop = .ok (s', o.map Prod.fst) ∧ (o = none ↔ exS.elems = []) ∧
      ∀ e m, o = some (e, m) → (m.isSome ↔ exS.activeLen = 0) ∧ (exS.activeLen = 0 → ∃ v, exS.nextArchive.2 = some (v, m)) :=
  C27_pop_meta exS_built
example : exS.isEmpty = false ∧ exS.name = some (.usize 8) ∧ exS.activeLen = 1 ∧ exS.elems.length = 4 := ⟨rfl, rfl, rfl, rfl⟩
example : ∃ s', exS.pop = .ok (s', some 4) ∧ s'.name = some (.usize 8) := ⟨_, rfl, rfl⟩

/-! ### C28 -/

/-- **C28.** peek, pull, name and is_empty of a pushed stack. -/
theorem C28_push {T : Type} (s : Stack T) (nm : Option Name) (e : T) :
    (s.push nm e).peek = some e ∧ (s.push nm e).pull = some s ∧ (s.push nm e).name = nm ∧ (s.push nm e).isEmpty = false ∧
    (s.push nm e).iterNext = (s, some e) := ⟨rfl, rfl, rfl, rfl, rfl⟩

/-- **C28.** The empty stack. -/
theorem C28_new {T : Type} :
    (Stack.new : Stack T).peek = none ∧ (Stack.new : Stack T).pull = none ∧ (Stack.new : Stack T).name = none ∧
    (Stack.new : Stack T).isEmpty = true ∧ (Stack.new : Stack T).iterNext = (Stack.new, none) := ⟨rfl, rfl, rfl, rfl, rfl⟩

/-- **C28.** The iterator yields all pushed elements, last pushed first, then stops. -/
theorem C28_iter {T : Type} (ps : List (Option Name × T)) (n : Nat) (hn : ps.length < n) :
    (ps.foldl (fun s p => s.push p.1 p.2) (Stack.new : Stack T)).collect n = (ps.map (·.2)).reverse := by
  have h1 : ∀ (ps : List (Option Name × T)) (s : Stack T), ps.foldl (fun s p => Stack.push s p.1 p.2) s = ps.reverse ++ s := by
    intro ps
    induction ps with
    | nil => intro s; rfl
    | cons p ps ih => intro s; rw [List.foldl_cons, ih]; simp [Stack.push]
  have h2 : ∀ (s : Stack T) (n : Nat), s.length < n → s.collect n = s.map (·.2) := by
    intro s
    induction s with
    | nil => intro n hn; obtain ⟨n, rfl⟩ : ∃ k, n = k + 1 := ⟨n - 1, by simp at hn; omega⟩; rfl
    | cons p s ih =>
      intro n hn
      obtain ⟨n, rfl⟩ : ∃ k, n = k + 1 := ⟨n - 1, by omega⟩
      have := ih n (by simp at hn; omega)
      simp [Stack.collect, Stack.iterNext, Stack.pull, Stack.peek, this]
  rw [h1, h2]
  · simp [Stack.new, List.map_reverse]
  · simpa [Stack.new] using hn

example : ((((Stack.new : Stack Nat).push (some (.usize 3)) 3).push none 2).push (some (.usize 1)) 1).collect 9 = [1, 2, 3] :=
  C28_iter [(some (.usize 3), 3), (none, 2), (some (.usize 1), 1)] 9 (by decide)

end Iodyn
