import Verif.Proof.HeapVars
import Verif.Props.Zipper
import Verif.Props.Fold
/-
C41 persistence without names, C42 peeking, C55 names used once: programs over the store of articulations.
-/
namespace Iodyn.Heap
variable {E M : Type} [RazMeta E M]

/-- A program has one result. -/
theorem Answers.unique {e : Engine} {cs : List (Cmd E (RazMeta.Index E M))} {r r' : P (List (Out E))}
    (h : Answers (M := M) e cs r) (h' : Answers (M := M) e cs r') : r = r' := by
  obtain ⟨f, hf⟩ := h
  obtain ⟨g, hg⟩ := h'
  rw [← hf (max f g) (Nat.le_max_left _ _), hg (max f g) (Nat.le_max_right _ _)]

/-- **C41, functional engine.** With the functional engine every program over any number of clones gives the answers of the
functional semantics. -/
theorem C41_functional_engine (cs : List (Cmd E (RazMeta.Index E M))) : Answers (M := M) .naive cs (answers M cs) :=
  answers_of_fine cs (fine_naive cs)

/-- **C41.** With the incremental engine a program without names, over any number of clones, gives the answers of the
functional semantics, in which every variable has its own value. -/
theorem C41_persistent (cs : List (Cmd E (RazMeta.Index E M))) (h : NoNames cs) : Answers (M := M) .dcg cs (answers M cs) :=
  answers_of_fine cs (fine_noNames cs h)

/-- **C55.** With the incremental engine a program that uses each name once and makes no clones gives the answers of the
functional semantics. -/
theorem C55_names_used_once (cs : List (Cmd E (RazMeta.Index E M))) (h : GoodNames cs) (hc : NoClones cs) :
    Answers (M := M) .dcg cs (answers M cs) :=
  answers_of_fine cs (fine_goodNames cs h hc)

/-! ### Plain lists -/

/-- The variables as plain lists. -/
def readVars (vs : Vars E M) : LVars E := vs.map (Option.map St.read)

/-- All variables are reachable states. -/
def AllReach (vs : Vars E M) : Prop := ∀ (i : Nat) s, vs[i]? = some (some s) → s.Reachable .full

theorem AllReach.append {vs : Vars E M} (h : AllReach vs) {s : St E M} (hs : s.Reachable .full) : AllReach (vs ++ [some s]) := by
  intro i s' hi
  rcases Nat.lt_or_ge i vs.length with hl | hl
  · rw [List.getElem?_append_left hl] at hi; exact h i s' hi
  · rw [List.getElem?_append_right hl] at hi
    cases hk : i - vs.length with
    | zero => simp [hk] at hi; subst hi; exact hs
    | succ k => simp [hk] at hi

theorem AllReach.set {vs : Vars E M} (h : AllReach vs) {o : Option (St E M)} (j : Nat) (hs : ∀ s, o = some s → s.Reachable .full) :
    AllReach (vs.set j o) := by
  intro i s' hi
  rw [List.getElem?_set] at hi
  split at hi
  · split at hi
    · exact hs s' (by simpa using hi)
    · simp at hi
  · exact h i s' hi

omit [RazMeta E M] in
theorem readVars_get (vs : Vars E M) (i : Nat) : (readVars vs)[i]? = vs[i]?.map (Option.map St.read) := by
  simp [readVars]

omit [RazMeta E M] in
theorem readVars_append (vs : Vars E M) (s : St E M) : readVars (vs ++ [some s]) = readVars vs ++ [some s.read] := by
  simp [readVars]

omit [RazMeta E M] in
theorem readVars_set (vs : Vars E M) (i : Nat) (o : Option (St E M)) : readVars (vs.set i o) = (readVars vs).set i (o.map St.read) := by
  simp [readVars, List.map_set]

omit [RazMeta E M] in
theorem readVars_bad {vs : Vars E M} {i : Nat} (h : ∀ s, vs[i]? ≠ some (some s)) : ∀ s, (readVars vs)[i]? ≠ some (some s) := by
  intro s hs
  rw [readVars_get] at hs
  cases h1 : vs[i]? with
  | none => simp [h1] at hs
  | some o =>
    cases o with
    | none => simp [h1] at hs
    | some s' => exact h s' h1

omit [RazMeta E M] in
theorem isTree_iff {vs : Vars E M} {i : Nat} {a : List E} : (readVars vs).IsTree i a ↔ ∃ t : RazTree E M, vs[i]? = some (some (.tree t)) ∧ t.elems = a := by
  unfold LVars.IsTree
  rw [readVars_get]
  cases h1 : vs[i]? with
  | none => simp
  | some o =>
    cases o with
    | none => simp
    | some s =>
      cases s with
      | cursor z => simp [St.read]
      | tree t => simp [St.read]

theorem empty_iff {t : RazTree E M} (h : t.Reachable .full) : t.elems = [] ↔ t.tree = .nil := by
  rw [← C16_is_empty_partial h]
  unfold RazTree.isEmpty
  cases t.tree <;> simp [Tree.isSome]

theorem lists_step [LawfulMeta E M] {vs vs' : Vars E M} {c : Cmd E (RazMeta.Index E M)} {o : Out E} (h : AllReach vs)
    (hl : c.LevelOK) (hs : vs.step c = .ok (vs', o)) : LVStep (readVars vs) c o (readVars vs') ∧ AllReach vs' := by
  cases c with
  | new =>
    simp only [Vars.step, Except.ok.injEq, Prod.mk.injEq] at hs
    obtain ⟨rfl, rfl⟩ := hs
    rw [readVars_append]
    exact ⟨.new _, h.append .new⟩
  | fromVec v =>
    rcases eq_or_ne v [] with rfl | hv
    · have : (RazTree.fromVec [] : P (Option (RazTree E M))) = .ok none := rfl
      simp only [Vars.step, this, bind, Except.bind, pure, Except.pure, Except.ok.injEq, Prod.mk.injEq] at hs
      obtain ⟨rfl, rfl⟩ := hs
      exact ⟨.fromNil _, h⟩
    · obtain ⟨t, h1, -, h3, -⟩ := (C16_from_vec (M := M) v).2 hv
      simp only [Vars.step, h1, bind, Except.bind, pure, Except.pure, Except.ok.injEq, Prod.mk.injEq] at hs
      obtain ⟨rfl, rfl⟩ := hs
      rw [readVars_append]
      simp only [St.read, h3]
      exact ⟨.fromVec _ _ hv, h.append (.fromVec h1)⟩
  | clone i =>
    simp only [Vars.step] at hs
    split at hs
    · next s h1 =>
      simp only [Except.ok.injEq, Prod.mk.injEq] at hs
      obtain ⟨rfl, rfl⟩ := hs
      rw [readVars_append]
      exact ⟨.clone _ _ _ (by rw [readVars_get, h1]; rfl), h.append (h i s h1)⟩
    · next h1 =>
      simp only [Except.ok.injEq, Prod.mk.injEq] at hs
      obtain ⟨rfl, rfl⟩ := hs
      exact ⟨.badClone _ _ (readVars_bad h1), h⟩
  | op i op =>
    simp only [Vars.step] at hs
    split at hs
    · next s h1 =>
      obtain ⟨⟨s', out⟩, h2, hs⟩ := bind_ok.1 hs
      simp only [pure, Except.pure, Except.ok.injEq, Prod.mk.injEq] at hs
      obtain ⟨rfl, rfl⟩ := hs
      obtain ⟨a, b⟩ := C01_step (h i s h1) hl h2
      rw [readVars_set]
      exact ⟨.op _ _ _ _ _ _ (by rw [readVars_get, h1]; rfl) a, h.set i (by rintro _ ⟨⟩; exact b)⟩
    · next h1 =>
      simp only [Except.ok.injEq, Prod.mk.injEq] at hs
      obtain ⟨rfl, rfl⟩ := hs
      exact ⟨.badOp _ _ _ (readVars_bad h1), h⟩
  | join i lev nm j =>
    simp only [Vars.step] at hs
    split at hs
    · next a b ha hb =>
      have ra := h i _ ha
      have rb := h j _ hb
      have ta : (readVars vs).IsTree i a.elems := isTree_iff.2 ⟨a, ha, rfl⟩
      have tb : (readVars vs).IsTree j b.elems := isTree_iff.2 ⟨b, hb, rfl⟩
      split at hs
      · next hij =>
        simp only [Except.ok.injEq, Prod.mk.injEq] at hs
        obtain ⟨rfl, rfl⟩ := hs
        exact ⟨.badJoin _ _ _ _ _ (.inl hij), h⟩
      · next hij =>
        have hj := razJoin_ok (Reach.t ra).inv.wf (Reach.t rb).inv.wf (lev := lev) hl nm
        by_cases hem : a.tree = .nil ∨ b.tree = .nil
        · rw [hj.2 hem] at hs
          simp only [bind, Except.bind, pure, Except.pure, Except.ok.injEq, Prod.mk.injEq] at hs
          obtain ⟨rfl, rfl⟩ := hs
          rw [readVars_set, readVars_set]
          refine ⟨.joinNil _ _ _ _ _ _ _ hij ta tb (hem.imp (empty_iff ra).2 (empty_iff rb).2), ?_⟩
          exact (h.set i (by simp)).set j (by simp)
        · rw [not_or] at hem
          obtain ⟨t, h1, -, h3⟩ := hj.1 hem
          rw [h1] at hs
          simp only [bind, Except.bind, pure, Except.pure, Except.ok.injEq, Prod.mk.injEq] at hs
          obtain ⟨rfl, rfl⟩ := hs
          have he : t.elems = a.elems ++ b.elems := by
            rw [RazTree.elems, h3, elemsOf_append, elemsOf_cons_mark rfl]; rfl
          rw [readVars_set, readVars_set]
          simp only [Option.map_some, St.read, he, Option.map_none]
          refine ⟨.join _ _ _ _ _ _ _ hij ta tb ⟨fun hc => hem.1 ((empty_iff ra).1 hc), fun hc => hem.2 ((empty_iff rb).1 hc)⟩, ?_⟩
          exact (h.set i (by simp)).set j (by rintro _ ⟨⟩; exact .join rfl ra rb hl h1)
    · next hbad =>
      simp only [Except.ok.injEq, Prod.mk.injEq] at hs
      obtain ⟨rfl, rfl⟩ := hs
      refine ⟨.badJoin _ _ _ _ _ ?_, h⟩
      by_cases hc : ∃ a, (readVars vs).IsTree i a
      · obtain ⟨a, hc⟩ := hc
        obtain ⟨a, h1, -⟩ := isTree_iff.1 hc
        refine .inr (.inr fun b hb => ?_)
        obtain ⟨b, h2, -⟩ := isTree_iff.1 hb
        exact hbad a b h1 h2
      · exact .inr (.inl fun a ha => hc ⟨a, ha⟩)

theorem lists_run [LawfulMeta E M] (cs : List (Cmd E (RazMeta.Index E M))) : ∀ {vs vs' : Vars E M} {os : List (Out E)}, AllReach vs →
    (∀ c ∈ cs, c.LevelOK) → vs.run cs = .ok (vs', os) → LVRun (readVars vs) cs os (readVars vs') ∧ AllReach vs' := by
  induction cs with
  | nil =>
    intro vs vs' os h _ hr
    simp only [Vars.run, Except.ok.injEq, Prod.mk.injEq] at hr
    obtain ⟨rfl, rfl⟩ := hr
    exact ⟨.nil _, h⟩
  | cons c cs ih =>
    intro vs vs' os h hl hr
    simp only [Vars.run] at hr
    obtain ⟨⟨s1, o⟩, h1, hr⟩ := bind_ok.1 hr
    obtain ⟨⟨s2, os⟩, h2, hr⟩ := bind_ok.1 hr
    simp only [pure, Except.pure, Except.ok.injEq, Prod.mk.injEq] at hr
    obtain ⟨rfl, rfl⟩ := hr
    obtain ⟨a, b⟩ := lists_step h (hl c (by simp)) h1
    obtain ⟨c, d⟩ := ih b (fun c hc => hl c (List.mem_cons_of_mem _ hc)) h2
    exact ⟨.cons a c, d⟩

/-- The programs for which the store is not observed: the functional engine, no names, or each name once and no clones. -/
def Safe {I : Type} (e : Engine) (cs : List (Cmd E I)) : Prop := e = .naive ∨ NoNames cs ∨ (GoodNames cs ∧ NoClones cs)

theorem Safe.answers {e : Engine} {cs : List (Cmd E (RazMeta.Index E M))} (h : Safe e cs) : Answers (M := M) e cs (answers M cs) := by
  rcases h with rfl | h | ⟨h, h'⟩
  · exact C41_functional_engine cs
  · cases e
    · exact C41_functional_engine cs
    · exact C41_persistent cs h
  · cases e
    · exact C41_functional_engine cs
    · exact C55_names_used_once cs h h'

/-- **C41, C55, on plain lists.** The answers over the store are those of plain lists, where a statement changes no variable
other than its own. -/
theorem C41_lists [LawfulMeta E M] {e : Engine} {cs : List (Cmd E (RazMeta.Index E M))} (h : Safe e cs) (hl : ∀ c ∈ cs, c.LevelOK)
    {os : List (Out E)} (ha : Answers (M := M) e cs (.ok os)) : ∃ vs, LVRun [] cs os vs := by
  have := ha.unique h.answers
  unfold Iodyn.answers at this
  cases hr : Vars.run (M := M) [] cs with
  | error p => rw [hr] at this; simp [Except.map] at this
  | ok x =>
    obtain ⟨vs, os'⟩ := x
    rw [hr] at this
    simp only [Except.map, Except.ok.injEq] at this
    subst this
    exact ⟨readVars vs, (lists_run cs (vs := []) (fun i s hi => by simp at hi) hl hr).1⟩

theorem progress_step [LawfulMeta E M] {vs : Vars E M} {c : Cmd E (RazMeta.Index E M)} (h : AllReach vs) (hl : c.LevelOK)
    (hf : ∀ i x, c ≠ .op i (.focus x)) : ∃ vs' o, vs.step c = .ok (vs', o) := by
  cases c with
  | new => exact ⟨_, _, rfl⟩
  | fromVec v =>
    rcases eq_or_ne v [] with rfl | hv
    · have : (RazTree.fromVec [] : P (Option (RazTree E M))) = .ok none := rfl
      exact ⟨_, _, by simp only [Vars.step, this]; rfl⟩
    · obtain ⟨t, h1, -, h3, -⟩ := (C16_from_vec (M := M) v).2 hv
      exact ⟨_, _, by simp only [Vars.step, h1]; rfl⟩
  | clone i =>
    simp only [Vars.step]
    split <;> exact ⟨_, _, rfl⟩
  | op i op =>
    simp only [Vars.step]
    split
    · next s h1 =>
      obtain ⟨s', os, h2⟩ := C01_histories_run [op] (h i s h1) (by
        intro o ho
        simp only [List.mem_singleton] at ho
        subst ho
        exact hl) (by
        intro o ho x hx
        simp only [List.mem_singleton] at ho
        subst ho
        exact hf i x (by rw [hx]))
      simp only [St.run] at h2
      obtain ⟨⟨s1, o⟩, h3, -⟩ := bind_ok.1 h2
      exact ⟨_, _, by rw [h3]; rfl⟩
    · exact ⟨_, _, rfl⟩
  | join i lev nm j =>
    simp only [Vars.step]
    split
    · next a b ha hb =>
      split
      · exact ⟨_, _, rfl⟩
      · have hj := razJoin_ok (Reach.t (h i _ ha)).inv.wf (Reach.t (h j _ hb)).inv.wf (lev := lev) hl nm
        by_cases hem : a.tree = .nil ∨ b.tree = .nil
        · rw [hj.2 hem]; exact ⟨_, _, rfl⟩
        · rw [not_or] at hem
          obtain ⟨t, h1, -⟩ := hj.1 hem
          rw [h1]; exact ⟨_, _, rfl⟩
    · exact ⟨_, _, rfl⟩

/-- **C41, C55, no panic.** A program without `focus` runs to its end over the store. -/
theorem C41_runs [LawfulMeta E M] {e : Engine} {cs : List (Cmd E (RazMeta.Index E M))} (h : Safe e cs) (hl : ∀ c ∈ cs, c.LevelOK)
    (hf : ∀ c ∈ cs, ∀ i x, c ≠ .op i (.focus x)) : ∃ os, Answers (M := M) e cs (.ok os) := by
  have key : ∀ (cs : List (Cmd E (RazMeta.Index E M))) (vs : Vars E M), AllReach vs → (∀ c ∈ cs, c.LevelOK) →
      (∀ c ∈ cs, ∀ i x, c ≠ .op i (.focus x)) → ∃ vs' os, vs.run cs = .ok (vs', os) := by
    intro cs
    induction cs with
    | nil => intro vs _ _ _; exact ⟨_, _, rfl⟩
    | cons c cs ih =>
      intro vs hr hl hf
      obtain ⟨vs1, o, h1⟩ := progress_step hr (hl c (by simp)) (hf c (by simp))
      obtain ⟨vs2, os, h2⟩ := ih vs1 (lists_step hr (hl c (by simp)) h1).2 (fun c hc => hl c (List.mem_cons_of_mem _ hc))
        (fun c hc => hf c (List.mem_cons_of_mem _ hc))
      exact ⟨vs2, o :: os, by simp only [Vars.run, h1, bind, Except.bind, h2]; rfl⟩
  obtain ⟨vs', os, h1⟩ := key cs [] (fun i s hi => by simp at hi) hl hf
  refine ⟨os, ?_⟩
  have := h.answers (M := M)
  unfold Iodyn.answers at this
  rw [h1] at this
  exact this

/-- A program with clones, all of whose archive points are unnamed. -/
def exClones : List (Cmd Nat (RazMeta.Index Nat Count)) :=
  [.fromVec [1, 2, 3], .clone 0, .op 0 .focusLeft, .op 0 .popR, .op 0 (.archL 3 none), .op 0 (.pushR 9), .op 0 .unfocus,
    .clone 0, .op 0 .focusLeft, .op 0 .popR, .op 1 .focusLeft, .op 1 .popR, .op 2 .focusLeft, .op 2 .popR, .op 2 .peekR]

example : Safe .dcg exClones ∧ (∀ c ∈ exClones, c.LevelOK) ∧ ∃ os, Answers (M := Count) .dcg exClones (.ok os) ∧
    os.drop 7 = [.unit, .unit, .val (some 9), .unit, .val (some 1), .unit, .val (some 9), .val (some 2)] := by
  have h : Safe .dcg exClones := .inr (.inl rfl)
  have hl : ∀ c ∈ exClones, c.LevelOK := by simp [exClones, Cmd.LevelOK, ApiOp.LevelOK]
  have he : answers Count exClones = .ok (((answers Count exClones).toOption).getD []) := by decide +kernel
  exact ⟨h, hl, _, he ▸ h.answers, by decide +kernel⟩

/-- A program whose names are used once, on several sequences, with a join. -/
def exNames : List (Cmd Nat (RazMeta.Index Nat Count)) :=
  [.new, .op 0 (.pushL 1), .op 0 (.archL 2 (some (.usize 1))), .op 0 (.pushL 2), .op 0 .unfocus,
    .new, .op 1 (.pushL 3), .op 1 (.archL 1 (some (.usize 2))), .op 1 (.pushL 4), .op 1 .unfocus,
    .join 0 5 (some (.usize 3)) 1, .op 1 .focusLeft, .op 1 .popR, .op 1 .popR, .op 1 (.archR 4 (some (.str "a"))), .op 1 (.pushR 8),
    .op 1 .unfocus, .op 1 .focusLeft, .op 1 .popR, .op 1 .popR]

example : GoodNames exNames ∧ NoClones exNames ∧ (∀ c ∈ exNames, c.LevelOK) ∧ ∃ os, Answers (M := Count) .dcg exNames (.ok os) ∧
    os.drop 16 = [.unit, .unit, .val (some 8), .val (some 3)] := by
  have h : GoodNames exNames := by
    constructor
    · simp [exNames, Cmd.names]
    · simp [exNames, Cmd.names]
  have hc : NoClones exNames := by intro c; revert c; simp [exNames, Cmd.isClone]
  have hl : ∀ c ∈ exNames, c.LevelOK := by simp [exNames, Cmd.LevelOK, ApiOp.LevelOK]
  have he : answers Count exNames = .ok (((answers Count exNames).toOption).getD []) := by decide +kernel
  exact ⟨h, hc, hl, _, he ▸ C55_names_used_once _ h hc, by decide +kernel⟩

/-! ### C42 -/

theorem run_append (a : List (Cmd E (RazMeta.Index E M))) : ∀ (b : List (Cmd E (RazMeta.Index E M))) (vs : Vars E M), vs.run (a ++ b) = (do
    let (vs1, o1) ← vs.run a
    let (vs2, o2) ← vs1.run b
    return (vs2, o1 ++ o2)) := by
  induction a with
  | nil =>
    intro b vs
    simp only [List.nil_append, Vars.run, bind, Except.bind]
    cases vs.run b <;> rfl
  | cons c a ih =>
    intro b vs
    simp only [List.cons_append, Vars.run, bind, Except.bind]
    cases vs.step c with
    | error p => rfl
    | ok x =>
      simp only [ih, bind, Except.bind]
      cases Vars.run x.1 a with
      | error p => rfl
      | ok y =>
        simp only [pure, Except.pure]
        cases Vars.run y.1 b <;> rfl

theorem run_length (a : List (Cmd E (RazMeta.Index E M))) : ∀ {vs vs' : Vars E M} {os : List (Out E)}, vs.run a = .ok (vs', os) →
    os.length = a.length := by
  induction a with
  | nil => intro vs vs' os h; simp [Vars.run] at h; simp [← h.2]
  | cons c a ih =>
    intro vs vs' os h
    simp only [Vars.run] at h
    obtain ⟨⟨s1, o⟩, h1, h⟩ := bind_ok.1 h
    obtain ⟨⟨s2, os⟩, h2, h⟩ := bind_ok.1 h
    simp only [pure, Except.pure, Except.ok.injEq, Prod.mk.injEq] at h
    obtain ⟨-, rfl⟩ := h
    simp [ih h2]

theorem peek_step {vs vs' : Vars E M} {i : Nat} {pk : ApiOp E (RazMeta.Index E M)} (hp : pk = .peekL ∨ pk = .peekR) {o : Out E}
    (h : vs.step (.op i pk) = .ok (vs', o)) : vs' = vs := by
  simp only [Vars.step] at h
  split at h
  · next s h1 =>
    obtain ⟨⟨s', out⟩, h2, h⟩ := bind_ok.1 h
    simp only [pure, Except.pure, Except.ok.injEq, Prod.mk.injEq] at h
    obtain ⟨rfl, rfl⟩ := h
    have hs : s' = s := by
      cases s with
      | cursor z =>
        rcases hp with rfl | rfl
        all_goals
          simp only [St.step] at h2
          obtain ⟨x, -, h2⟩ := bind_ok.1 h2
          simp only [pure, Except.pure, Except.ok.injEq, Prod.mk.injEq] at h2
          exact h2.1.symm
      | tree t =>
        rcases hp with rfl | rfl
        all_goals
          simp only [St.step, Except.ok.injEq, Prod.mk.injEq] at h2
          exact h2.1.symm
    subst hs
    rw [List.getElem?_eq_some_iff] at h1
    obtain ⟨hi, h1⟩ := h1
    rw [← h1]
    exact List.set_getElem_self hi
  · simp only [Except.ok.injEq, Prod.mk.injEq] at h
    exact h.1.symm

omit [RazMeta E M] in
theorem Safe.peek {I : Type} {e : Engine} {a b : List (Cmd E I)} {i : Nat} {pk : ApiOp E I} (hp : pk = .peekL ∨ pk = .peekR)
    (h : Safe e (a ++ b)) : Safe e (a ++ .op i pk :: b) := by
  have hn : (a ++ .op i pk :: b).flatMap Cmd.names = (a ++ b).flatMap Cmd.names := by
    rcases hp with rfl | rfl <;> simp [Cmd.names]
  refine h.imp id (Or.imp (fun h => ?_) (fun ⟨h, h'⟩ => ⟨?_, ?_⟩))
  · unfold NoNames at *; rw [hn]; exact h
  · unfold GoodNames at *; rw [hn]; exact h
  · intro c hc
    rw [List.mem_append, List.mem_cons] at hc
    rcases hc with hc | rfl | hc
    · exact h' c (by simp [hc])
    · rfl
    · exact h' c (by simp [hc])

/-- **C42, partial.** Leaving out a `peek` changes no other answer of the program, on this or any other sequence: for the
functional engine, for programs without names, and for programs that use each name once and make no clones. Missing: named
sequences with clones under the incremental engine, where it is false (`C42_peek_changes_clone`). -/
theorem C42_peek_partial {e : Engine} {a b : List (Cmd E (RazMeta.Index E M))} {i : Nat} {pk : ApiOp E (RazMeta.Index E M)}
    (hp : pk = .peekL ∨ pk = .peekR) (h : Safe e (a ++ b)) {os : List (Out E)}
    (ha : Answers (M := M) e (a ++ .op i pk :: b) (.ok os)) :
    ∃ o1 o o2, os = o1 ++ o :: o2 ∧ o1.length = a.length ∧ Answers (M := M) e (a ++ b) (.ok (o1 ++ o2)) := by
  have h1 := ha.unique ((h.peek hp).answers)
  have h2 := h.answers (M := M)
  unfold Iodyn.answers at h1 h2
  rw [run_append] at h1 h2
  cases hr : Vars.run (M := M) [] a with
  | error p => rw [hr] at h1; simp [bind, Except.bind, Except.map] at h1
  | ok x =>
    obtain ⟨vs, o1⟩ := x
    rw [hr] at h1 h2
    simp only [bind, Except.bind, Vars.run] at h1 h2
    cases hs : vs.step (.op i pk) with
    | error p => rw [hs] at h1; simp [Except.map] at h1
    | ok y =>
      obtain ⟨vs', o⟩ := y
      have := peek_step hp hs
      subst this
      rw [hs] at h1
      simp only at h1
      cases ht : Vars.run vs' b with
      | error p => rw [ht] at h1; simp [Except.map] at h1
      | ok z =>
        obtain ⟨vs2, o2⟩ := z
        rw [ht] at h1 h2
        simp only [pure, Except.pure, Except.map, Except.ok.injEq] at h1 h2
        exact ⟨o1, o, o2, h1, run_length a hr, h2⟩

/-- **C42, partial**: adding a `peek` anywhere in a program that runs to its end changes no other answer. -/
theorem C42_peek_added_partial [LawfulMeta E M] {e : Engine} {a b : List (Cmd E (RazMeta.Index E M))} {i : Nat}
    {pk : ApiOp E (RazMeta.Index E M)} (hp : pk = .peekL ∨ pk = .peekR) (h : Safe e (a ++ b)) (hl : ∀ c ∈ a, c.LevelOK)
    {os : List (Out E)} (ha : Answers (M := M) e (a ++ b) (.ok os)) :
    ∃ o1 o o2, os = o1 ++ o2 ∧ o1.length = a.length ∧ Answers (M := M) e (a ++ .op i pk :: b) (.ok (o1 ++ o :: o2)) := by
  have h1 := ha.unique h.answers
  have h2 := (h.peek hp (i := i)).answers (M := M)
  unfold Iodyn.answers at h1 h2
  rw [run_append] at h1 h2
  cases hr : Vars.run (M := M) [] a with
  | error p => rw [hr] at h1; simp [bind, Except.bind, Except.map] at h1
  | ok x =>
    obtain ⟨vs, o1⟩ := x
    rw [hr] at h1 h2
    simp only [bind, Except.bind, Vars.run] at h1 h2
    have hreach := (lists_run a (vs := []) (fun i s hi => by simp at hi) hl hr).2
    obtain ⟨vs', o, hs⟩ := progress_step (c := .op i pk) hreach (by rcases hp with rfl | rfl <;> trivial)
      (by rcases hp with rfl | rfl <;> simp)
    have := peek_step hp hs
    subst this
    rw [hs] at h2
    simp only at h2
    cases ht : Vars.run vs' b with
    | error p => rw [ht] at h1; simp [Except.map] at h1
    | ok z =>
      obtain ⟨vs2, o2⟩ := z
      rw [ht] at h1 h2
      simp only [pure, Except.pure, Except.map, Except.ok.injEq] at h1 h2
      exact ⟨o1, o, o2, h1, run_length a hr, h2⟩

example : ∃ (o1 : List (Out Nat)) (o : Out Nat) (o2 : List (Out Nat)), o1.length = (exNames.take 14).length ∧
    Answers (M := Count) .dcg (exNames.take 14 ++ .op 1 .peekL :: exNames.drop 14) (.ok (o1 ++ o :: o2)) := by
  have h : GoodNames exNames := by
    constructor
    · simp [exNames, Cmd.names]
    · simp [exNames, Cmd.names]
  have hc : NoClones exNames := by intro c; revert c; simp [exNames, Cmd.isClone]
  have hl : ∀ c ∈ exNames, c.LevelOK := by simp [exNames, Cmd.LevelOK, ApiOp.LevelOK]
  have hs : Safe .dcg (exNames.take 14 ++ exNames.drop 14) := by rw [List.take_append_drop]; exact .inr (.inr ⟨h, hc⟩)
  obtain ⟨os, ho⟩ := C41_runs (M := Count) hs (by rw [List.take_append_drop]; exact hl) (by simp [exNames])
  obtain ⟨o1, o, o2, -, h2, h3⟩ := C42_peek_added_partial (i := 1) (.inl rfl) hs (fun c hc => hl c (List.mem_of_mem_take hc)) ho
  exact ⟨o1, o, o2, h2, h3⟩

/-- A named tree, cloned; the cursor of one clone at the end of the left leaf. -/
def exPeek : List (Cmd Nat (RazMeta.Index Nat Count)) :=
  [.new, .op 0 (.pushL 1), .op 0 (.archL 1 (some (.usize 7))), .op 0 (.pushL 2), .op 0 .unfocus, .clone 0, .op 0 .focusLeft, .op 0 .popR]

/-- Reading the other clone. -/
def exPeekRest : List (Cmd Nat (RazMeta.Index Nat Count)) := [.op 1 .focusLeft, .op 1 .popR]

/-- **C42 is false** for clones of a named tree under the incremental engine: `peek_right` walks a copy of the forest with
`Cursor::up` (src/raz.rs:585-597), which rebuilds the node above without the branch walked out of and writes it under the
node's own name. The other clone then panics. -/
theorem C42_peek_changes_clone :
    GoodNames (exPeek ++ exPeekRest) ∧
    Answers (M := Count) .dcg (exPeek ++ exPeekRest)
      (.ok [.unit, .count 1, .unit, .count 1, .unit, .unit, .unit, .val (some 1), .unit, .val (some 1)]) ∧
    Answers (M := Count) .dcg (exPeek ++ .op 0 .peekR :: exPeekRest) (.error .unreachable) := by
  refine ⟨?_, ⟨20, fun f hf => ?_⟩, ⟨20, fun f hf => ?_⟩⟩
  · constructor <;> simp [exPeek, exPeekRest, Cmd.names]
  all_goals
    obtain ⟨k, rfl⟩ := Nat.exists_eq_add_of_le hf
    rw [Nat.add_comm]
    rfl

/-- The restriction to programs without clones in `C55_names_used_once` is needed: editing one clone of a named sequence
changes the other. -/
theorem C55_clones_interfere :
    ∃ cs : List (Cmd Nat (RazMeta.Index Nat Count)), GoodNames cs ∧ ∃ os, Answers (M := Count) .dcg cs (.ok os) ∧ answers Count cs ≠ .ok os := by
  refine ⟨[.new, .op 0 (.pushL 1), .op 0 (.archL 1 (some (.usize 7))), .op 0 (.pushL 2), .op 0 .unfocus, .clone 0,
    .op 0 .focusLeft, .op 0 (.pushL 9), .op 0 .unfocus, .op 1 .focusLeft, .op 1 .popR], ?_, [.unit, .count 1, .unit, .count 1, .unit, .unit, .unit, .count 1, .unit, .unit, .val (some 9)],
    ⟨20, fun f hf => ?_⟩, ?_⟩
  · constructor <;> simp [Cmd.names]
  · obtain ⟨k, rfl⟩ := Nat.exists_eq_add_of_le hf
    rw [Nat.add_comm]
    rfl
  · decide +kernel

/-- A name used for two sequences: the second replaces the tree node of the first. -/
theorem C55_reused_name :
    ∃ cs : List (Cmd Nat (RazMeta.Index Nat Count)), NoClones cs ∧ ∃ os, Answers (M := Count) .dcg cs (.ok os) ∧ answers Count cs ≠ .ok os := by
  refine ⟨[.new, .op 0 (.pushL 1), .op 0 (.archL 1 (some (.usize 7))), .op 0 (.pushL 2), .op 0 .unfocus,
    .new, .op 1 (.pushL 3), .op 1 (.archL 1 (some (.usize 7))), .op 1 (.pushL 4), .op 1 .unfocus, .op 0 .focusLeft, .op 0 .popR],
    ?_, [.unit, .count 1, .unit, .count 1, .unit, .unit, .count 1, .unit, .count 1, .unit, .unit, .val (some 3)],
    ⟨20, fun f hf => ?_⟩, ?_⟩
  · intro c; simp [Cmd.isClone]; rintro (rfl | rfl | rfl | rfl | rfl | rfl | rfl | rfl | rfl | rfl | rfl | rfl) <;> rfl
  · obtain ⟨k, rfl⟩ := Nat.exists_eq_add_of_le hf
    rw [Nat.add_comm]
    rfl
  · decide +kernel

end Iodyn.Heap
