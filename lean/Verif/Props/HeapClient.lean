import Verif.Proof.HeapClientGood
import Verif.Proof.HeapClientFuel
import Verif.Props.HeapMemoFrom
import Verif.Props.HeapMap
/-
C69 `map` and `memo_from` in a namespace of their own leave their argument as it is.
-/
namespace Iodyn.Heap
variable {E M C : Type} [RazMeta E M]

/-- A client has one result. -/
theorem CEvAnswers.unique {e : Engine} {fn : C → E → E} {l : List (NsPath × CEv E (RazMeta.Index E M) C)} {r r' : P (List (Out E))}
    (h : CEvAnswers (M := M) e fn l r) (h' : CEvAnswers (M := M) e fn l r') : r = r' := by
  obtain ⟨f, hf⟩ := h
  obtain ⟨g, hg⟩ := h'
  rw [← hf (max f g) (Nat.le_max_left _ _), hg (max f g) (Nat.le_max_right _ _)]

/-- **C69, in general.** A client that never uses a sequence or a stack after one of its cells may have been replaced through another
gives the functional answers, in which `map` and `memo_from` only set the variable they are assigned to. -/
theorem C69_owned {e : Engine} {fn : C → E → E} {l : List (NsPath × CEv E (RazMeta.Index E M) C)} (h : COwned M fn l) :
    CEvAnswers (M := M) e fn l (cevAnswers M fn (l.map (·.2))) := cevAnswers_of_owned h

/-- **C69.** Sequences and stacks are made and edited in the namespaces `S`, with each name used once; in between they are mapped or
converted, in other namespaces, as often as one likes and in the same namespace each time; and the result is edited and read,
also with names of its own. All answers are those of the functional semantics. -/
theorem C69_session {e : Engine} {fn : C → E → E} {S : List NsPath} {p : NsPath} (hp : p ∉ S) {l : List (NsPath × CEv E (RazMeta.Index E M) C)}
    (h : MapSession S [] [] l) : CEvAnswers (M := M) e fn ((p, .ev (.stmt .new)) :: l) (cevAnswers M fn (.ev (.stmt .new) :: l.map (·.2))) :=
  C69_owned (mapSession_owned hp h)

/-! ### Plain lists -/

theorem topBits_step {st st' : SSt E M} {ev : SEv E (RazMeta.Index E M)} {a : Out E} (hs : st.step ev = .ok (st', a)) :
    topBits st'.stacks = ev.bits (topBits st.stacks) := by
  obtain ⟨vs, ss⟩ := st
  cases ev with
  | stmt c =>
    obtain ⟨⟨vs', o⟩, h1, h2⟩ := bind_ok.1 hs
    cases h2
    rfl
  | stack =>
    cases hs
    simp only [topBits, List.map_append]; rfl
  | sclone j =>
    simp only [SEv.bits, topBits_get]
    rcases hj : ss[j]? with _ | (_ | s) <;> simp only [SSt.step, hj] at hs <;> cases hs
    · rfl
    · rfl
    · simp [topBits]
  | spush j x =>
    simp only [SEv.bits, topBits_get]
    rcases hj : ss[j]? with _ | (_ | s) <;> simp only [SSt.step, hj] at hs <;> cases hs
    · rfl
    · rfl
    · have hc : (s.push x).current.isEmpty = false := by simp [AStack.push]
      simp [topBits, List.map_set, push_elems, hc]
  | sarch j nm lev =>
    simp only [SEv.bits, topBits_get]
    rcases hj : ss[j]? with _ | (_ | s) <;> simp only [SSt.step, hj] at hs <;> cases hs
    · rfl
    · rfl
    · simp [topBits, List.map_set, archive_elems, archive_current]
  | conv w j =>
    simp only [SEv.bits, topBits_get]
    rcases hj : ss[j]? with _ | (_ | s) <;> simp only [SSt.step, hj] at hs
    · cases hs; rfl
    · cases hs; rfl
    · obtain ⟨t, h1, h2⟩ := bind_ok.1 hs
      cases h2
      simp [topBits, List.map_set]

theorem lists_cev [LawfulMeta E M] {fn : C → E → E} {st st' : SSt E M} {ev : CEv E (RazMeta.Index E M) C} {l : List (CEv E (RazMeta.Index E M) C)} {a : Out E}
    (h : AllReach st.vars) (hb : AllBuilt st.stacks) (hl : ev.LevelOK) (ht : CTops (topBits st.stacks) (ev :: l))
    (hs : st.cev fn ev = .ok (st', a)) :
    LCEv fn ⟨readVars st.vars, readStacks st.stacks⟩ ev a ⟨readVars st'.vars, readStacks st'.stacks⟩ ∧ AllReach st'.vars ∧
      AllBuilt st'.stacks ∧ CTops (topBits st'.stacks) l := by
  cases ev with
  | ev x =>
    obtain ⟨t1, t2⟩ := ht
    have hx : Tops (topBits st.stacks) [x] := by
      cases x <;> simp only [Tops] <;> (try split) <;> (try trivial)
      exact ⟨t1 _ _ _ rfl (by assumption), trivial⟩
    obtain ⟨k1, k2, k3, -⟩ := lists_sev h hb hl hx hs
    exact ⟨.ev k1, k2, k3, topBits_step hs ▸ t2⟩
  | map c i d =>
    have none' : (∀ t, st.vars[i]? ≠ some (some (.tree t))) → (Except.ok ((⟨st.vars.set d none, st.stacks⟩ : SSt E M), Out.unit) : P _) = .ok (st', a) →
        LCEv fn ⟨readVars st.vars, readStacks st.stacks⟩ (.map c i d : CEv E (RazMeta.Index E M) C) a ⟨readVars st'.vars, readStacks st'.stacks⟩ ∧ AllReach st'.vars ∧
          AllBuilt st'.stacks ∧ CTops (topBits st'.stacks) l := by
      intro hn hs
      cases hs
      refine ⟨?_, h.set d (by rintro _ ⟨⟩), hb, ht⟩
      rw [readVars_set]
      exact .noMap fun l hc => by obtain ⟨t, ht, -⟩ := isTree_iff.1 hc; exact hn t ht
    simp only [SSt.cev] at hs
    split at hs
    · next t hv =>
      obtain ⟨x, h1, h2⟩ := bind_ok.1 hs
      cases h2
      obtain ⟨t', k1, -, k3, -, k5⟩ := C15_map (N := M) (h i _ hv) (fn c)
      rw [k1] at h1
      cases h1
      refine ⟨?_, h.set d (by rintro _ ⟨⟩; exact k5), hb, ht⟩
      rw [readVars_set]
      simp only [Option.map_some, St.read, k3]
      exact .map (isTree_iff.2 ⟨t, hv, rfl⟩)
    · next hn => exact none' hn hs
  | conv w j d =>
    obtain ⟨t1, t2⟩ := ht
    simp only [SSt.cev] at hs
    split at hs
    · next s hj =>
      obtain ⟨t, h1, h2⟩ := bind_ok.1 hs
      cases h2
      have ht1 := t1 (!s.elems.isEmpty, !s.current.isEmpty) (by rw [topBits_get, hj]; rfl)
      obtain ⟨k1, k2⟩ := conv_lists (hb j s hj) (by simpa using ht1) h1
      refine ⟨?_, h.set d (by rintro _ ⟨⟩; exact k2), hb, t2⟩
      rw [readVars_set]
      simp only [Option.map_some, St.read, k1]
      exact .conv (by rw [readStacks_get, hj]; rfl)
    · next hn =>
      cases hs
      refine ⟨?_, h.set d (by rintro _ ⟨⟩), hb, t2⟩
      rw [readVars_set]
      exact .noConv (readStacks_bad hn)

theorem lists_cevs [LawfulMeta E M] {fn : C → E → E} (l : List (CEv E (RazMeta.Index E M) C)) :
    ∀ {st st' : SSt E M} {as : List (Out E)}, AllReach st.vars → AllBuilt st.stacks → (∀ ev ∈ l, ev.LevelOK) → CTops (topBits st.stacks) l →
      st.cevs fn l = .ok (st', as) →
      LCEvs fn ⟨readVars st.vars, readStacks st.stacks⟩ l as ⟨readVars st'.vars, readStacks st'.stacks⟩ := by
  induction l with
  | nil =>
    intro st st' as _ _ _ _ hr
    cases hr
    exact .nil _
  | cons ev l ih =>
    intro st st' as h hb hl ht hr
    obtain ⟨⟨s1, a⟩, h1, hr⟩ := bind_ok.1 hr
    obtain ⟨⟨s2, as⟩, h2, hr⟩ := bind_ok.1 hr
    cases hr
    obtain ⟨k1, k2, k3, k4⟩ := lists_cev h hb (hl ev List.mem_cons_self) ht h1
    exact .cons k1 (ih k2 k3 (fun ev h => hl ev (List.mem_cons_of_mem _ h)) k4 h2)

/-- **C69, on plain lists.** The answers are those of plain lists, where `map` and `memo_from` make a list of their own and change no
other. -/
theorem C69_lists [LawfulMeta E M] {e : Engine} {fn : C → E → E} {l : List (NsPath × CEv E (RazMeta.Index E M) C)} (h : COwned M fn l)
    (hl : ∀ ev ∈ l, ev.2.LevelOK) (ht : CTops [] (l.map (·.2))) {as : List (Out E)} (ha : CEvAnswers (M := M) e fn l (.ok as)) :
    ∃ st, LCEvs fn ⟨[], []⟩ (l.map (·.2)) as st := by
  have := ha.unique (C69_owned h)
  unfold cevAnswers at this
  cases hr : SSt.cevs fn (⟨[], []⟩ : SSt E M) (l.map (·.2)) with
  | error p => rw [hr] at this; cases this
  | ok x =>
    obtain ⟨st, as'⟩ := x
    rw [hr] at this
    cases this
    refine ⟨_, lists_cevs _ (st := ⟨[], []⟩) (fun i s hi => by simp at hi) (fun i s hi => by simp at hi) (fun ev hev => ?_) ht hr⟩
    obtain ⟨d, hd, rfl⟩ := List.mem_map.1 hev
    exact hl d hd

theorem conv_runs {s : AStack E Nat} (hb : s.Built (fun n => 1 ≤ n ∧ n < u32Max)) (w : End) : ∃ t, w.conv (M := M) s = .ok t := by
  cases w with
  | tail => obtain ⟨t, h, -⟩ := C17_memo_from_tail (M := M) hb; exact ⟨t, h⟩
  | head =>
    obtain ⟨t, h, -⟩ := C18_memo_from_head (M := M) (built_mono (ok' := fun n => 1 ≤ n ∧ n ≤ u32Max) (fun n h => ⟨h.1, Nat.le_of_lt h.2⟩) hb)
    exact ⟨t, h⟩

theorem progress_cev [LawfulMeta E M] {fn : C → E → E} {st : SSt E M} {ev : CEv E (RazMeta.Index E M) C} (h : AllReach st.vars) (hb : AllBuilt st.stacks)
    (hl : ev.LevelOK) (hf : ∀ i x, ev ≠ .ev (.stmt (.op i (.focus x)))) : ∃ st' o, st.cev fn ev = .ok (st', o) := by
  cases ev with
  | ev x =>
    cases x with
    | stmt c =>
      obtain ⟨vs', o, h1⟩ := progress_step h hl (fun i x hc => hf i x (by rw [hc]))
      exact ⟨⟨vs', st.stacks⟩, o, by simp only [SSt.cev, SSt.step, h1, bind, Except.bind]; rfl⟩
    | conv w j =>
      simp only [SSt.cev, SSt.step]
      split
      · next s hj =>
        obtain ⟨t, h1⟩ := conv_runs (M := M) (hb j s hj) w
        exact ⟨_, _, by rw [h1]; rfl⟩
      · exact ⟨_, _, rfl⟩
    | stack => exact ⟨_, _, rfl⟩
    | sclone j => simp only [SSt.cev, SSt.step]; split <;> exact ⟨_, _, rfl⟩
    | spush j x => simp only [SSt.cev, SSt.step]; split <;> exact ⟨_, _, rfl⟩
    | sarch j nm lev => simp only [SSt.cev, SSt.step]; split <;> exact ⟨_, _, rfl⟩
  | map c i d =>
    simp only [SSt.cev]
    split
    · next t hv =>
      obtain ⟨t', h1, -⟩ := C15_map (N := M) (h i _ hv) (fn c)
      exact ⟨_, _, by rw [h1]; rfl⟩
    · exact ⟨_, _, rfl⟩
  | conv w j d =>
    simp only [SSt.cev]
    split
    · next s hj =>
      obtain ⟨t, h1⟩ := conv_runs (M := M) (hb j s hj) w
      exact ⟨_, _, by rw [h1]; rfl⟩
    · exact ⟨_, _, rfl⟩

/-- **C69, no panic.** A permitted client without `focus` runs to its end. -/
theorem C69_runs [LawfulMeta E M] {e : Engine} {fn : C → E → E} {l : List (NsPath × CEv E (RazMeta.Index E M) C)} (h : COwned M fn l)
    (hl : ∀ ev ∈ l, ev.2.LevelOK) (ht : CTops [] (l.map (·.2))) (hf : ∀ ev ∈ l, ∀ i x, ev.2 ≠ .ev (.stmt (.op i (.focus x)))) :
    ∃ as, CEvAnswers (M := M) e fn l (.ok as) := by
  have key : ∀ (l : List (CEv E (RazMeta.Index E M) C)) (st : SSt E M), AllReach st.vars → AllBuilt st.stacks → (∀ ev ∈ l, ev.LevelOK) →
      CTops (topBits st.stacks) l → (∀ ev ∈ l, ∀ i x, ev ≠ .ev (.stmt (.op i (.focus x)))) → ∃ st' as, st.cevs fn l = .ok (st', as) := by
    intro l
    induction l with
    | nil => intro st _ _ _ _ _; exact ⟨_, _, rfl⟩
    | cons ev l ih =>
      intro st hr hb hl ht hf
      obtain ⟨s1, o, h1⟩ := progress_cev (fn := fn) hr hb (hl ev (by simp)) (hf ev (by simp))
      obtain ⟨-, k2, k3, k4⟩ := lists_cev hr hb (hl ev (by simp)) ht h1
      obtain ⟨s2, os, h2⟩ := ih s1 k2 k3 (fun c hc => hl c (List.mem_cons_of_mem _ hc)) k4 (fun c hc => hf c (List.mem_cons_of_mem _ hc))
      exact ⟨s2, o :: os, by simp only [SSt.cevs, h1, bind, Except.bind, h2]; rfl⟩
  have hl' : ∀ ev ∈ l.map (·.2), ev.LevelOK := fun ev hev => by obtain ⟨d, hd, rfl⟩ := List.mem_map.1 hev; exact hl d hd
  have hf' : ∀ ev ∈ l.map (·.2), ∀ i x, ev ≠ .ev (.stmt (.op i (.focus x))) := fun ev hev => by
    obtain ⟨d, hd, rfl⟩ := List.mem_map.1 hev; exact hf d hd
  obtain ⟨st', as, h1⟩ := key _ ⟨[], []⟩ (fun i s hi => by simp at hi) (fun i s hi => by simp at hi) hl' ht hf'
  refine ⟨as, ?_⟩
  have := C69_owned (e := e) h
  unfold cevAnswers at this
  rw [h1] at this
  exact this

/-! ### Instances -/

/-- A sequence 1, 2, 3 is made in the root namespace, as variable 1, with two named archive points; mapped in `p` to variable 0, which is
read and edited; then the sequence is edited, mapped again in `p`, and both are read. -/
def exMapIn (p : NsPath) : List (NsPath × CEv Nat (RazMeta.Index Nat Count) Bool) :=
  ([.new, .op 1 (.pushL 1), .op 1 (.archL 3 (some (.usize 7))), .op 1 (.pushL 2), .op 1 (.archL 1 (some (.usize 8))), .op 1 (.pushL 3),
    .op 1 .unfocus].map (fun c => ([], .ev (.stmt c)))) ++
  [(p, .map true 1 0)] ++
  ([.op 0 .focusLeft, .op 0 .popR, .op 0 (.pushL 5), .op 0 (.archL 2 (some (.usize 9))), .op 0 .unfocus].map (fun c => (p, .ev (.stmt c)))) ++
  ([.op 1 .focusLeft, .op 1 .popR, .op 1 (.pushL 4), .op 1 (.archL 2 (some (.usize 9))), .op 1 .unfocus].map (fun c => ([], .ev (.stmt c)))) ++
  [(p, .map false 1 0)] ++
  ([.op 0 .focusLeft, .op 0 .popR, .op 0 .popR, .op 0 .popR, .op 0 .popR].map (fun c => (p, .ev (.stmt c)))) ++
  ([.op 1 .focusLeft, .op 1 .popR, .op 1 .popR, .op 1 .popR, .op 1 .popR].map (fun c => ([], .ev (.stmt c))))

/-- A stack is filled with a named archive point, converted, filled some more and converted again, in both ways, as `memo_from` is used
by the harness (eval/src/eval_iraz.rs:93). -/
def exConvIn (p : NsPath) : List (NsPath × CEv Nat (RazMeta.Index Nat Count) Bool) :=
  ([.stack, .spush 0 1, .sarch 0 (some (.str "a")) 2, .spush 0 2].map (fun x => ([], .ev x))) ++
  [(p, .conv .tail 0 0), (p, .ev (.stmt (.op 0 .focusLeft))), (p, .ev (.stmt (.op 0 .popR)))] ++
  ([.sarch 0 (some (.str "b")) 3, .spush 0 3].map (fun x => ([], .ev x))) ++
  [(p, .conv .tail 0 0), (p, .ev (.stmt (.op 0 .focusLeft))), (p, .ev (.stmt (.op 0 .popR))), (p, .ev (.stmt (.op 0 .popR))), (p, .ev (.stmt (.op 0 .popR))),
   (p, .conv .head 0 0), (p, .ev (.stmt (.op 0 .focusLeft))), (p, .ev (.stmt (.op 0 .popR)))]

/-- The result of a session, from the answers with values. -/
theorem exSession {p : NsPath} (hp : p ∉ [([] : NsPath)]) {l : List (NsPath × CEv Nat (RazMeta.Index Nat Count) Bool)} (h : MapSession [[]] [] [] l)
    {as : List (Out Nat)} (ha : cevAnswers Count exFn (.ev (.stmt .new) :: l.map (·.2)) = .ok as) :
    CEvAnswers (M := Count) .dcg exFn ((p, .ev (.stmt .new)) :: l) (.ok as) := ha ▸ C69_session hp h

example : MapSession [[]] [] [] (exMapIn [.str "m"]) ∧ ∃ as, CEvAnswers (M := Count) .dcg exFn (([.str "m"], .ev (.stmt .new)) :: exMapIn [.str "m"]) (.ok as) ∧
    as.drop 9 = [.unit, .val (some 11), .count 1, .unit, .unit, .unit, .val (some 1), .count 1, .unit, .unit, .unit,
      .unit, .val (some 8), .val (some 4), .val (some 6), .val none, .unit, .val (some 4), .val (some 2), .val (some 3), .val none] := by
  have h : MapSession [[]] [] [] (exMapIn [.str "m"]) := by
    simp [exMapIn, MapSession, SEv.isClone, Cmd.isClone, SEv.uses, Cmd.uses, SEv.cells, Cmd.cells]
  exact ⟨h, _, exSession (by simp) h (as := ((cevAnswers Count exFn (.ev (.stmt .new) :: (exMapIn [.str "m"]).map (·.2))).toOption).getD [])
    (by decide +kernel), by decide +kernel⟩

example : MapSession [[]] [] [] (exConvIn [.str "m"]) ∧ (∀ ev ∈ (([.str "m"], .ev (.stmt .new)) :: exConvIn [.str "m"] : List (NsPath × _)), ev.2.LevelOK) ∧
    CTops [] ((([.str "m"], .ev (.stmt .new)) :: exConvIn [.str "m"] : List (NsPath × _)).map (·.2)) ∧
    ∃ as st, CEvAnswers (M := Count) .dcg exFn (([.str "m"], .ev (.stmt .new)) :: exConvIn [.str "m"]) (.ok as) ∧
      as.drop 6 = [.unit, .val (some 1), .unit, .unit, .unit, .unit, .val (some 1), .val (some 2), .val (some 3), .unit, .unit, .val (some 3)] ∧
      LCEvs exFn ⟨[], []⟩ ((([.str "m"], .ev (.stmt .new)) :: exConvIn [.str "m"] : List (NsPath × _)).map (·.2)) as st := by
  have h : MapSession [[]] [] [] (exConvIn [.str "m"]) := by
    simp [exConvIn, MapSession, SEv.isClone, SEv.uses, SEv.cells, Cmd.cells]
  have hl : ∀ ev ∈ (([.str "m"], .ev (.stmt .new)) :: exConvIn [.str "m"] : List (NsPath × _)), ev.2.LevelOK := by
    simp [exConvIn, CEv.LevelOK, SEv.LevelOK, Cmd.LevelOK, ApiOp.LevelOK, u32Max]
  have ht : CTops [] ((([.str "m"], .ev (.stmt .new)) :: exConvIn [.str "m"] : List (NsPath × _)).map (·.2)) := by
    simp [exConvIn, CTops, SEv.bits]
  have ha := exSession (p := [.str "m"]) (by simp) h (as := ((cevAnswers Count exFn (.ev (.stmt .new) :: (exConvIn [.str "m"]).map (·.2))).toOption).getD [])
    (by decide +kernel)
  obtain ⟨as', ha'⟩ := C69_runs (e := .dcg) (mapSession_owned (fn := exFn) (p := [.str "m"]) (by simp) h) hl ht (by simp [exConvIn])
  obtain rfl := Except.ok.inj (ha'.unique ha)
  obtain ⟨st, hst⟩ := C69_lists (mapSession_owned (by simp) h) hl ht ha
  exact ⟨h, hl, ht, _, st, ha, by decide +kernel, hst⟩

/-- A sequence 1, 2, 3 is made as variable 1, mapped in `p`, and read. -/
def exMapOnce (p : NsPath) : List (NsPath × CEv Nat (RazMeta.Index Nat Count) Bool) :=
  ([.new, .new, .op 1 (.pushL 1), .op 1 (.archL 3 (some (.usize 7))), .op 1 (.pushL 2), .op 1 (.archL 1 (some (.usize 8))), .op 1 (.pushL 3),
    .op 1 .unfocus].map (fun c => ([], .ev (.stmt c)))) ++
  [(p, .map true 1 0)] ++
  ([.op 1 .focusLeft, .op 1 .popR, .op 1 .popR, .op 1 .popR, .op 1 .popR].map (fun c => ([], .ev (.stmt c))))

/-- The namespace is needed: if the map is called in the namespace of the sequence, the sequence is mapped too; with a namespace for
the map it is not. -/
theorem C69_same_namespace :
    (∃ as, CEvAnswers (M := Count) .dcg exFn (exMapOnce []) (.ok as) ∧ as.drop 9 = [.unit, .val (some 11), .val (some 12), .val (some 13), .val none]) ∧
    (∃ as, CEvAnswers (M := Count) .dcg exFn (exMapOnce [.str "m"]) (.ok as) ∧ as.drop 9 = [.unit, .val (some 1), .val (some 2), .val (some 3), .val none]) := by
  refine ⟨⟨(((HSSt.cevs (M := Count) .dcg exFn ⟨[], []⟩ (exMapOnce []) 40 Store.empty).map (fun x => x.1.2)).toOption).getD [],
    .of_run 40 (by decide +kernel), by decide +kernel⟩,
    ((cevAnswers Count exFn ((exMapOnce [.str "m"]).map (·.2))).toOption).getD [], ?_, by decide +kernel⟩
  have h : cevAnswers Count exFn ((exMapOnce [.str "m"]).map (·.2)) = .ok (((cevAnswers Count exFn ((exMapOnce [.str "m"]).map (·.2))).toOption).getD []) := by
    decide +kernel
  rw [← h]
  exact C69_owned (by unfold COwned; decide +kernel)

end Iodyn.Heap
