import Verif.Proof.IncrWork
import Verif.Props.IncrObs
/-
C94: the work of memoised functions that read cells through functions and write named cells.
-/
namespace Iodyn.Incr
open Iodyn.Heap
open Iodyn.Skip (Skiplist Path ObsRes)
variable {V W Q O K R : Type}

section
variable [DecidableEq V] [DecidableEq W] [DecidableEq Q] [DecidableEq O] [DecidableEq K] [DecidableEq R]

/-- **C94.** Whatever the body of a memoised function does (read cells from outside, read cells of the namespace through a function, write
named cells, call itself with or without `memo!`): if it runs again and again, over any stores and with any arguments, each run with
different names for its calls and its cells, the next run evaluates exactly the calls that are new: take the calls that this run and the
last one make without memoisation, each with its name, its arguments, what it reads and writes and its result; a call that both make in
the same way is not evaluated, nor is anything below it, and all others are. The result and the cells are those without memoisation. -/
theorem C94_work {view : Q → Loc → W → P O} {body : K → OProg V W Q O K R R} {s : OSpace V W Q O K R} {past : List (Calls V W Q O K R)} (hs : RanAs view body s past)
    {σ : Store V} {n : Nat} {key : K} {c : Rec V W Q O K R R} (hc : trun view body σ n key s.mem = some (.ok c)) (h1 : c.Once) (hr : c.calls.NoReturn past) :
    ∃ o, orun view body σ n key s = some (.ok o) ∧ o.val = c.val ∧ o.space.mem = c.mem ∧ o.work = 1 + c.calls.fresh (lastCalls past) := by
  have g := Obs.runs_good hs
  obtain ⟨made, l1, l2, l3⟩ := g.last
  obtain ⟨o, o1, o2⟩ := Obs.run_work l1 n key s c g.path hc h1 (Obs.known_next g hr) (fun x hx _ => l2 x hx)
  rw [Obs.lastCalls_eq]
  exact ⟨o, o1, o2.val, o2.mem, o2.work⟩

/-- **C94, the records.** The records are those of runs without memoisation. -/
theorem C94_record (view : Q → Loc → W → P O) (body : K → OProg V W Q O K R R) (σ : Store V) (n : Nat) (key : K) (τ : Store W) :
    srun view body σ n key τ = (trun view body σ n key τ).map fun r => r.map fun c => (c.val, c.mem) := Obs.trun_plain view body σ n key τ

/-- **C94, bound.** No more calls are evaluated than there are calls that the last run did not make in the same way. -/
theorem C94_bound (old : List (Name × OEntry V W Q O K R)) : ∀ c : Calls V W Q O K R,
    c.fresh old ≤ c.all.countP fun x => decide (∀ n ∈ x.1, (n, x.2) ∉ old) := by
  intro c
  induction c with
  | nil => exact Nat.le_refl _
  | cons n key rd fs r sub rest ih1 ih2 =>
    simp only [Calls.fresh, Calls.all, List.countP_append, List.countP_cons]
    split
    · omega
    · rename_i h
      have : (∀ m ∈ n, (m, (⟨key, rd, fs, r⟩ : OEntry V W Q O K R)) ∉ old) := by
        intro m hm hin
        cases hm
        exact h (by simp [hin])
      rw [if_pos (decide_eq_true this)]
      omega

/-- **C94, the same again.** If the run makes the same calls as the last one, and all calls have names, no call is evaluated: only the
function itself. -/
theorem C94_again {view : Q → Loc → W → P O} {body : K → OProg V W Q O K R R} {s : OSpace V W Q O K R} {past : List (Calls V W Q O K R)} {c : Rec V W Q O K R R}
    (hs : RanAs view body s (c.calls :: past)) {σ : Store V} {n : Nat} {key : K} (hc : trun view body σ n key s.mem = some (.ok c)) (h1 : c.Once)
    (hn : ∀ x ∈ c.calls.all, x.1.isSome) : ∃ o, orun view body σ n key s = some (.ok o) ∧ o.val = c.val ∧ o.space.mem = c.mem ∧ o.work = 1 := by
  obtain ⟨o, o1, o2, o3, o4⟩ := C94_work hs hc h1 (fun m hm hm' => absurd hm hm')
  refine ⟨o, o1, o2, o3, ?_⟩
  have := C94_bound (lastCalls (c.calls :: past)) c.calls
  rw [List.countP_eq_zero.2] at this
  · omega
  · intro x hx
    have key : ∀ (d : Calls V W Q O K R), x ∈ d.all → ∀ m, x.1 = some m → (m, x.2) ∈ d.entries := by
      intro d
      induction d with
      | nil => intro h; cases h
      | cons n key rd fs r sub rest ih1 ih2 =>
        intro h m hm
        simp only [Calls.all, List.mem_cons, List.mem_append] at h
        simp only [Calls.entries, List.mem_append]
        rcases h with rfl | h | h
        · cases hm; exact .inl (.inl (by simp))
        · exact .inl (.inr (ih1 h m hm))
        · exact .inr (ih2 h m hm)
    obtain ⟨m, hm⟩ := Option.isSome_iff_exists.1 (hn x hx)
    simp only [decide_eq_true_eq]
    intro h
    exact h m hm (key _ hx m hm)
end

/-! ### Cases -/

deriving instance DecidableEq for Calls

/-- A run over the first variable after some statements, and its record without memoisation. -/
def uniqueBoth (L : Nat) (cs : List (Cmd Nat (RazMeta.Index Nat Count))) (vs : HVars Nat Count) (σ : RMem Nat Count) (s : UqSpace Nat Count) :
    Option (HVars Nat Count × RMem Nat Count × Tr × OOut (Heap.Cell (TreeData Nat Count) (Nat × List Nat)) (Path Nat Unit) ObsParam (ObsRes Nat Unit) (LrKey Skiplist) Skiplist Skiplist ×
      Rec (Heap.Cell (TreeData Nat Count) (Nat × List Nat)) (Path Nat Unit) ObsParam (ObsRes Nat Unit) (LrKey Skiplist) Skiplist Skiplist) := do
  let (vs, σ, h, o) ← uniqueNext L cs vs σ s
  match trun skipView (lrObsBody (uniqueNode exHash)) σ 60 ⟨h, some (.str "start"), Eval.UniqueElms.start L⟩ s.mem with
  | some (.ok c) => return (vs, σ, h, o, c)
  | _ => none

theorem uniqueBoth_runs {L : Nat} {cs : List (Cmd Nat (RazMeta.Index Nat Count))} {vs vs' : HVars Nat Count} {σ σ' : RMem Nat Count} {s : UqSpace Nat Count}
    {h : Tr} {o} {c} (hx : uniqueBoth L cs vs σ s = some (vs', σ', h, o, c)) :
    orun skipView (lrObsBody (uniqueNode exHash)) σ' 60 ⟨h, some (.str "start"), Eval.UniqueElms.start L⟩ s = some (.ok o) ∧
    trun skipView (lrObsBody (uniqueNode exHash)) σ' 60 ⟨h, some (.str "start"), Eval.UniqueElms.start L⟩ s.mem = some (.ok c) := by
  unfold uniqueBoth at hx
  obtain ⟨⟨vs1, σ1, h1, o1⟩, e1, hx⟩ := Option.bind_eq_some_iff.1 hx
  simp only at hx
  split at hx
  · rename_i c' hc
    cases hx
    exact ⟨uniqueNext_orun e1, hc⟩
  · cases hx

/-- Whether a run uses each name and each cell once. -/
def onceB {A : Type} (c : Rec V W Q O K R A) : Bool := decide c.calls.names.Nodup && decide ((madeBy c.facts).map (·.1)).Nodup

theorem onceB_once {A : Type} {c : Rec V W Q O K R A} (h : onceB c = true) : c.Once := by
  simp only [onceB, Bool.and_eq_true, decide_eq_true_eq] at h
  exact h

/-- Whether no name comes back. -/
def noReturnB (past : List (Calls V W Q O K R)) (c : Calls V W Q O K R) : Bool :=
  match past with
  | [] => true
  | last :: older => c.names.all fun m => decide (m ∈ last.names) || older.all fun d => decide (m ∉ d.names)

theorem noReturnB_ok {past : List (Calls V W Q O K R)} {c : Calls V W Q O K R} (h : noReturnB past c = true) : c.NoReturn past := by
  cases past with
  | nil => trivial
  | cons last older =>
    intro m hm hm' d hd
    simp only [noReturnB, List.all_eq_true, Bool.or_eq_true, decide_eq_true_eq] at h
    rcases h m hm with h | h
    · exact absurd h hm'
    · exact h d hd

/-- Four runs: on a tree of nine nodes, after edits at the left and the right end, and with a new archive point. The last one finds none of its ten calls
as they were, the one before finds two of them, with all below. Then the same again. -/
example : ∃ (s s' : UqSpace Nat Count) (past : List (Calls _ _ _ _ _ _)) (σ σ' : RMem Nat Count) (h h' : Tr) (c c' : Rec _ _ _ _ _ _ Skiplist) (o o' : OOut _ _ _ _ _ _ _),
    RanAs skipView (lrObsBody (uniqueNode exHash)) s past ∧ past.length = 2 ∧ c.Once ∧ c.calls.NoReturn past ∧ c.calls.all.length = 8 ∧
    orun skipView (lrObsBody (uniqueNode exHash)) σ 60 ⟨h, some (.str "start"), Eval.UniqueElms.start 3⟩ s = some (.ok o) ∧
    c.calls.fresh (lastCalls past) = 3 ∧ o.work = 4 ∧
    RanAs skipView (lrObsBody (uniqueNode exHash)) s' (c'.calls :: c.calls :: past) ∧ c'.calls.all.length = 10 ∧ c'.calls.fresh c.calls.entries = 10 ∧
    (∀ x ∈ c'.calls.all, x.1.isSome) ∧
    orun skipView (lrObsBody (uniqueNode exHash)) σ' 60 ⟨h', some (.str "start"), Eval.UniqueElms.start 3⟩ s' = some (.ok o') ∧ o'.work = 1 := by
  have hx : (do
      let (vs, σ, _, o1, c1) ← uniqueBoth 3 exBuild [] Store.empty OSpace.empty
      let (vs, σ, _, o2, c2) ← uniqueBoth 3 exEdit vs σ o1.space
      let (vs, σ, _, o3, c3) ← uniqueBoth 3 [.op 0 (.focus (6 : Nat)), .op 0 (.pushL 8), .op 0 .unfocus] vs σ o2.space
      let (vs, σ, _, o4, c4) ← uniqueBoth 3 [.op 0 .focusLeft, .op 0 (.pushL 1), .op 0 (.archL 2 (some (.usize 9))), .op 0 .unfocus] vs σ o3.space
      let (_, _, _, _, c5) ← uniqueBoth 3 [] vs σ o4.space
      return ([onceB c1, noReturnB [] c1.calls, onceB c2, noReturnB [c1.calls] c2.calls, onceB c3, noReturnB [c2.calls, c1.calls] c3.calls,
        onceB c4, noReturnB [c3.calls, c2.calls, c1.calls] c4.calls, c4.calls.all.all (fun x => x.1.isSome), decide (c5.calls = c4.calls), onceB c5],
        [c3.calls.all.length, c3.calls.fresh (lastCalls [c2.calls, c1.calls]), c4.calls.all.length, c4.calls.fresh c3.calls.entries])) =
      some (List.replicate 11 true, [8, 3, 10, 10]) := by decide +kernel
  obtain ⟨⟨vs1, σ1, h1, o1, c1⟩, e1, hx⟩ := Option.bind_eq_some_iff.1 hx
  obtain ⟨⟨vs2, σ2, h2, o2, c2⟩, e2, hx⟩ := Option.bind_eq_some_iff.1 hx
  obtain ⟨⟨vs3, σ3, h3, o3, c3⟩, e3, hx⟩ := Option.bind_eq_some_iff.1 hx
  obtain ⟨⟨vs4, σ4, h4, o4, c4⟩, e4, hx⟩ := Option.bind_eq_some_iff.1 hx
  obtain ⟨⟨vs5, σ5, h5, o5, c5⟩, e5, hx⟩ := Option.bind_eq_some_iff.1 hx
  obtain ⟨a1, b1⟩ := uniqueBoth_runs e1
  obtain ⟨a2, b2⟩ := uniqueBoth_runs e2
  obtain ⟨a3, b3⟩ := uniqueBoth_runs e3
  obtain ⟨a4, b4⟩ := uniqueBoth_runs e4
  obtain ⟨a5, b5⟩ := uniqueBoth_runs e5
  have hx := Option.some.inj hx
  simp only [Prod.mk.injEq, decide_eq_true_eq, List.replicate, List.cons.injEq, and_true] at hx
  obtain ⟨⟨x1, y1, x2, y2, x3, y3, x4, y4, z5, z6, z7⟩, z1, z2, z3, z4⟩ := hx
  have r1 := RanAs.run .start b1 (onceB_once x1) (noReturnB_ok y1) a1
  have r2 := RanAs.run r1 b2 (onceB_once x2) (noReturnB_ok y2) a2
  have r3 := RanAs.run r2 b3 (onceB_once x3) (noReturnB_ok y3) a3
  have r4 := RanAs.run r3 b4 (onceB_once x4) (noReturnB_ok y4) a4
  obtain ⟨o, k1, -, -, k2⟩ := C94_work r2 b3 (onceB_once x3) (noReturnB_ok y3)
  have z5 := List.all_eq_true.1 z5
  have w : o5.work = 1 := by
    obtain ⟨o', k3, -, -, k4⟩ := C94_again (c := c5) (past := [c3.calls, c2.calls, c1.calls]) (by rw [z6]; exact r4) b5 (onceB_once z7) (by rw [z6]; exact z5)
    rw [k3] at a5
    cases a5
    exact k4
  exact ⟨o2.space, o4.space, _, σ3, σ5, h3, h5, c3, c4, o, o5, r2, rfl, onceB_once x3, noReturnB_ok y3, z1, k1, z2, by rw [k2, z2], r4, z3, z4, z5, a5, w⟩

end Iodyn.Incr
