import Verif.Proof.IncrUnique
import Verif.Props.HeapSession
/-
C92: memoised functions that read cells through functions and write named cells do what they do without memoisation.
C93: eval/examples/unique_elms.rs with the incremental engine.
-/
namespace Iodyn.Incr
open Iodyn.Heap
open Iodyn.Skip (Skiplist Path ObsRes)
variable {V W Q O K R A E M G Γ : Type}

/-! ### C92 -/

section
variable [DecidableEq V] [DecidableEq W] [DecidableEq O] [DecidableEq K]

/-- **C92.** Whatever the body of a memoised function does — read cells from outside, read cells of the namespace through a function
(`force_map`), write named cells, call itself with or without `memo!` — and however often it ran before, with whatever arguments, over
whatever stores, and with the cells of the namespace changed in any way in between: a run has the result, or panic, that it has without
memoisation, and leaves all cells of the namespace as they are left without memoisation. -/
theorem C92_consistent {view : Q → Loc → W → P O} {body : K → OProg V W Q O K R R} {s : OSpace V W Q O K R} (hs : Rerun view body s) {σ : Store V}
    {n : Nat} {key : K} {r : P (OOut V W Q O K R R)} (h : orun view body σ n key s = some r) :
    Plainly view body σ key s.mem (r.map fun o => (o.val, o.space.mem)) := by
  have hg := Obs.run_good n key s _ (Obs.tableOK_rerun hs) h
  rcases r with q | o
  · exact hg
  · exact hg.2.1

/-- **C92, termination.** A run that ends without memoisation ends with it, without nesting calls deeper. -/
theorem C92_ends {view : Q → Loc → W → P O} {body : K → OProg V W Q O K R R} {s : OSpace V W Q O K R} (hs : Rerun view body s) {σ : Store V}
    {n : Nat} {key : K} {r : P (R × Store W)} (h : srun view body σ n key s.mem = some r) :
    ∃ r', (∀ m, n ≤ m → orun view body σ m key s = some r') ∧ r'.map (fun o => (o.val, o.space.mem)) = r := by
  have h1 := Obs.run_ends n key s (Obs.tableOK_rerun hs) (by rw [h]; intro h; cases h)
  rcases ho : orun view body σ n key s with _ | r'
  · exact absurd ho h1
  · exact ⟨r', fun m hm => Obs.orun_mono hm ho, (Obs.srun_det h (C92_consistent hs ho)).symm⟩
end

/-! ### C93 -/

section
variable [DecidableEq E] [DecidableEq M]

/-- **C93.** However often the computation of eval/examples/unique_elms.rs has run in a namespace, with whatever arguments and over whatever
stores, and whatever happened to the cells of the skip lists since: the next run, on any sequence whose archive points have different
names (and none of the two names that the program uses), does not panic and gives a skip list that finds exactly the elements of the
sequence. For all hash functions and path lengths 1 to 63. -/
theorem C93_again [RazMeta E M] (hash : E → Word) {L : Nat} (hL : 1 ≤ L) (hL' : L ≤ 63) {s : UqSpace E M}
    (hs : Rerun skipView (lrObsBody (uniqueNode hash)) s) {σ : RMem E M} {ht : HTree M} {t : RazTree E M} {v : Tree (Tr × TreeData E M)}
    (hv : View σ ht.tree v) (he : plain v = t.tree) (hr : t.Reachable .any) (hn : (nodeNames v).Nodup) (hu : .unit ∉ nodeNames v)
    (hst : .str "start" ∉ nodeNames v) :
    ∃ sk s', (∀ f, v.size ≤ f → uniqueIn hash L ht s f σ = .ok ((sk, s'), σ)) ∧ ∀ x, sk.get hash s'.mem x = .ok (Eval.setOf t.elems x) := by
  have cnt : ∀ x, (nodeNames v).count x = (tN .dcg t.tree).count x := by
    intro x
    rw [← he, ← names_count]
    congr 1
    have : ∀ w : Tree (Tr × TreeData E M), nodeNames (plain w) = nodeNames w := by
      intro w
      induction w with
      | nil => rfl
      | node lv n d l r ihl ihr => simp only [plain, nodeNames, ihl, ihr]
    exact (this v).symm
  have nin : ∀ x, x ∉ nodeNames v → x ∉ tN .dcg t.tree := fun x h => by rw [← List.count_eq_zero] at h ⊢; rw [← cnt]; exact h
  obtain ⟨sk, s', h1, h2, -⟩ := Obs.unique_view hash hL hL' hv he
    (List.nodup_iff_count_le_one.2 fun x => by rw [← cnt]; exact List.nodup_iff_count_le_one.1 hn x) ⟨nin _ hu, nin _ hst⟩ hr (Obs.tableOK_rerun hs)
  exact ⟨sk, s', h1, h2⟩

/-- **C93, clients.** A client edits sequences and gathers their elements in skip lists, in any order, with the incremental engine. Every run
is memoised, in one of any number of namespaces, and reuses the calls that earlier ones have stored. What each skip list finds, and a
panic at the end, is as from scratch. Conditions: as for other clients, and the names "start" and unit are not given to archive points. -/
theorem C93_client [RazMeta E M] [LawfulMeta E M] (hash : E → Word) {L : Nat} (hL : 1 ≤ L) (hL' : L ≤ 63) {l : List (CompEv E (RazMeta.Index E M))}
    (hs : Safe .dcg (CompEv.stmts l)) (hl : ∀ c ∈ CompEv.stmts l, c.LevelOK)
    (hn : ∀ n ∈ (CompEv.stmts l).flatMap Cmd.names, n ≠ .unit ∧ n ≠ .str "start") :
    CompAnswers (M := M) (uniqueRun hash L) OSpace.empty l (compAnswers (M := M) (fun t => .ok (fun x => .ok (Eval.setOf t.elems x))) l) := by
  have nin : ∀ x, (∀ m, x ≠ .pair m (.str "tree")) → x ∉ (CompEv.stmts l).flatMap Cmd.names → x ∉ (CompEv.stmts l).flatMap (cmdN .dcg) := by
    intro x hx h hm
    obtain ⟨c, h1, h2⟩ := List.mem_flatMap.1 hm
    exact Obs.cmdN_plain c hx (fun h3 => h (List.mem_flatMap.2 ⟨c, h1, h3⟩)) h2
  refine Obs.compAnswers_off (Obs.unique_off hash hL hL') (Obs.tableOK_empty _ _) l hl (safe_fine hs) (fun x hx => ⟨by simp [vN], nin x ?_ ?_⟩)
  · rcases List.mem_cons.1 hx with rfl | hx
    · intro m h; cases h
    · cases List.mem_singleton.1 hx; intro m h; cases h
  · rcases List.mem_cons.1 hx with rfl | hx
    · exact fun h => (hn _ h).1 rfl
    · cases List.mem_singleton.1 hx; exact fun h => (hn _ h).2 rfl

/-- **C93, on plain lists.** Each skip list finds exactly the elements that the list has when lists are edited instead. -/
theorem C93_lists [RazMeta E M] [LawfulMeta E M] (hash : E → Word) {L : Nat} (hL : 1 ≤ L) (hL' : L ≤ 63) {l : List (CompEv E (RazMeta.Index E M))}
    (hs : Safe .dcg (CompEv.stmts l)) (hl : ∀ c ∈ CompEv.stmts l, c.LevelOK)
    (hn : ∀ n ∈ (CompEv.stmts l).flatMap Cmd.names, n ≠ .unit ∧ n ≠ .str "start") {as : List (CompAns E (E → P (Option Unit)))}
    (ha : CompAnswers (M := M) (uniqueRun hash L) OSpace.empty l (.ok as)) :
    ∃ vs, LCompEvs (fun l b => ∀ x, b x = .ok (if x ∈ l then some () else none)) [] l as vs := by
  refine lists_answers (fun t b hr hb => ?_) hl (compAnswers_unique (C93_client hash hL hL' hs hl hn) ha)
  cases hb
  exact fun x => rfl

/-- **C93, sessions.** The sessions of eval/examples/unique_elms.rs with the incremental engine: building the sequence cell by cell, then batch
edits and computations in turn, on one store and one namespace with its stored calls. Within the number types no session panics, and
after each edit the skip list finds exactly the elements of the sequence that the edits make on a plain list: for all sizes, gauges,
batches, numbers of changes, random streams, hash functions and path lengths 1 to 63. -/
theorem C93_session (hash : E → Word) {L : Nat} (hL : 1 ≤ L) (hL' : L ≤ 63) (C : Eval.Coord G E) (word : Γ → BitVec 64 × Γ) (p : Eval.Params) (coord : G)
    (rng : Γ) (hp : InRange p) {o : Eval.Edit} (ho : Possible p o) :
    ∃ as rng', Ends (sessionH (M := Count) C word p coord rng (editH C word o) (uniqueRun hash L) OSpace.empty) (.ok (as, rng')) ∧
      Matches C p coord o (fun xs a => ∀ x, a x = .ok (if x ∈ xs then some () else none)) as := by
  obtain ⟨as, rng', h1, h2⟩ := sessionV_total C word p coord rng hp ho (scratch := fun t => .ok (fun x => .ok (Eval.setOf t.elems x)))
    (Q := fun xs (a : E → P (Option Unit)) => ∀ x, a x = .ok (if x ∈ xs then some () else none)) (fun t hr => ⟨_, rfl, fun x => rfl⟩)
  have key := session_simN (Obs.unique_numbered (M := Count) hash hL hL') (editH_follows C word o) (editH_reach C word o) C word p coord rng
    (Obs.tableOK_empty _ _)
  rw [h1] at key
  exact ⟨as, rng', key, h2⟩

/-- **C93, sessions by name.** The same for the sessions that edit at archive points found by name, against the session on values: the answers
and a panic wherever one happens. -/
theorem C93_session_names (hash : E → Word) {L : Nat} (hL : 1 ≤ L) (hL' : L ≤ 63) (C : Eval.Coord G E) (word : Γ → BitVec 64 × Γ) (p : Eval.Params) (coord : G)
    (rng : Γ) (o : Eval.Edit) (order : Γ → List Name → List Name) :
    Ends (sessionH C word p coord rng (editHN C word order o) (uniqueRun hash L) OSpace.empty)
      (sessionV C word p coord rng (fun s r => o.runN C word (order r) s r) (fun t => .ok (fun x => .ok (Eval.setOf t.elems x)))) :=
  session_simN (Obs.unique_numbered hash hL hL') (editHN_follows C word order o) (editHN_reach C word order o) C word p coord rng
    (Obs.tableOK_empty _ _)
end

/-! ### Cases -/

/-- A hash function. -/
def exHash (n : Nat) : Word := BitVec.ofNat 64 n

/-- A run over the first variable after some statements. -/
def uniqueNext (L : Nat) (cs : List (Cmd Nat (RazMeta.Index Nat Count))) (vs : HVars Nat Count) (σ : RMem Nat Count) (s : UqSpace Nat Count) :
    Option (HVars Nat Count × RMem Nat Count × Tr × OOut (Heap.Cell (TreeData Nat Count) (Nat × List Nat)) (Path Nat Unit) ObsParam (ObsRes Nat Unit) (LrKey Skiplist) Skiplist Skiplist) := do
  let ((vs, _), σ) ← (HVars.run (M := Count) .dcg vs cs 60 σ).toOption
  let h ← root0 vs
  let o ← (← orun skipView (lrObsBody (uniqueNode exHash)) σ 60 ⟨h, some (.str "start"), Eval.UniqueElms.start L⟩ s).toOption
  return (vs, σ, h, o)

/-- The work of such runs, and which numbers below ten the skip lists find. -/
def uniqueWorks (L : Nat) : List (List (Cmd Nat (RazMeta.Index Nat Count))) → HVars Nat Count → RMem Nat Count → UqSpace Nat Count → Option (List (Nat × List Nat))
  | [], _, _, _ => some []
  | cs :: l, vs, σ, s => do
    let (vs, σ, _, o) ← uniqueNext L cs vs σ s
    let ws ← uniqueWorks L l vs σ o.space
    return (o.work, (List.range 10).filter fun x => match o.val.get exHash o.space.mem x with | .ok (some _) => true | _ => false) :: ws

/-- A tree of nine nodes with edits at the left end, at the right end and a new archive point at the left end. -/
example : uniqueWorks 3 [exBuild, exEdit, [.op 0 (.focus (6 : Nat)), .op 0 (.pushL 8), .op 0 .unfocus],
    [.op 0 .focusLeft, .op 0 (.pushL 1), .op 0 (.archL 2 (some (.usize 9))), .op 0 .unfocus], []] [] Store.empty OSpace.empty =
    some [(9, [1, 2, 3, 4, 5]), (8, [1, 2, 3, 4, 5, 7]), (4, [1, 2, 3, 4, 5, 7, 8]), (11, [1, 2, 3, 4, 5, 7, 8]), (1, [1, 2, 3, 4, 5, 7, 8])] := by
  decide +kernel

theorem uniqueNext_orun {L : Nat} {cs : List (Cmd Nat (RazMeta.Index Nat Count))} {vs vs' : HVars Nat Count} {σ σ' : RMem Nat Count} {s : UqSpace Nat Count}
    {h : Tr} {o} (hx : uniqueNext L cs vs σ s = some (vs', σ', h, o)) :
    orun skipView (lrObsBody (uniqueNode exHash)) σ' 60 ⟨h, some (.str "start"), Eval.UniqueElms.start L⟩ s = some (.ok o) := by
  unfold uniqueNext at hx
  simp only [bind, Option.bind_eq_some_iff] at hx
  obtain ⟨⟨⟨vs1, x⟩, σ1⟩, -, h1, -, r, h3, y, h4, h5⟩ := hx
  cases h5
  rw [h3]
  rcases r with q | r
  · cases h4
  · cases h4; rfl

/-- A namespace with two runs, and a third one that finds 8 of the 9 calls changed and stores them anew. -/
example : ∃ (s : UqSpace Nat Count) (σ : RMem Nat Count) (h : Tr) (o : _), Rerun skipView (lrObsBody (uniqueNode exHash)) s ∧
    orun skipView (lrObsBody (uniqueNode exHash)) σ 60 ⟨h, some (.str "start"), Eval.UniqueElms.start 3⟩ s = some (.ok o) ∧ o.work = 8 ∧
    Plainly skipView (lrObsBody (uniqueNode exHash)) σ ⟨h, some (.str "start"), Eval.UniqueElms.start 3⟩ s.mem (.ok (o.val, o.space.mem)) := by
  have hx : (do
      let (vs, σ, _, o) ← uniqueNext 3 exBuild [] Store.empty OSpace.empty
      let (vs, σ, _, o) ← uniqueNext 3 [] vs σ o.space
      let (_, _, _, o) ← uniqueNext 3 exEdit vs σ o.space
      return o.work) = some 8 := by decide +kernel
  obtain ⟨⟨vs1, σ1, h1, o1⟩, e1, hx⟩ := Option.bind_eq_some_iff.1 hx
  obtain ⟨⟨vs2, σ2, h2, o2⟩, e2, hx⟩ := Option.bind_eq_some_iff.1 hx
  obtain ⟨⟨vs3, σ3, h3, o3⟩, e3, hx⟩ := Option.bind_eq_some_iff.1 hx
  have r1 := Rerun.run .start (uniqueNext_orun e1)
  have r2 := Rerun.run r1 (uniqueNext_orun e2)
  exact ⟨o2.space, σ3, h3, o3, r2, uniqueNext_orun e3, Option.some.inj hx, C92_consistent r2 (uniqueNext_orun e3)⟩

/-- The run without memoisation ends, so the one with memoisation does, also after the cells were wiped. -/
example : ∃ (s : UqSpace Nat Count) (σ : RMem Nat Count) (h : Tr) (r : P (Skiplist × Store (Path Nat Unit))), Rerun skipView (lrObsBody (uniqueNode exHash)) s ∧
    (∃ n, (s.table n).isSome) ∧ srun skipView (lrObsBody (uniqueNode exHash)) σ 60 ⟨h, some (.str "start"), Eval.UniqueElms.start 3⟩ s.mem = some r ∧
    ∃ r', (∀ m, 60 ≤ m → orun skipView (lrObsBody (uniqueNode exHash)) σ m ⟨h, some (.str "start"), Eval.UniqueElms.start 3⟩ s = some r') ∧
      r'.map (fun o => (o.val, o.space.mem)) = r := by
  have hx : (do
      let (_, σ, h, o) ← uniqueNext 3 exBuild [] Store.empty OSpace.empty
      let r ← srun skipView (lrObsBody (uniqueNode exHash)) σ 60 ⟨h, some (.str "start"), Eval.UniqueElms.start 3⟩ Store.empty
      return (o.space.table (.forkL (.pair (.usize 2) (.str "tree")))).isSome) = some true := by decide +kernel
  obtain ⟨⟨vs1, σ1, h1, o1⟩, e1, hx⟩ := Option.bind_eq_some_iff.1 hx
  obtain ⟨r, e2, hx⟩ := Option.bind_eq_some_iff.1 hx
  have r1 := Rerun.run .start (uniqueNext_orun e1)
  have r2 : Rerun skipView (lrObsBody (uniqueNode exHash)) { o1.space with mem := Store.empty } := .disturb r1 (Obs.tableOK_rerun r1).path.symm
  exact ⟨_, σ1, h1, r, r2, ⟨_, Option.some.inj hx⟩, e2, C92_ends r2 e2⟩

/-- The conditions of `C93_again` after two runs. -/
example : ∃ (s : UqSpace Nat Count) (v : Tree (Tr × TreeData Nat Count)) (σ : RMem Nat Count) (ht : HTree Count) (t : RazTree Nat Count),
    Rerun skipView (lrObsBody (uniqueNode exHash)) s ∧ (∃ n, (s.table n).isSome) ∧ View σ ht.tree v ∧ plain v = t.tree ∧ t.Reachable .any ∧
    (nodeNames v).Nodup ∧ .unit ∉ nodeNames v ∧ .str "start" ∉ nodeNames v ∧ t.elems = [7, 1, 2, 3, 4, 5] ∧
    ∃ sk s', (∀ f, v.size ≤ f → uniqueIn exHash 3 ht s f σ = .ok ((sk, s'), σ)) ∧ sk.get exHash s'.mem 7 = .ok (some ()) ∧
      sk.get exHash s'.mem 6 = .ok none := by
  have hrun : (do
      let (vs, _) ← Vars.run (M := Count) [] (exBuild ++ exEdit)
      match (vs[0]? : Option (Option (St Nat Count))) with
      | some (some (.tree t)) => return (t.elems, nodeNames t.tree)
      | _ => .error .explicit : P (List Nat × List Name)) = .ok ([7, 1, 2, 3, 4, 5], [2, 1, 3, 4].map fun n => .pair (.usize n) (.str "tree")) := by decide +kernel
  obtain ⟨⟨vs, os⟩, h1, h⟩ := bind_ok.1 hrun
  simp only at h
  have hx : (do
      let (vs, σ, _, o) ← uniqueNext 3 exBuild [] Store.empty OSpace.empty
      let (_, _, _, o) ← uniqueNext 3 exEdit vs σ o.space
      return (o.space.table (.forkL (.pair (.usize 2) (.str "tree")))).isSome) = some true := by decide +kernel
  obtain ⟨⟨vs1, σ1, h2, o1⟩, e1, hx⟩ := Option.bind_eq_some_iff.1 hx
  obtain ⟨⟨vs2, σ2, h3, o2⟩, e2, hx⟩ := Option.bind_eq_some_iff.1 hx
  have r2 := Rerun.run (Rerun.run .start (uniqueNext_orun e1)) (uniqueNext_orun e2)
  split at h
  · next t ht =>
    have hxs := Prod.mk.inj (Except.ok.inj h)
    obtain ⟨hvs, σ, -, h3⟩ := C58_reachable (M := Count) (cs := exBuild ++ exEdit) (by constructor <;> simp [exBuild, exEdit, Cmd.names])
      (by intro c; revert c; simp [exBuild, exEdit, Cmd.isClone]) h1
    obtain ⟨mt, h, v, -, k2, k3, k4⟩ := h3 0 t ht
    have hnn : nodeNames v = nodeNames t.tree := by
      rw [← k3]
      have : ∀ w : Tree (Tr × TreeData Nat Count), nodeNames w = nodeNames (plain w) := by
        intro w
        induction w with
        | nil => rfl
        | node lv n d l r ihl ihr => simp only [plain, nodeNames, ihl, ihr]
      exact this v
    have hr : t.Reachable .any := Reach.any ((lists_run (M := Count) (exBuild ++ exEdit) (vs := []) (fun i s hi => by simp at hi)
      (by simp [exBuild, exEdit, Cmd.LevelOK, ApiOp.LevelOK]) h1).2 0 _ ht)
    have hu : Name.unit ∉ nodeNames v := by rw [hnn, hxs.2]; simp
    have hst : Name.str "start" ∉ nodeNames v := by rw [hnn, hxs.2]; simp
    obtain ⟨sk, s', g1, g2⟩ := C93_again exHash (L := 3) (by decide) (by decide) r2 (ht := ⟨mt, h⟩) k2 k3 hr k4 hu hst
    refine ⟨_, v, σ, _, t, r2, ⟨_, Option.some.inj hx⟩, k2, k3, hr, k4, hu, hst, hxs.1, sk, s', g1, ?_, ?_⟩
    · rw [g2, hxs.1]; rfl
    · rw [g2, hxs.1]; rfl
  · cases h

/-- A client that gathers, edits at the left end, and gathers again. -/
example : ∃ as, CompAnswers (M := Count) (uniqueRun exHash 3) OSpace.empty exLists (.ok as) ∧
    ∃ vs, LCompEvs (fun l b => ∀ x, b x = .ok (if x ∈ l then some () else none)) [] exLists as vs := by
  obtain ⟨h1, h2⟩ := exLists_ok
  have h3 : ∀ n ∈ (CompEv.stmts exLists).flatMap Cmd.names, n ≠ .unit ∧ n ≠ .str "start" := by
    simp [exLists, exBuild, exEdit, CompEv.stmts, Cmd.names]
  have key := C93_client (M := Count) exHash (L := 3) (by decide) (by decide) h1 h2 h3
  have he : (compAnswers (M := Count) (fun t => .ok (fun x => .ok (Eval.setOf t.elems x) : Nat → P (Option Unit))) exLists).map List.length = .ok exLists.length := by
    decide +kernel
  cases hr : compAnswers (M := Count) (fun t => .ok (fun x => .ok (Eval.setOf t.elems x) : Nat → P (Option Unit))) exLists with
  | error q => rw [hr] at he; cases he
  | ok as =>
    rw [hr] at key
    exact ⟨as, key, C93_lists exHash (by decide) (by decide) h1 h2 h3 key⟩

/-- Sessions with insertions by position and by name. -/
example : ∃ as rng', Ends (sessionH (M := Count) Eval.exCoord Eval.exWord Eval.exParams 0 0 (editH Eval.exCoord Eval.exWord (.insert 2)) (uniqueRun exHash 3) OSpace.empty) (.ok (as, rng')) ∧
    Matches Eval.exCoord Eval.exParams 0 (.insert 2) (fun xs a => ∀ x, a x = .ok (if x ∈ xs then some () else none)) as :=
  C93_session exHash (by decide) (by decide) Eval.exCoord Eval.exWord Eval.exParams 0 0 exParams_inRange (.inl ⟨rfl, .inl (by decide)⟩)

example : ∃ x, Ends (sessionH Eval.exCoord Eval.exWord Eval.exParams 0 0 (editHN Eval.exCoord Eval.exWord (fun _ l => l) (.insert 2)) (uniqueRun exHash 3) OSpace.empty) (.ok x) ∧
    x.1.map (fun a => (List.range 15).filter fun n => match a n with | .ok (some _) => true | _ => false) =
      [[0, 1, 2, 3, 4], [0, 1, 2, 3, 4, 6, 7], [0, 1, 2, 3, 4, 6, 7, 9, 10], [0, 1, 2, 3, 4, 6, 7, 9, 10, 12, 13]] :=
  ends_of (C93_session_names exHash (by decide) (by decide) Eval.exCoord Eval.exWord Eval.exParams 0 0 (.insert 2) (fun _ l => l))
    (f := fun x => x.1.map (fun a => (List.range 15).filter fun n => match a n with | .ok (some _) => true | _ => false)) (by decide +kernel)

end Iodyn.Incr
