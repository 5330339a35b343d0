import Verif.Proof.IncrRebuild
import Verif.Props.IncrMap
import Verif.Props.Programs
/-
C73 memoised reverse and filter after edits.
-/
namespace Iodyn.Incr
open Iodyn.Heap
variable {E M N : Type}

section
variable [DecidableEq E] [DecidableEq M] [DecidableEq N] [RazMeta E N]

theorem rebuild_part {c : Rebuild E} {s : GSpace E M N} (hs : Up.SInv (Up.sem c) s) (old : List (Name × Tree (Tr × TreeData E M))) {σ : RMem E M} {h : Tr}
    {v : Tree (Tr × TreeData E M)} (hv : View σ (some h) v) (hn : (nodeNames v).Nodup) (mt : M) {b : RazTree E N}
    (hb : c.scratch ⟨mt, plain v⟩ = .ok (some b)) :
    ∃ o, (∀ n, v.size ≤ n → amrun (upBody c.node) σ n h s = some (.ok o)) ∧ (∃ w, View o.space.mem o.val.tree w ∧ b = ⟨o.val.info, plain w⟩) ∧
      Up.Part (Up.sem c) σ old s (some h) v (some b) (points v) (cost old v) o.reads o.facts o.work o.space (some o.val) := by
  have h1 := Up.fold_run (Up.node_ok (M := M) (N := N) c) σ old v v.size (Nat.le_refl _) h s hv hn hs
  rw [Up.scratch_eq] at hb
  have hsem : (Up.sem c : Up.Sem (HTree N) (RazTree E N) (TreeData E M) _).f = Up.valNode c := rfl
  rw [hsem, hb] at h1
  obtain ⟨o, h2, p⟩ := h1
  have hres : Up.SeqRel o.facts o.val b := p.res
  obtain ⟨w, w1, w2⟩ := hres.tree _ p.facts
  refine ⟨o, fun n hle => amrun_mono hle h2, ⟨w, w1, ?_⟩, p⟩
  rw [hres.info, w2]

omit [DecidableEq E] [DecidableEq M] [DecidableEq N] in
theorem scratch_some {c : Rebuild E} {σ : RMem E M} {h : Tr} {v : Tree (Tr × TreeData E M)} (hv : View σ (some h) v) (mt : M)
    {b : Option (RazTree E N)} (hb : c.scratch ⟨mt, plain v⟩ = .ok b) : ∃ t, b = some t := by
  rw [Up.scratch_eq] at hb
  cases hv with
  | node hc h1 h2 =>
    simp only [plain, Tree.foldUpMeta] at hb
    obtain ⟨_, -, hb⟩ := bind_ok.1 hb
    obtain ⟨_, -, hb⟩ := bind_ok.1 hb
    obtain ⟨t, -, hb⟩ := bind_ok.1 hb
    cases hb
    exact ⟨t, rfl⟩

/-- **C73.** In a namespace in which the program (reverse, or filter with some predicate) has run over any sequences from any stores before,
running it over a sequence gives a handle behind which is the sequence that the program makes from scratch, with its metadata, or
the panic of running from scratch. -/
theorem C73_again {c : Rebuild E} {s : GSpace E M N} (hs : Folded c.node s) {σ : RMem E M} {h : Tr} {v : Tree (Tr × TreeData E M)}
    (hv : View σ (some h) v) (hn : (nodeNames v).Nodup) (mt : M) :
    (∀ q, (c.scratch ⟨mt, plain v⟩ : P (Option (RazTree E N))) = .error q → ∀ n, v.size ≤ n → rebuildIn c ⟨mt, some h⟩ s n σ = .error q) ∧
    (∀ b : Option (RazTree E N), c.scratch ⟨mt, plain v⟩ = .ok b → ∃ r s', (∀ n, v.size ≤ n → rebuildIn c ⟨mt, some h⟩ s n σ = .ok ((some r, s'), σ)) ∧
      ∃ w, View s'.mem r.tree w ∧ b = some ⟨r.info, plain w⟩) := by
  constructor
  · intro q hq n hle
    have h1 := Up.fold_run (Up.node_ok (M := M) (N := N) c) σ [] v n hle h s hv hn (hs.inv (Up.node_ok c))
    rw [Up.scratch_eq] at hq
    have hsem : (Up.sem c : Up.Sem (HTree N) (RazTree E N) (TreeData E M) _).f = Up.valNode c := rfl
    rw [hsem, hq] at h1
    simp only at h1
    unfold rebuildIn
    simp only [h1]
  · intro b hb
    obtain ⟨t, rfl⟩ := scratch_some hv mt hb
    obtain ⟨o, h1, ⟨w, w1, w2⟩, -⟩ := rebuild_part (hs.inv (Up.node_ok c)) [] hv hn mt hb
    refine ⟨o.val, o.space, fun n hle => ?_, w, w1, by rw [w2]⟩
    unfold rebuildIn
    simp only [h1 n hle]

/-- **C73, the work.** In a session of any number of runs of the program in a namespace, between which the sequences and the store change in
any way, every run gives the right result and runs the functions of the program only at the nodes that are not below a branch that
the run before has seen unchanged (below a node of the same name on the same side); in particular after replacing one subtree only
at the nodes above it and in it (`k`). Condition: names that had left the sequence did not come back. -/
theorem C73_session {c : Rebuild E} {s : GSpace E M N} {v : Tree (Tr × TreeData E M)} {vs : List (Tree (Tr × TreeData E M))}
    (hs : FoldHistory c.node s (v :: vs)) {σ : RMem E M} {h : Tr} {v' : Tree (Tr × TreeData E M)} (hv : View σ (some h) v')
    (hn : (nodeNames v').Nodup) {mt : M} {b : RazTree E N} (hb : c.scratch ⟨mt, plain v'⟩ = .ok (some b)) :
    ∃ o, (∀ n, v'.size ≤ n → amrun (upBody c.node) σ n h s = some (.ok o)) ∧ (∃ w, View o.space.mem o.val.tree w ∧ b = ⟨o.val.info, plain w⟩) ∧
      o.work ≤ cost (points v) v' ∧ ∀ k, Near v v' k → o.work ≤ k := by
  have hk := hs.kept (Up.node_ok c)
  obtain ⟨o, h1, h2, p⟩ := rebuild_part hk.inv (points v) hv hn mt hb
  have hw : o.work ≤ cost (points v) v' := by
    refine p.work ?_
    intro q _ hq
    obtain ⟨fs, hf, hst⟩ := hk.last v vs rfl
    obtain ⟨e, e1, e2, e3, -⟩ := hst q hq
    exact ⟨e, e1, e2, fun x hx => hf x (e3 hx)⟩
  exact ⟨o, h1, h2, hw, fun k hkn => Nat.le_trans hw (C58_one_place hkn)⟩

/-- **C73, one run.** Whatever ran before, no node is visited twice. -/
theorem C73_at_most_size {c : Rebuild E} {s : GSpace E M N} (hs : Folded c.node s) {σ : RMem E M} {h : Tr} {v : Tree (Tr × TreeData E M)}
    (hv : View σ (some h) v) (hn : (nodeNames v).Nodup) {n : Nat} {o : AOut (Cell (TreeData E M) (Nat × List E)) (Cell (TreeData E N) (Nat × List E)) Tr (HTree N) (HTree N)}
    (ho : amrun (upBody c.node) σ n h s = some (.ok o)) : o.work ≤ v.size := by
  obtain ⟨t', -, p⟩ := Up.run_part (Up.node_ok c) [] (hs.inv (Up.node_ok c)) hv hn ho
  exact Nat.le_trans (p.work (fun q _ h => by cases h)) (cost_le_size [] v)

/-- A history can be continued with every sequence that meets the conditions. -/
theorem FoldHistory.extend {c : Rebuild E} {s : GSpace E M N} {vs : List (Tree (Tr × TreeData E M))} (hs : FoldHistory c.node s vs)
    {σ : RMem E M} {h : Tr} {v : Tree (Tr × TreeData E M)} (hv : View σ (some h) v) (hn : (nodeNames v).Nodup) (hr : NoReturn vs v)
    {mt : M} {b : RazTree E N} (hb : c.scratch ⟨mt, plain v⟩ = .ok (some b)) :
    ∃ s' : GSpace E M N, FoldHistory c.node s' (v :: vs) := by
  obtain ⟨o, h1, -⟩ := rebuild_part (hs.kept (Up.node_ok c)).inv [] hv hn mt hb
  exact ⟨_, .fold hs hv hn hr (h1 v.size (Nat.le_refl _))⟩

omit [RazMeta E N] in
/-- Histories are histories. -/
theorem FoldHistory.folded {node : NodeProg (Cell (TreeData E M) (Nat × List E)) (Cell (TreeData E N) (Nat × List E)) (HTree N) (TreeData E M)}
    {s : GSpace E M N} {vs : List (Tree (Tr × TreeData E M))} (hs : FoldHistory node s vs) : Folded node s := by
  induction hs with
  | start => exact .start
  | fold _ hv hn _ ho ih => exact .fold ih hv hn ho

/-- **C73, clients.** A client edits sequences, reverses and filters them, in any order, with the incremental engine. Every run is memoised
and reuses the calls that earlier ones have stored. If each namespace is used with one program then every sequence made, read in
full, and a panic at the end, is that of running from scratch. -/
theorem C73_client [RazMeta E M] {l : List (REv E (RazMeta.Index E M))} (hs : Safe .dcg (REv.stmts l)) {g : Name → Rebuild E}
    (hg : ∀ ev ∈ l, ev.UsesNs g) : REvAnswers (M := M) (N := N) l (revAnswers (M := M) l) :=
  Up.revAnswers_of_fine l hg (safe_fine hs)

theorem revAnswers_unique [RazMeta E M] {l : List (REv E (RazMeta.Index E M))} {r r' : P (List (RAns E N))} (h : REvAnswers (M := M) l r)
    (h' : REvAnswers (M := M) l r') : r = r' := by
  obtain ⟨f, hf⟩ := h
  obtain ⟨g, hg⟩ := h'
  rw [← hf (max f g) (Nat.le_max_left _ _), hg (max f g) (Nat.le_max_right _ _)]
end

/-- An event with plain lists. The programs give no sequence at all for an empty one. -/
inductive LREv {I : Type} : LVars E → REv E I → LAns E E → LVars E → Prop
  | stmt {vs vs' c o} : LVStep vs c o vs' → LREv vs (.stmt c) (.out o) vs'
  | rebuild {vs p c i l} : vs.IsTree i l → LREv vs (.rebuild p c i) (.mapped (c.list l)) vs
  | bad {vs p c i} : (∀ l, ¬ vs.IsTree i l) → LREv vs (.rebuild p c i) .bad vs

/-- Events with plain lists. -/
inductive LREvs {I : Type} : LVars E → List (REv E I) → List (LAns E E) → LVars E → Prop
  | nil (vs) : LREvs vs [] [] vs
  | cons {vs vs' vs'' ev l a as} : LREv vs ev a vs' → LREvs vs' l as vs'' → LREvs vs (ev :: l) (a :: as) vs''

/-- The elements of an answer; no sequence counts as one without elements. -/
def _root_.Iodyn.RAns.read : RAns E N → Option (LAns E E)
  | .out o => some (.out o)
  | .rebuilt none => some (.mapped [])
  | .rebuilt (some t) => some (.mapped t.elems)
  | .bad => some .bad
  | .lost => none

/-- Levels as in `Cmd.LevelOK`. -/
def revOK {I : Type} : REv E I → Prop
  | .stmt c => c.LevelOK
  | .rebuild .. => True

/-- The elements of what a program makes. -/
theorem scratch_elems [RazMeta E M] [RazMeta E N] (c : Rebuild E) {t : RazTree E M} (hr : t.Reachable .any) {b : Option (RazTree E N)}
    (hb : c.scratch t = .ok b) : (RAns.rebuilt b).read = some (.mapped (c.list t.elems)) := by
  cases c with
  | reverse =>
    have h1 : Eval.Reverse.inc (⟨some t, 0, (), 0, 0, 0⟩ : Eval.EvalRaz E M Unit) = (.ok b : P (Option (RazTree E N))) := hb
    rcases Eval.C46_reverse (N := N) (s := (⟨some t, 0, (), 0, 0, 0⟩ : Eval.EvalRaz E M Unit)) rfl hr (g := ()) with ⟨-, h2, h3⟩ | ⟨-, t', h2, -, h3, -⟩
    · rw [h1] at h2; cases h2
      simp only [RAns.read, Rebuild.list, h3, List.reverse_nil]
    · rw [h1] at h2; cases h2
      simp only [RAns.read, Rebuild.list, h3]
  | filter p =>
    have h1 : Eval.Filter.inc p (⟨some t, 0, (), 0, 0, 0⟩ : Eval.EvalRaz E M Unit) = (.ok b : P (Option (RazTree E N))) := hb
    rcases Eval.C46_filter (N := N) p (s := (⟨some t, 0, (), 0, 0, 0⟩ : Eval.EvalRaz E M Unit)) rfl hr (g := ()) with ⟨-, h2, h3⟩ | ⟨-, t', h2, -, h3, -⟩
    · rw [h1] at h2; cases h2
      simp only [RAns.read, Rebuild.list, h3, List.filter_nil]
    · rw [h1] at h2; cases h2
      simp only [RAns.read, Rebuild.list, h3]

theorem lists_rev [RazMeta E M] [LawfulMeta E M] [RazMeta E N] {vs vs' : Vars E M} {ev : REv E (RazMeta.Index E M)} {a : RAns E N}
    (h : AllReach vs) (hl : revOK ev) (hs : vs.rev ev = .ok (vs', a)) :
    (∃ b, a.read = some b ∧ LREv (readVars vs) ev b (readVars vs')) ∧ AllReach vs' := by
  cases ev with
  | stmt c =>
    obtain ⟨⟨vs1, o⟩, h1, h2⟩ := bind_ok.1 hs
    cases h2
    obtain ⟨k1, k2⟩ := lists_step h hl h1
    exact ⟨⟨_, rfl, .stmt k1⟩, k2⟩
  | rebuild p c i =>
    simp only [Vars.rev] at hs
    split at hs
    · next t ht =>
      obtain ⟨x, h1, h2⟩ := bind_ok.1 hs
      cases h2
      exact ⟨⟨_, scratch_elems c (Reach.any (h i _ ht)) h1, .rebuild (isTree_iff.2 ⟨t, ht, rfl⟩)⟩, h⟩
    · next hn =>
      cases hs
      exact ⟨⟨_, rfl, .bad fun l hc => by obtain ⟨t, ht, -⟩ := isTree_iff.1 hc; exact hn t ht⟩, h⟩

theorem lists_revs [RazMeta E M] [LawfulMeta E M] [RazMeta E N] (l : List (REv E (RazMeta.Index E M))) :
    ∀ {vs vs' : Vars E M} {as : List (RAns E N)}, AllReach vs → (∀ ev ∈ l, revOK ev) → vs.revs l = .ok (vs', as) →
      ∃ bs, as.map RAns.read = bs.map some ∧ LREvs (readVars vs) l bs (readVars vs') := by
  induction l with
  | nil =>
    intro vs vs' as h _ hr
    cases hr
    exact ⟨[], rfl, .nil _⟩
  | cons ev l ih =>
    intro vs vs' as h hl hr
    obtain ⟨⟨s1, a⟩, h1, hr⟩ := bind_ok.1 hr
    obtain ⟨⟨s2, as⟩, h2, hr⟩ := bind_ok.1 hr
    cases hr
    obtain ⟨⟨b, k0, k1⟩, k2⟩ := lists_rev h (hl ev List.mem_cons_self) h1
    obtain ⟨bs, k3, k4⟩ := ih k2 (fun ev h => hl ev (List.mem_cons_of_mem _ h)) h2
    exact ⟨b :: bs, by simp only [List.map_cons, k0, k3], .cons k1 k4⟩

/-- **C73, on plain lists.** The elements of the sequences made are those of editing plain lists and reversing and filtering them. -/
theorem C73_lists [RazMeta E M] [LawfulMeta E M] [RazMeta E N] [DecidableEq E] [DecidableEq M] [DecidableEq N]
    {l : List (REv E (RazMeta.Index E M))} (hs : Safe .dcg (REv.stmts l)) {g : Name → Rebuild E} (hg : ∀ ev ∈ l, ev.UsesNs g)
    (hl : ∀ ev ∈ l, revOK ev) {as : List (RAns E N)} (ha : REvAnswers (M := M) l (.ok as)) :
    ∃ bs vs, as.map RAns.read = bs.map some ∧ LREvs [] l bs vs := by
  have := revAnswers_unique ha (C73_client hs hg)
  unfold revAnswers at this
  cases hr : Vars.revs (M := M) (N := N) [] l with
  | error p => rw [hr] at this; cases this
  | ok x =>
    obtain ⟨vs, as'⟩ := x
    rw [hr] at this
    cases this
    obtain ⟨bs, h1, h2⟩ := lists_revs (N := N) l (vs := []) (fun i s hi => by simp at hi) hl hr
    exact ⟨bs, _, h1, h2⟩

/-! ### Examples -/

/-- A client that reverses and filters, edits, and does both again. -/
def exRebuilds : List (REv Nat (RazMeta.Index Nat Count)) :=
  exBuild.map .stmt ++ [.rebuild (.str "a") .reverse 0, .rebuild (.str "b") (.filter (fun x => decide (x % 2 = 1))) 0] ++ exEdit.map .stmt ++
    [.rebuild (.str "a") .reverse 0, .rebuild (.str "b") (.filter (fun x => decide (x % 2 = 1))) 0, .rebuild (.str "a") .reverse 1]

/-- Its namespaces. -/
def exRebuildNs (p : Name) : Rebuild Nat := if p = .str "a" then .reverse else .filter (fun x => decide (x % 2 = 1))

theorem exRebuilds_ok : Safe .dcg (REv.stmts exRebuilds) ∧ (∀ ev ∈ exRebuilds, ev.UsesNs exRebuildNs) ∧ (∀ ev ∈ exRebuilds, revOK ev) := by
  refine ⟨.inr (.inr ⟨⟨?_, ?_⟩, ?_⟩), ?_, ?_⟩
  · simp [exRebuilds, exBuild, exEdit, REv.stmts, Cmd.names]
  · simp [exRebuilds, exBuild, exEdit, REv.stmts, Cmd.names]
  · intro c; revert c; simp [exRebuilds, exBuild, exEdit, REv.stmts, Cmd.isClone]
  · simp [exRebuilds, exBuild, exEdit, REv.UsesNs, exRebuildNs]
  · simp [exRebuilds, exBuild, exEdit, revOK, Cmd.LevelOK, ApiOp.LevelOK]

example : ∃ as, REvAnswers (M := Count) (N := Count) exRebuilds (.ok as) ∧
      (as.map RAns.read).drop 11 = ([.mapped [5, 4, 3, 2, 1], .mapped [1, 3, 5], .out .unit, .out (.count 2), .out .unit,
        .mapped [5, 4, 3, 2, 1, 7], .mapped [7, 1, 3, 5], .bad] : List (LAns Nat Nat)).map some := by
  obtain ⟨h1, h2, h3⟩ := exRebuilds_ok
  have key := C73_client (M := Count) (N := Count) h1 h2
  have he : (revAnswers (M := Count) (N := Count) exRebuilds).map (fun as => (as.map RAns.read).drop 11) =
      .ok (([.mapped [5, 4, 3, 2, 1], .mapped [1, 3, 5], .out .unit, .out (.count 2), .out .unit,
        .mapped [5, 4, 3, 2, 1, 7], .mapped [7, 1, 3, 5], .bad] : List (LAns Nat Nat)).map some) := by decide +kernel
  cases hr : revAnswers (M := Count) (N := Count) exRebuilds with
  | error q => rw [hr] at he; cases he
  | ok as =>
    rw [hr] at he key
    exact ⟨as, key, Except.ok.inj he⟩

/-- `C73_lists` for this client. -/
example {as : List (RAns Nat Count)} (h : REvAnswers (M := Count) exRebuilds (.ok as)) :
    ∃ bs vs, as.map RAns.read = bs.map some ∧ LREvs [] exRebuilds bs vs :=
  C73_lists exRebuilds_ok.1 exRebuilds_ok.2.1 exRebuilds_ok.2.2 h

/-- The work of runs over the first variable, each after some statements. -/
def rebuildWorks (c : Rebuild Nat) : List (List (Cmd Nat (RazMeta.Index Nat Count))) → HVars Nat Count → RMem Nat Count → GSpace Nat Count Count →
    Option (List Nat)
  | [], _, _, _ => some []
  | cs :: l, vs, σ, s => do
    let ((vs, _), σ) ← (HVars.run (M := Count) .dcg vs cs 60 σ).toOption
    let h ← root0 vs
    let o ← (← amrun (upBody c.node) σ 60 h s).toOption
    let ws ← rebuildWorks c l vs σ o.space
    return o.work :: ws

/-- A tree of nine nodes with edits at the left end, at the right end and a new archive point at the left end. -/
example : rebuildWorks .reverse [exBuild, exEdit, [.op 0 (.focus (6 : Nat)), .op 0 (.pushL 8), .op 0 .unfocus],
    [.op 0 .focusLeft, .op 0 (.pushL 1), .op 0 (.archL 2 (some (.usize 9))), .op 0 .unfocus], []] [] Store.empty Space.empty =
    some [9, 3, 4, 5, 1] := by
  decide +kernel

/-- The same with a filter that removes whole branches. -/
example : rebuildWorks (.filter (fun x => decide (4 ≤ x))) [exBuild, exEdit, [.op 0 (.focus (6 : Nat)), .op 0 (.pushL 8), .op 0 .unfocus], []] [] Store.empty
    Space.empty = some [9, 3, 4, 1] := by
  decide +kernel

/-- The conditions of `C73_again`, `C73_session` and `C73_at_most_size` for a history of two runs. -/
example : ∃ (s : GSpace Nat Count Count) (v : Tree (Tr × TreeData Nat Count)) (σ : RMem Nat Count) (h : Tr) (b : RazTree Nat Count),
    FoldHistory Rebuild.reverse.node s [v, v] ∧ Folded Rebuild.reverse.node s ∧ View σ (some h) v ∧ (nodeNames v).Nodup ∧ NoReturn [v, v] v ∧
      Rebuild.reverse.scratch (⟨⟨0⟩, plain v⟩ : RazTree Nat Count) = .ok (some b) ∧ v.size = 9 ∧ b.elems = [5, 4, 3, 2, 1] ∧
      ∃ o, (∀ n, v.size ≤ n → amrun (upBody Rebuild.reverse.node) σ n h s = some (.ok o)) ∧
        (∃ w, View o.space.mem o.val.tree w ∧ b = ⟨o.val.info, plain w⟩) := by
  have hrun : (do
      let (vs, _) ← Vars.run (M := Count) [] exBuild
      match (vs[0]? : Option (Option (St Nat Count))) with
      | some (some (.tree t)) =>
        let b : Option (RazTree Nat Count) ← Rebuild.reverse.scratch (⟨⟨0⟩, t.tree⟩ : RazTree Nat Count)
        return (t.tree.size, b.map RazTree.elems)
      | _ => .error .explicit : P (Nat × Option (List Nat))) = .ok (9, some [5, 4, 3, 2, 1]) := by decide +kernel
  obtain ⟨⟨vs, os⟩, h1, h⟩ := bind_ok.1 hrun
  simp only at h
  split at h
  · next t ht =>
    obtain ⟨x, h2, h⟩ := bind_ok.1 h
    have hxs : t.tree.size = 9 ∧ x.map RazTree.elems = some [5, 4, 3, 2, 1] := Prod.mk.inj (Except.ok.inj h)
    cases x with
    | none => cases hxs.2
    | some b =>
      obtain ⟨hvs, σ, -, h3⟩ := C58_reachable (M := Count) (cs := exBuild) (by constructor <;> simp [exBuild, Cmd.names])
        (by intro c; revert c; simp [exBuild, Cmd.isClone]) h1
      obtain ⟨mt, h, v, -, k2, k3, k4⟩ := h3 0 t ht
      have hs : v.size = 9 := by rw [← plain_size, k3, hxs.1]
      rw [← k3] at h2
      have nr : ∀ vs : List (Tree (Tr × TreeData Nat Count)), NoReturn (v :: vs) v := fun vs m hm hn => absurd hm hn
      cases h with
      | none => cases k2; cases hs
      | some h =>
        obtain ⟨s1, b1⟩ := FoldHistory.extend (c := .reverse) .start k2 k4 trivial h2
        obtain ⟨s2, b2⟩ := b1.extend k2 k4 (nr _) h2
        obtain ⟨o, o1, o2, -⟩ := C73_session b2 k2 k4 h2
        exact ⟨s2, v, σ, h, b, b2, b2.folded, k2, k4, nr _, h2, hs, Option.some.inj hxs.2, o, o1, o2⟩
  · cases h

end Iodyn.Incr
