import Verif.Proof.IncrMap
import Verif.Props.IncrAgain
/-
C61 memoised `map` after edits, C62 the work of mapping again.
-/
namespace Iodyn.Incr
open Iodyn.Heap
variable {E M F N C D X D' X' : Type}

/-! ### C61 -/

section
variable [DecidableEq D] [DecidableEq X] [DecidableEq D'] [DecidableEq X']

/-- **C61.** In a namespace in which one function has mapped any trees from any stores before, mapping a tree gives a handle behind which
is the mapped tree, or the panic of mapping from scratch. -/
theorem C61_map_again {g : MapFn D D'} {s : MSpace D X D' X'} (hs : Mapped g s) {σ : Mem D X} {h : Tr} {v : Tree (Tr × D)}
    (hv : View σ (some h) v) (hn : (nodeNames v).Nodup) :
    (∀ q, (plain v).map g.val = .error q → ∀ n, v.size ≤ n → amrun (mapBody g) σ n h s = some (.error q)) ∧
    (∀ t', (plain v).map g.val = .ok t' → ∃ o, (∀ n, v.size ≤ n → amrun (mapBody g) σ n h s = some (.ok o)) ∧
      ∃ w, View o.space.mem (some o.val) w ∧ plain w = t') := by
  constructor
  · intro q hq n hle
    have h1 := map_run (X' := X') g σ [] v n hle h s hv hn hs.inv
    rw [hq] at h1
    exact h1
  · intro t' ht
    have h1 := map_run (X' := X') g σ [] v v.size (Nat.le_refl _) h s hv hn hs.inv
    rw [ht] at h1
    obtain ⟨o, h2, p⟩ := h1
    exact ⟨o, fun n hle => amrun_mono hle h2, p.res _ p.facts⟩
end

/-- **C61, clients.** A client edits sequences and maps them, in any order, with the incremental engine. Every `map` is memoised, in a
namespace, and reuses the calls that earlier ones have stored. If each namespace is used with one function then every mapped
sequence, read in full, and a panic at the end, is that of mapping from scratch. -/
theorem C61_client [RazMeta E M] [RazMeta F N] [DecidableEq E] [DecidableEq M] [DecidableEq F] [DecidableEq N] {fn : C → E → F}
    {l : List (MEv E (RazMeta.Index E M) C)} (hs : Safe .dcg (MEv.stmts l)) {g : Name → C} (hg : ∀ ev ∈ l, ev.UsesNs g) :
    MEvAnswers (M := M) (N := N) fn l (mevAnswers (M := M) fn l) :=
  mevAnswers_of_fine l hg (safe_fine hs)

theorem mevAnswers_unique [RazMeta E M] [RazMeta F N] [DecidableEq E] [DecidableEq M] [DecidableEq F] [DecidableEq N] {fn : C → E → F}
    {l : List (MEv E (RazMeta.Index E M) C)} {r r' : P (List (MAns E F N))} (h : MEvAnswers (M := M) fn l r)
    (h' : MEvAnswers (M := M) fn l r') : r = r' := by
  obtain ⟨f, hf⟩ := h
  obtain ⟨g, hg⟩ := h'
  rw [← hf (max f g) (Nat.le_max_left _ _), hg (max f g) (Nat.le_max_right _ _)]

/-- What a client sees with plain lists. -/
inductive LAns (E F : Type) where
  | out (o : Out E)
  | mapped (l : List F)
  | bad
deriving DecidableEq

/-- An event with plain lists. -/
inductive LMEv {I : Type} (fn : C → E → F) : LVars E → MEv E I C → LAns E F → LVars E → Prop
  | stmt {vs vs' c o} : LVStep vs c o vs' → LMEv fn vs (.stmt c) (.out o) vs'
  | map {vs p c i l} : vs.IsTree i l → LMEv fn vs (.map p c i) (.mapped (l.map (fn c))) vs
  | bad {vs p c i} : (∀ l, ¬ vs.IsTree i l) → LMEv fn vs (.map p c i) .bad vs

/-- Events with plain lists. -/
inductive LMEvs {I : Type} (fn : C → E → F) : LVars E → List (MEv E I C) → List (LAns E F) → LVars E → Prop
  | nil (vs) : LMEvs fn vs [] [] vs
  | cons {vs vs' vs'' ev l a as} : LMEv fn vs ev a vs' → LMEvs fn vs' l as vs'' → LMEvs fn vs (ev :: l) (a :: as) vs''

/-- The elements of an answer. -/
def _root_.Iodyn.MAns.read : MAns E F N → Option (LAns E F)
  | .out o => some (.out o)
  | .mapped t => some (.mapped t.elems)
  | .bad => some .bad
  | .lost => none

/-- Levels as in `Cmd.LevelOK`. -/
def mevOK {I : Type} : MEv E I C → Prop
  | .stmt c => c.LevelOK
  | .map .. => True

theorem lists_mev [RazMeta E M] [LawfulMeta E M] [RazMeta F N] {fn : C → E → F} {vs vs' : Vars E M} {ev : MEv E (RazMeta.Index E M) C} {a : MAns E F N}
    (h : AllReach vs) (hl : mevOK ev) (hs : vs.mev fn ev = .ok (vs', a)) :
    (∃ b, a.read = some b ∧ LMEv fn (readVars vs) ev b (readVars vs')) ∧ AllReach vs' := by
  cases ev with
  | stmt c =>
    obtain ⟨⟨vs1, o⟩, h1, h2⟩ := bind_ok.1 hs
    cases h2
    obtain ⟨k1, k2⟩ := lists_step h hl h1
    exact ⟨⟨_, rfl, .stmt k1⟩, k2⟩
  | map p c i =>
    simp only [Vars.mev] at hs
    split at hs
    · next t ht =>
      obtain ⟨x, h1, h2⟩ := bind_ok.1 hs
      cases h2
      obtain ⟨t', k1, -, k3, -⟩ := C15_map (N := N) (Reach.any (h i _ ht)) (fn c)
      rw [k1] at h1
      cases h1
      refine ⟨⟨_, rfl, ?_⟩, h⟩
      rw [k3]
      exact .map (isTree_iff.2 ⟨t, ht, rfl⟩)
    · next hn =>
      cases hs
      exact ⟨⟨_, rfl, .bad fun l hc => by obtain ⟨t, ht, -⟩ := isTree_iff.1 hc; exact hn t ht⟩, h⟩

theorem lists_mevs [RazMeta E M] [LawfulMeta E M] [RazMeta F N] {fn : C → E → F} (l : List (MEv E (RazMeta.Index E M) C)) :
    ∀ {vs vs' : Vars E M} {as : List (MAns E F N)}, AllReach vs → (∀ ev ∈ l, mevOK ev) → vs.mevs fn l = .ok (vs', as) →
      ∃ bs, as.map MAns.read = bs.map some ∧ LMEvs fn (readVars vs) l bs (readVars vs') := by
  induction l with
  | nil =>
    intro vs vs' as h _ hr
    cases hr
    exact ⟨[], rfl, .nil _⟩
  | cons ev l ih =>
    intro vs vs' as h hl hr
    obtain ⟨⟨s1, a⟩, h1, hr⟩ := bind_ok.1 hr
    obtain ⟨⟨s2, as⟩, h2, hr⟩ := bind_ok.1 hr
    cases hr
    obtain ⟨⟨b, k0, k1⟩, k2⟩ := lists_mev h (hl ev List.mem_cons_self) h1
    obtain ⟨bs, k3, k4⟩ := ih k2 (fun ev h => hl ev (List.mem_cons_of_mem _ h)) h2
    exact ⟨b :: bs, by simp only [List.map_cons, k0, k3], .cons k1 k4⟩

/-- **C61, on plain lists.** The elements of the mapped sequences are those of editing plain lists and mapping them with `List.map`. -/
theorem C61_lists [RazMeta E M] [LawfulMeta E M] [RazMeta F N] [DecidableEq E] [DecidableEq M] [DecidableEq F] [DecidableEq N] {fn : C → E → F}
    {l : List (MEv E (RazMeta.Index E M) C)} (hs : Safe .dcg (MEv.stmts l)) {g : Name → C} (hg : ∀ ev ∈ l, ev.UsesNs g)
    (hl : ∀ ev ∈ l, mevOK ev) {as : List (MAns E F N)} (ha : MEvAnswers (M := M) fn l (.ok as)) :
    ∃ bs vs, as.map MAns.read = bs.map some ∧ LMEvs fn [] l bs vs := by
  have := mevAnswers_unique ha (C61_client hs hg)
  unfold mevAnswers at this
  cases hr : Vars.mevs (M := M) (N := N) fn [] l with
  | error p => rw [hr] at this; cases this
  | ok x =>
    obtain ⟨vs, as'⟩ := x
    rw [hr] at this
    cases this
    obtain ⟨bs, h1, h2⟩ := lists_mevs (N := N) l (vs := []) (fun i s hi => by simp at hi) hl hr
    exact ⟨bs, _, h1, h2⟩

/-- Two functions. -/
def exFn : Bool → Nat → Nat := fun b x => if b then x + 10 else 2 * x

/-- A client that maps, edits and maps again, with two functions in two namespaces. -/
def exMaps : List (MEv Nat (RazMeta.Index Nat Count) Bool) :=
  exBuild.map .stmt ++ [.map (.str "a") true 0, .map (.str "b") false 0] ++ exEdit.map .stmt ++
    [.map (.str "a") true 0, .map (.str "b") false 0, .map (.str "b") false 1]

/-- A client answers with these lists. -/
theorem exMaps_ok : Safe .dcg (MEv.stmts exMaps) ∧ (∀ ev ∈ exMaps, ev.UsesNs (fun p => decide (p = .str "a"))) ∧
    (∀ ev ∈ exMaps, mevOK ev) := by
  refine ⟨.inr (.inr ⟨⟨?_, ?_⟩, ?_⟩), ?_, ?_⟩
  · simp [exMaps, exBuild, exEdit, MEv.stmts, Cmd.names]
  · simp [exMaps, exBuild, exEdit, MEv.stmts, Cmd.names]
  · intro c; revert c; simp [exMaps, exBuild, exEdit, MEv.stmts, Cmd.isClone]
  · simp [exMaps, exBuild, exEdit, MEv.UsesNs]
  · simp [exMaps, exBuild, exEdit, mevOK, Cmd.LevelOK, ApiOp.LevelOK]

example : ∃ as, MEvAnswers (M := Count) (N := Count) exFn exMaps (.ok as) ∧
      (as.map MAns.read).drop 11 = ([.mapped [11, 12, 13, 14, 15], .mapped [2, 4, 6, 8, 10], .out .unit, .out (.count 2), .out .unit,
        .mapped [17, 11, 12, 13, 14, 15], .mapped [14, 2, 4, 6, 8, 10], .bad] : List (LAns Nat Nat)).map some := by
  obtain ⟨h1, h2, h3⟩ := exMaps_ok
  have key := C61_client (M := Count) (N := Count) (fn := exFn) h1 h2
  have he : (mevAnswers (M := Count) (N := Count) exFn exMaps).map (fun as => (as.map MAns.read).drop 11) =
      .ok (([.mapped [11, 12, 13, 14, 15], .mapped [2, 4, 6, 8, 10], .out .unit, .out (.count 2), .out .unit,
        .mapped [17, 11, 12, 13, 14, 15], .mapped [14, 2, 4, 6, 8, 10], .bad] : List (LAns Nat Nat)).map some) := by decide +kernel
  cases hr : mevAnswers (M := Count) (N := Count) exFn exMaps with
  | error q => rw [hr] at he; cases he
  | ok as =>
    rw [hr] at he key
    exact ⟨as, key, Except.ok.inj he⟩

/-! ### C62 -/

section
variable [DecidableEq D] [DecidableEq X] [DecidableEq D'] [DecidableEq X']

omit [DecidableEq X] [DecidableEq D'] [DecidableEq X'] in
theorem cost_le_size (old : List (Name × Tree D)) : ∀ v : Tree D, cost old v ≤ v.size := by
  intro v
  induction v with
  | nil => simp [cost, Tree.size]
  | node lv n d l r ihl ihr =>
    simp only [cost, Tree.size]
    split <;> split <;> omega

theorem amrun_pos {g : MapFn D D'} {σ : Mem D X} {n : Nat} {h : Tr} {s : MSpace D X D' X'} {o : AOut (Cell D X) (Cell D' X') Tr Tr Tr}
    (ho : amrun (mapBody g) σ n h s = some (.ok o)) : 1 ≤ o.work := by
  cases n with
  | zero => cases ho
  | succ n =>
    unfold amrun at ho
    cases h1 : amexec (amrun (mapBody g) σ n) σ (mapBody g h) s with
    | none => rw [h1] at ho; cases ho
    | some y =>
      rw [h1] at ho
      cases y with
      | error q => cases ho
      | ok o1 => cases ho; simp only; omega

/-- **C62.** In a session of any number of maps in a namespace, between which the trees and the store change in any way, every `map` gives
the right result, and runs the mapping function only at the nodes that are not below a branch that the map before it has seen
unchanged (below a node of the same name on the same side). Condition: in the maps before, names that had left the tree did not
come back. -/
theorem C62_session {g : MapFn D D'} {s : MSpace D X D' X'} {v : Tree (Tr × D)} {vs : List (Tree (Tr × D))} (hs : MapHistory g s (v :: vs))
    {σ : Mem D X} {h : Tr} {v' : Tree (Tr × D)} (hv : View σ (some h) v') (hn : (nodeNames v').Nodup)
    {t' : Tree D'} (ht : (plain v').map g.val = .ok t') :
    ∃ o, (∀ n, v'.size ≤ n → amrun (mapBody g) σ n h s = some (.ok o)) ∧ (∃ w, View o.space.mem (some o.val) w ∧ plain w = t') ∧
      o.work ≤ cost (points v) v' := by
  have hk := hs.kept
  have h1 := map_run (X' := X') g σ (points v) v' v'.size (Nat.le_refl _) h s hv hn hk.inv
  rw [ht] at h1
  obtain ⟨o, h2, p⟩ := h1
  refine ⟨o, fun n hle => amrun_mono hle h2, p.res _ p.facts, p.work ?_⟩
  intro q _ hq
  obtain ⟨fs, hf, hst⟩ := hk.last v vs rfl
  obtain ⟨e, e1, e2, e3, -⟩ := hst q hq
  exact ⟨e, e1, e2, fun x hx => hf x (e3 hx)⟩

/-- **C62, one map.** Whatever was mapped before, no node is mapped twice. -/
theorem C62_at_most_size {g : MapFn D D'} {s : MSpace D X D' X'} (hs : Mapped g s) {σ : Mem D X} {h : Tr} {v : Tree (Tr × D)}
    (hv : View σ (some h) v) (hn : (nodeNames v).Nodup) {n : Nat} {o : AOut (Cell D X) (Cell D' X') Tr Tr Tr}
    (ho : amrun (mapBody g) σ n h s = some (.ok o)) : 1 ≤ o.work ∧ o.work ≤ v.size := by
  obtain ⟨t', -, p⟩ := run_part [] hs.inv hv hn ho
  exact ⟨amrun_pos ho, Nat.le_trans (p.work (fun q _ h => by cases h)) (cost_le_size [] v)⟩

/-- **C62, empty sequence.** Mapping an empty sequence gives an empty sequence, and forgets none of the calls stored so far. -/
theorem C62_empty {E M F N : Type} [RazMeta F N] [DecidableEq E] [DecidableEq M] [DecidableEq F] [DecidableEq N] (f : E → F) (t : HTree M)
    (ht : t.tree = none) (s : RSpace E M F N) (fuel : Nat) (σ : Mem (TreeData E M) (Nat × List E)) :
    ∃ t' : HTree N, t'.tree = none ∧ razMap f t s fuel σ = .ok ((t', s), σ) := by
  unfold razMap
  rw [ht]
  exact ⟨_, rfl, rfl⟩

/-- A history can be continued with every tree that meets the conditions. -/
theorem MapHistory.extend {g : MapFn D D'} {s : MSpace D X D' X'} {vs : List (Tree (Tr × D))} (hs : MapHistory g s vs)
    {σ : Mem D X} {h : Tr} {v : Tree (Tr × D)} (hv : View σ (some h) v) (hn : (nodeNames v).Nodup) (hr : NoReturn vs v)
    {t' : Tree D'} (ht : (plain v).map g.val = .ok t') : ∃ s' : MSpace D X D' X', MapHistory g s' (v :: vs) := by
  have h1 := map_run (X' := X') g σ [] v v.size (Nat.le_refl _) h s hv hn hs.kept.inv
  rw [ht] at h1
  obtain ⟨o, h2, -⟩ := h1
  exact ⟨_, .map hs hv hn hr h2⟩

/-- Histories are histories. -/
theorem MapHistory.mapped {g : MapFn D D'} {s : MSpace D X D' X'} {vs : List (Tree (Tr × D))} (hs : MapHistory g s vs) : Mapped g s := by
  induction hs with
  | start => exact .start
  | map _ hv hn _ ho ih => exact .map ih hv hn ho
end

/-- The work of maps of the first variable, each after some statements. -/
def mapWorks (f : Nat → Nat) : List (List (Cmd Nat (RazMeta.Index Nat Count))) → HVars Nat Count → RMem Nat Count → RSpace Nat Count Nat Count →
    Option (List Nat)
  | [], _, _, _ => some []
  | cs :: l, vs, σ, s => do
    let ((vs, _), σ) ← (HVars.run (M := Count) .dcg vs cs 60 σ).toOption
    let h ← root0 vs
    let o ← (← amrun (mapBody (razMapFn f)) σ 60 h s).toOption
    let ws ← mapWorks f l vs σ o.space
    return o.work :: ws

/-- A tree of nine nodes with edits at the left end, at the right end and a new archive point at the left end. -/
example : mapWorks (· + 1) [exBuild, exEdit, [.op 0 (.focus (6 : Nat)), .op 0 (.pushL 8), .op 0 .unfocus],
    [.op 0 .focusLeft, .op 0 (.pushL 1), .op 0 (.archL 2 (some (.usize 9))), .op 0 .unfocus], []] [] Store.empty Space.empty =
    some [9, 3, 4, 5, 1] := by
  decide +kernel

/-- The tree of a program, over the store, with the tree of the functional semantics. -/
theorem exBuild_view : ∃ (v : Tree (Tr × TreeData Nat Count)) (σ : RMem Nat Count) (h : Tr) (t' : Tree (TreeData Nat Count)),
    View σ (some h) v ∧ (nodeNames v).Nodup ∧ (plain v).map (razMapFn (· + 1)).val = .ok t' ∧ v.size = 9 ∧ t'.size = 9 := by
  have hrun : (do
      let (vs, _) ← Vars.run (M := Count) [] exBuild
      match (vs[0]? : Option (Option (St Nat Count))) with
      | some (some (.tree t)) =>
        let t' ← t.tree.map (razMapFn (· + 1) : MapFn (TreeData Nat Count) (TreeData Nat Count)).val
        return (t.tree.size, t'.size)
      | _ => .error .explicit : P (Nat × Nat)) = .ok (9, 9) := by decide +kernel
  obtain ⟨⟨vs, os⟩, h1, h⟩ := bind_ok.1 hrun
  simp only at h
  split at h
  · next t ht =>
    obtain ⟨x, h2, h⟩ := bind_ok.1 h
    have hxs : t.tree.size = 9 ∧ x.size = 9 := by
      have : (t.tree.size, x.size) = (9, 9) := Except.ok.inj h
      exact Prod.mk.inj this
    obtain ⟨hvs, σ, -, h3⟩ := C58_reachable (M := Count) (cs := exBuild) (by constructor <;> simp [exBuild, Cmd.names])
      (by intro c; revert c; simp [exBuild, Cmd.isClone]) h1
    obtain ⟨mt, h, v, -, k2, k3, k4⟩ := h3 0 t ht
    have hs : v.size = 9 := by rw [← plain_size, k3, hxs.1]
    cases h with
    | none => cases k2; cases hs
    | some h => exact ⟨v, σ, h, x, k2, k4, by rw [k3]; exact h2, hs, hxs.2⟩
  · cases h

/-- The conditions of `C61_map_again`, `C62_session` and `C62_at_most_size` for a history of two maps. -/
example : ∃ (s : RSpace Nat Count Nat Count) (v : Tree (Tr × TreeData Nat Count)) (σ : RMem Nat Count) (h : Tr) (t' : Tree (TreeData Nat Count)),
    MapHistory (razMapFn (· + 1)) s [v, v] ∧ Mapped (razMapFn (· + 1)) s ∧ View σ (some h) v ∧ (nodeNames v).Nodup ∧ NoReturn [v, v] v ∧
      (plain v).map (razMapFn (· + 1)).val = .ok t' ∧ v.size = 9 := by
  obtain ⟨v, σ, h, t', a1, a2, a3, a4, -⟩ := exBuild_view
  have nr : ∀ vs : List (Tree (Tr × TreeData Nat Count)), NoReturn (v :: vs) v := fun vs m hm hn => absurd hm hn
  obtain ⟨s1, b1⟩ := MapHistory.extend (X' := Nat × List Nat) .start a1 a2 trivial a3
  obtain ⟨s2, b2⟩ := b1.extend a1 a2 (nr _) a3
  exact ⟨s2, v, σ, h, t', b2, b2.mapped, a1, a2, nr _, a3, a4⟩

end Iodyn.Incr
