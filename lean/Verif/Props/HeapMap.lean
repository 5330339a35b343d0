import Verif.Proof.HeapMap
import Verif.Spec.HeapMap
import Verif.Props.Incr
/-
C63 `map` in the namespace and with the type of the sequence itself.
-/
namespace Iodyn.Heap
variable {E M C : Type} [RazMeta E M] {e : Engine}

theorem tev_sim {fn : C → E → E} {σ : RMem E M} {hvs : HVars E M} {vs : Vars E M} (h : RepV e σ hvs vs) (ev : TEv E (RazMeta.Index E M) C)
    (l : List (TEv E (RazMeta.Index E M) C)) (hf : Fine e vs (TEv.stmts (ev :: l))) :
    Sim (HVars.tev e fn hvs ev) σ (vs.tev fn ev) (fun b a σ' => RepV e σ' a.1 b.1 ∧ a.2 = b.2 ∧ Fine e b.1 (TEv.stmts l)) := by
  cases ev with
  | stmt c =>
    refine (vars_step_sim h c hf.head).mono ?_
    rintro ⟨vs', o⟩ ⟨hvs', o'⟩ σ' - ⟨k1, k2, k3⟩
    exact ⟨k1, k2, hf.tail k3⟩
  | map c i =>
    have hf : Fine e vs (TEv.stmts l) := hf
    unfold HVars.tev Vars.tev
    rcases h.lookup i with ⟨h1, h2⟩ | ⟨h1, h2⟩ | ⟨hs, s, h1, h2, h3, hi, h4⟩ <;> simp only [h1, h2]
    · exact Sim.pure ⟨h, rfl, hf⟩
    · exact Sim.pure ⟨h, rfl, hf⟩
    · cases hs with
      | cursor hz =>
        cases s with
        | cursor z => exact Sim.pure ⟨h, rfl, hf⟩
        | tree t => exact h3.elim
      | tree ht =>
        cases s with
        | cursor z => exact h3.elim
        | tree t =>
          have hvn : ∀ x, (vN e vs).count x ≤ 1 := by
            rcases hf with ⟨q, -⟩ | ⟨-, q⟩
            · intro x; rw [q]; simp
            · intro x; have := nodup_count q x; simp only [List.count_append] at this; omega
          have hg : ∀ x, (tN e t.tree).count x ≤ (vN e vs).count x := fun x => by
            have := vN_get (e := e) vs i hi x; rwa [h4] at this
          refine (map_sim (RepRT.tree h3) (count_nodup fun x => Nat.le_trans (hg x) (hvn x)) (fn c)).bind ?_
          rintro b a σ' - ⟨k1, k2, k3, -⟩
          have hvn' : ∀ x, (vN e (vs.set i (some (.tree b)))).count x = (vN e vs).count x := fun x => by
            have := vN_set (e := e) vs i hi (some (.tree b)) x
            rw [h4] at this
            simp only [oN, Option.elim, stN, k3] at this; omega
          refine Sim.pure ⟨h.set hi (o := some (.tree b)) (ho := some (.tree a)) k1 k2 (fun x => ?_), rfl, ?_⟩
          · rw [h4]
            have := hvn x
            simp only [oN, Option.elim, stN]; omega
          · rcases hf with ⟨q1, q2⟩ | ⟨q1, q2⟩
            · refine .inl ⟨sub_nil fun x => ?_, q2⟩
              rw [hvn' x, q1]
              exact Nat.le_refl _
            · refine .inr ⟨q1, count_nodup fun x => ?_⟩
              have := nodup_count q2 x
              simp only [List.count_append, hvn' x] at *; omega

theorem tevs_sim {fn : C → E → E} : ∀ (l : List (TEv E (RazMeta.Index E M) C)) {σ : RMem E M} {hvs : HVars E M} {vs : Vars E M},
    RepV e σ hvs vs → Fine e vs (TEv.stmts l) →
    Sim (HVars.tevs e fn hvs l) σ (vs.tevs fn l) (fun b a σ' => RepV e σ' a.1 b.1 ∧ a.2 = b.2) := by
  intro l
  induction l with
  | nil => intro σ hvs vs h _; exact Sim.pure ⟨h, rfl⟩
  | cons ev l ih =>
    intro σ hvs vs h hf
    unfold HVars.tevs Vars.tevs
    refine (tev_sim h ev l hf).bind ?_
    rintro ⟨vs', o⟩ ⟨hvs', o'⟩ σ' - ⟨k1, k2, k3⟩
    simp only at k1 k2 k3; subst k2
    refine (ih k1 k3).bind ?_
    rintro ⟨vs'', os⟩ ⟨hvs'', os'⟩ σ'' - ⟨q1, q2⟩
    simp only at q1 q2; subst q2
    exact Sim.pure ⟨q1, rfl⟩

/-- **C63, partial.** A client edits, clones and maps sequences, in any order. It gets the answers of the functional semantics, in which
`map` changes the variable that is mapped and no other: for the functional engine, for programs without names, and for programs
that use each name once and make no clones. Missing: clones of named sequences under the incremental engine, where it is false
(`C63_map_changes_clone`). -/
theorem C63_map_partial {fn : C → E → E} {l : List (TEv E (RazMeta.Index E M) C)} (hs : Safe e (TEv.stmts l)) :
    TEvAnswers (M := M) e fn l (tevAnswers M fn l) := by
  have h1 := tevs_sim (fn := fn) l (e := e) (σ := (Store.empty : RMem E M)) (hvs := []) (vs := []) ⟨rfl, fun i h1 _ => by simp at h1⟩
    (Incr.safe_fine hs)
  unfold tevAnswers
  unfold Sim at h1
  cases hx : Vars.tevs (M := M) fn [] l with
  | error p =>
    rw [hx] at h1
    obtain ⟨f0, hf⟩ := h1
    exact ⟨f0, fun f hle => by rw [hf f hle]; rfl⟩
  | ok b =>
    rw [hx] at h1
    obtain ⟨a, σ', ⟨f0, hf⟩, -, h3⟩ := h1
    exact ⟨f0, fun f hle => by rw [hf f hle]; exact congrArg Except.ok h3⟩

theorem tevAnswers_unique {fn : C → E → E} {l : List (TEv E (RazMeta.Index E M) C)} {r r' : P (List (Out E))}
    (h : TEvAnswers (M := M) e fn l r) (h' : TEvAnswers (M := M) e fn l r') : r = r' := by
  obtain ⟨f, hf⟩ := h
  obtain ⟨g, hg⟩ := h'
  rw [← hf (max f g) (Nat.le_max_left _ _), hg (max f g) (Nat.le_max_right _ _)]

/-- Levels as in `Cmd.LevelOK`. -/
def tevOK {I : Type} : TEv E I C → Prop
  | .stmt c => c.LevelOK
  | .map .. => True

theorem lists_tev [LawfulMeta E M] {fn : C → E → E} {vs vs' : Vars E M} {ev : TEv E (RazMeta.Index E M) C} {a : Out E}
    (h : AllReach vs) (hl : tevOK ev) (hs : vs.tev fn ev = .ok (vs', a)) :
    LTEv fn (readVars vs) ev a (readVars vs') ∧ AllReach vs' := by
  cases ev with
  | stmt c =>
    obtain ⟨k1, k2⟩ := lists_step h hl hs
    exact ⟨.stmt k1, k2⟩
  | map c i =>
    simp only [Vars.tev] at hs
    split at hs
    · next t ht =>
      obtain ⟨x, h1, h2⟩ := bind_ok.1 hs
      cases h2
      obtain ⟨t', k1, -, k3, -, k5⟩ := C15_map (N := M) (h i _ ht) (fn c)
      rw [k1] at h1
      cases h1
      refine ⟨?_, h.set i (by rintro _ ⟨⟩; exact k5)⟩
      rw [readVars_set]
      simp only [Option.map_some, St.read, k3]
      exact .map (isTree_iff.2 ⟨t, ht, rfl⟩)
    · next hn =>
      cases hs
      exact ⟨.bad fun l hc => by obtain ⟨t, ht, -⟩ := isTree_iff.1 hc; exact hn t ht, h⟩

theorem lists_tevs [LawfulMeta E M] {fn : C → E → E} (l : List (TEv E (RazMeta.Index E M) C)) :
    ∀ {vs vs' : Vars E M} {as : List (Out E)}, AllReach vs → (∀ ev ∈ l, tevOK ev) → vs.tevs fn l = .ok (vs', as) →
      LTEvs fn (readVars vs) l as (readVars vs') := by
  induction l with
  | nil =>
    intro vs vs' as h _ hr
    cases hr
    exact .nil _
  | cons ev l ih =>
    intro vs vs' as h hl hr
    obtain ⟨⟨s1, a⟩, h1, hr⟩ := bind_ok.1 hr
    obtain ⟨⟨s2, as⟩, h2, hr⟩ := bind_ok.1 hr
    cases hr
    obtain ⟨k1, k2⟩ := lists_tev h (hl ev List.mem_cons_self) h1
    exact .cons k1 (ih k2 (fun ev h => hl ev (List.mem_cons_of_mem _ h)) h2)

/-- **C63, on plain lists, partial.** The answers are those of plain lists, where `map` is `List.map` on one variable. -/
theorem C63_lists_partial [LawfulMeta E M] {fn : C → E → E} {l : List (TEv E (RazMeta.Index E M) C)} (hs : Safe e (TEv.stmts l))
    (hl : ∀ ev ∈ l, tevOK ev) {as : List (Out E)} (ha : TEvAnswers (M := M) e fn l (.ok as)) : ∃ vs, LTEvs fn [] l as vs := by
  have := tevAnswers_unique ha (C63_map_partial hs)
  unfold tevAnswers at this
  cases hr : Vars.tevs (M := M) fn [] l with
  | error p => rw [hr] at this; cases this
  | ok x =>
    obtain ⟨vs, as'⟩ := x
    rw [hr] at this
    cases this
    exact ⟨readVars vs, lists_tevs l (vs := []) (fun i s hi => by simp at hi) hl hr⟩

/-- Add 10 or double. -/
def exFn : Bool → Nat → Nat := fun b x => if b then x + 10 else 2 * x

/-- A client with names that maps twice and reads. -/
def exTNames : List (TEv Nat (RazMeta.Index Nat Count) Bool) :=
  Incr.exBuild.map .stmt ++ [.map true 0, .stmt (.op 0 .focusLeft), .stmt (.op 0 .popR), .stmt (.op 0 (.pushR 7)),
    .stmt (.op 0 (.archR 4 (some (.usize 9)))), .stmt (.op 0 .unfocus), .map false 0, .stmt (.op 0 .focusLeft), .stmt (.op 0 .popR), .stmt (.op 0 .popR)]

/-- A client with clones, without names. -/
def exTClones : List (TEv Nat (RazMeta.Index Nat Count) Bool) :=
  [.stmt (.fromVec [1, 2, 3]), .stmt (.clone 0), .map true 1, .stmt (.op 0 .focusLeft), .stmt (.op 0 .popR), .stmt (.op 1 .focusLeft), .stmt (.op 1 .popR)]

example : (Safe .dcg (TEv.stmts exTNames) ∧ (∀ ev ∈ exTNames, tevOK ev) ∧ ∃ as, TEvAnswers (M := Count) .dcg exFn exTNames (.ok as) ∧
      as.drop 18 = [.unit, .val (some 14), .val (some 24)]) ∧
    Safe .dcg (TEv.stmts exTClones) ∧ (∀ ev ∈ exTClones, tevOK ev) ∧ ∃ as, TEvAnswers (M := Count) .dcg exFn exTClones (.ok as) ∧
      as.drop 3 = [.unit, .val (some 1), .unit, .val (some 11)] := by
  have h1 : Safe .dcg (TEv.stmts exTNames) := by
    refine .inr (.inr ⟨⟨?_, ?_⟩, ?_⟩)
    · simp [exTNames, Incr.exBuild, TEv.stmts, Cmd.names]
    · simp [exTNames, Incr.exBuild, TEv.stmts, Cmd.names]
    · intro c; revert c; simp [exTNames, Incr.exBuild, TEv.stmts, Cmd.isClone]
  have h2 : Safe .dcg (TEv.stmts exTClones) := .inr (.inl rfl)
  have h3 : ∀ ev ∈ exTNames, tevOK ev := by simp [exTNames, Incr.exBuild, tevOK, Cmd.LevelOK, ApiOp.LevelOK]
  have h4 : ∀ ev ∈ exTClones, tevOK ev := by simp [exTClones, tevOK, Cmd.LevelOK, ApiOp.LevelOK]
  have e1 : tevAnswers Count exFn exTNames = .ok (((tevAnswers Count exFn exTNames).toOption).getD []) := by decide +kernel
  have e2 : tevAnswers Count exFn exTClones = .ok (((tevAnswers Count exFn exTClones).toOption).getD []) := by decide +kernel
  exact ⟨⟨h1, h3, _, e1 ▸ C63_map_partial h1, by decide +kernel⟩, h2, h4, _, e2 ▸ C63_map_partial h2, by decide +kernel⟩

/-- A client that clones a sequence with a named archive point, maps the clone, and reads both. -/
def exTMixed : List (TEv Nat (RazMeta.Index Nat Count) Bool) :=
  [.stmt .new, .stmt (.op 0 (.pushL 1)), .stmt (.op 0 (.archL 2 (some (.usize 1)))), .stmt (.op 0 (.pushL 2)), .stmt (.op 0 .unfocus),
    .stmt (.clone 0), .map true 1, .stmt (.op 0 .focusLeft), .stmt (.op 0 .popR), .stmt (.op 1 .focusLeft), .stmt (.op 1 .popR)]

/-- **C63, false in general.** The mapped tree is written over the tree it was made from, as it has the same names: with the incremental
engine the sequence 1, 2 starts with 11 after a clone of it was mapped with `+ 10`. Each name is used once by the client. -/
theorem C63_map_changes_clone : GoodNames (TEv.stmts exTMixed) ∧
    (∃ as, TEvAnswers (M := Count) .dcg exFn exTMixed (.ok as) ∧ as.drop 8 = [.val (some 11), .unit, .val (some 11)]) ∧
    (∃ as, tevAnswers Count exFn exTMixed = .ok as ∧ as.drop 8 = [.val (some 1), .unit, .val (some 11)]) := by
  refine ⟨⟨?_, ?_⟩, ?_, ?_⟩
  · simp [exTMixed, TEv.stmts, Cmd.names]
  · simp [exTMixed, TEv.stmts, Cmd.names]
  · refine ⟨[.unit, .count 1, .unit, .count 1, .unit, .unit, .unit, .unit, .val (some 11), .unit, .val (some 11)], ⟨100, fun f hf => ?_⟩, rfl⟩
    obtain ⟨k, rfl⟩ := Nat.exists_eq_add_of_le hf
    rw [Nat.add_comm]
    rfl
  · exact ⟨((tevAnswers Count exFn exTMixed).toOption).getD [], by decide +kernel, by decide +kernel⟩

/-- **C63, false for every tree with a named top.** After any program that uses each name once and makes no clones, with the incremental
engine: the mapped tree has the handle of the tree it was made from, and this handle now leads to the mapped tree. -/
theorem C63_overwritten {cs : List (Cmd E (RazMeta.Index E M))} (hg : GoodNames cs) (hc : NoClones cs) {vs : Vars E M} {os : List (Out E)}
    (hr : Vars.run [] cs = .ok (vs, os)) {i : Nat} {t : RazTree E M} (ht : vs[i]? = some (some (.tree t)))
    {lv : Nat} {x : Name} {d : TreeData E M} {l r : Tree (TreeData E M)} (hx : t.tree = .node lv (some x) d l r) (f : E → E)
    {t' : RazTree E M} (hm : t.map f = .ok t') :
    ∃ hvs σ h, (∃ f0, ∀ n, f0 ≤ n → HVars.run (M := M) .dcg [] cs n Store.empty = .ok ((hvs, os), σ)) ∧
      hvs[i]? = some (some (.tree h)) ∧ (∀ n, t.tree.size ≤ n → Incr.readTree σ n h.tree = some t.tree) ∧
      ∃ h' σ', (∃ f0, ∀ n, f0 ≤ n → HTree.map .dcg f h n σ = .ok (h', σ')) ∧ h'.tree = h.tree ∧
        ∀ n, t'.tree.size ≤ n → Incr.readTree σ' n h.tree = some t'.tree := by
  have run : ∀ (cs : List (Cmd E (RazMeta.Index E M))) {σ : RMem E M} {hvs : HVars E M} {vs : Vars E M}, RepV .dcg σ hvs vs → Fine .dcg vs cs →
      Sim (HVars.run .dcg hvs cs) σ (vs.run cs) (fun b a σ' => RepV .dcg σ' a.1 b.1 ∧ a.2 = b.2 ∧ Fine .dcg b.1 ([] : List (Cmd E (RazMeta.Index E M)))) := by
    intro cs
    induction cs with
    | nil => intro σ hvs vs h hf; exact Sim.pure ⟨h, rfl, hf⟩
    | cons c cs ih =>
      intro σ hvs vs h hf
      unfold HVars.run Vars.run
      refine (vars_step_sim h c hf.head).bind ?_
      rintro ⟨vs', o⟩ ⟨hvs', o'⟩ σ' - ⟨k1, k2, k3⟩
      simp only at k1 k2 k3; subst k2
      refine (ih k1 (hf.tail k3)).bind ?_
      rintro ⟨vs'', os⟩ ⟨hvs'', os'⟩ σ'' - ⟨q1, q2, q3⟩
      simp only at q1 q2 q3; subst q2
      exact Sim.pure ⟨q1, rfl, q3⟩
  have h1 := run cs (σ := Store.empty) (hvs := []) (vs := []) ⟨rfl, fun i h1 _ => by simp at h1⟩ (fine_goodNames cs hg hc)
  unfold Sim at h1
  rw [hr] at h1
  obtain ⟨⟨hvs, os'⟩, σ, h2, h3, h4, h5⟩ := h1
  simp only at h3 h4 h5
  subst h4
  have read : ∀ {σ : RMem E M} {h : Option Tr} {t : Tree (TreeData E M)}, RepT .dcg σ h t → ∀ n, t.size ≤ n → Incr.readTree σ n h = some t := by
    intro σ h t hr n hle
    obtain ⟨v, a1, a2, -⟩ := Incr.view_exists hr
    rw [← a2] at hle ⊢
    rw [Incr.plain_size] at hle
    exact Incr.readTree_view a1 n hle
  rcases h3.lookup i with ⟨-, k⟩ | ⟨-, k⟩ | ⟨hs, s, k1, k2, k3, hi, k4⟩
  · rw [k] at ht; cases ht
  · rw [k] at ht; cases ht
  · rw [k2] at ht
    simp only [Option.some.injEq] at ht
    subst ht
    cases hs with
    | cursor z => exact k3.elim
    | tree h =>
      have hrep := RepRT.tree k3
      have hnd : (tN .dcg t.tree).Nodup := count_nodup fun x => by
        have q1 := vN_get (e := .dcg) vs i hi x
        rw [k4] at q1
        refine Nat.le_trans q1 ?_
        rcases h5 with ⟨q, -⟩ | ⟨-, q⟩
        · rw [q]; simp
        · have := nodup_count q x; simpa using this
      have h6 := map_sim hrep hnd f
      unfold Sim at h6
      rw [hm] at h6
      obtain ⟨h', σ', b1, b2, -, -, b5⟩ := h6
      have hb := b5 rfl x (by
        rw [hx] at hrep
        obtain ⟨k, hl, hr, e1, -⟩ := hrep
        rw [e1]; rfl)
      refine ⟨hvs, σ, h, h2, k1, read hrep, h', σ', b1, hb, fun n hle => ?_⟩
      rw [← hb]
      exact read (RepRT.tree b2) n hle

/-- The conditions of `C63_overwritten`. -/
example : GoodNames Incr.exBuild ∧ NoClones Incr.exBuild ∧ ∃ vs os t t', Vars.run (M := Count) [] Incr.exBuild = .ok (vs, os) ∧
    vs[0]? = some (some (.tree t)) ∧ (∃ lv m d l r, t.tree = .node lv (some m) d l r) ∧ t.map (· + 10) = .ok t' ∧
      t.elems = [1, 2, 3, 4, 5] ∧ (t' : RazTree Nat Count).elems = [11, 12, 13, 14, 15] := by
  refine ⟨⟨by simp [Incr.exBuild, Cmd.names], by simp [Incr.exBuild, Cmd.names]⟩,
    (by intro c; revert c; simp [Incr.exBuild, Cmd.isClone]), ?_⟩
  have h : (do
      let (vs, _) ← Vars.run (M := Count) [] Incr.exBuild
      match (vs[0]? : Option (Option (St Nat Count))) with
      | some (some (.tree t)) =>
        let t' ← (t.map (· + 10) : P (RazTree Nat Count))
        match t.tree with
        | .node _ (some _) _ _ _ => return (t.elems, t'.elems)
        | _ => .error .explicit
      | _ => .error .explicit : P (List Nat × List Nat)) = .ok ([1, 2, 3, 4, 5], [11, 12, 13, 14, 15]) := by decide +kernel
  obtain ⟨⟨vs, os⟩, h1, h⟩ := bind_ok.1 h
  simp only at h
  split at h
  · next t ht =>
    obtain ⟨t', h2, h⟩ := bind_ok.1 h
    split at h
    · next lv m d l r hn =>
      have := Prod.mk.inj (Except.ok.inj h)
      exact ⟨vs, os, t, t', h1, ht, ⟨_, _, _, _, _, hn⟩, h2, this.1, this.2⟩
    · cases h
  · cases h

end Iodyn.Heap
