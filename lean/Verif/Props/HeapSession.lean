import Verif.Proof.HeapSession
import Verif.Props.Session
import Verif.Props.Incr
import Verif.Props.IncrFold
import Verif.Props.IncrLr
/-
C76: sessions of the test driver with the incremental engine.
-/
namespace Iodyn.Heap
open Iodyn.Eval Iodyn.Incr
variable {E F N G R B : Type}

theorem Ends.unique {M : Type} {m : HR E M (List B × R)} {r r' : P (List B × R)} (h : Ends m r) (h' : Ends m r') : r = r' := by
  obtain ⟨f, hf⟩ := h
  obtain ⟨g, hg⟩ := h'
  rw [← hf (max f g) (Nat.le_max_left _ _), hg (max f g) (Nat.le_max_right _ _)]

/-! ### C76: the answers of a session -/

/-- **C76, folds upwards** (eval/examples/crossover.rs with `FindMax`, `TreeFold`). A session of the test driver with the incremental engine
and stored calls: building the sequence cell by cell, then batch edits and computations in turn, all on the same store and table of
calls. Its answers, the state of the random generator at the end, and a panic wherever one happens, are those of the session on values
with every answer computed from scratch: for all sizes, gauges, batches, numbers of changes and random streams. For both indices. -/
theorem C76_fold_up [DecidableEq E] [DecidableEq B] (init : E → B) (bin : B → B → B) (C : Coord G E) (word : R → BitVec 64 × R) (p : Params) (coord : G)
    (rng : R) (q : Name) (o : Edit) (order : R → List Name → List Name) :
    Ends (sessionH C word p coord rng (editH C word o) (upRun (upNode init bin) q) Table.empty)
      (sessionV C word p coord rng (fun s r => o.run C word s r) (fun t => t.foldUp init bin)) ∧
    Ends (sessionH C word p coord rng (editHN C word order o) (upRun (upNode init bin) q) Table.empty)
      (sessionV C word p coord rng (fun s r => o.runN C word (order r) s r) (fun t => t.foldUp init bin)) :=
  ⟨session_sim (upRun_computes (upNode init bin) q) (editH_follows C word o) (editH_reach C word o) C word p coord rng (Valid.empty _),
    session_sim (upRun_computes (upNode init bin) q) (editHN_follows C word order o) (editHN_reach C word order o) C word p coord rng (Valid.empty _)⟩

/-- **C76, maps** (eval/examples/to_string.rs, `Mapper`), every result read in full. -/
theorem C76_map [DecidableEq E] [RazMeta F N] [DecidableEq F] [DecidableEq N] (fn : E → F) (C : Coord G E) (word : R → BitVec 64 × R) (p : Params)
    (coord : G) (rng : R) (o : Edit) (order : R → List Name → List Name) :
    Ends (sessionH C word p coord rng (editH C word o) (mapRun (N := N) fn) Space.empty)
      (sessionV C word p coord rng (fun s r => o.run C word s r) (fun t => (t.map fn).map some)) ∧
    Ends (sessionH C word p coord rng (editHN C word order o) (mapRun (N := N) fn) Space.empty)
      (sessionV C word p coord rng (fun s r => o.runN C word (order r) s r) (fun t => (t.map fn).map some)) :=
  ⟨session_sim (mapRun_computes fn) (editH_follows C word o) (editH_reach C word o) C word p coord rng (sInv_empty _),
    session_sim (mapRun_computes fn) (editHN_follows C word order o) (editHN_reach C word order o) C word p coord rng (sInv_empty _)⟩

/-- **C76, reversing and filtering** (eval/examples/reverse.rs, filter.rs), every result read in full. -/
theorem C76_rebuild [DecidableEq E] [RazMeta E N] [DecidableEq N] (c : Rebuild E) (C : Coord G E) (word : R → BitVec 64 × R) (p : Params)
    (coord : G) (rng : R) (o : Edit) (order : R → List Name → List Name) :
    Ends (sessionH C word p coord rng (editH C word o) (rebuildRun (N := N) c) Space.empty)
      (sessionV C word p coord rng (fun s r => o.run C word s r) (fun t => (c.scratch t).map RAns.rebuilt)) ∧
    Ends (sessionH C word p coord rng (editHN C word order o) (rebuildRun (N := N) c) Space.empty)
      (sessionV C word p coord rng (fun s r => o.runN C word (order r) s r) (fun t => (c.scratch t).map RAns.rebuilt)) :=
  ⟨session_sim (rebuildRun_computes c) (editH_follows C word o) (editH_reach C word o) C word p coord rng (Up.sInv_empty _),
    session_sim (rebuildRun_computes c) (editHN_follows C word order o) (editHN_reach C word order o) C word p coord rng (Up.sInv_empty _)⟩

/-- **C76, lists** (eval/examples/tree_to_list.rs), every list read in full. -/
theorem C76_to_list [DecidableEq E] (C : Coord G E) (word : R → BitVec 64 × R) (p : Params) (coord : G) (rng : R) (o : Edit)
    (order : R → List Name → List Name) :
    Ends (sessionH C word p coord rng (editH C word o) toListRun Space.empty)
      (sessionV C word p coord rng (fun s r => o.run C word s r) (fun t => .ok (some (toListScratch t)))) ∧
    Ends (sessionH C word p coord rng (editHN C word order o) toListRun Space.empty)
      (sessionV C word p coord rng (fun s r => o.runN C word (order r) s r) (fun t => .ok (some (toListScratch t)))) :=
  ⟨session_sim Lr.toList_computes (editH_follows C word o) (editH_reach C word o) C word p coord rng (Lr.sInv_empty _),
    session_sim Lr.toList_computes (editHN_follows C word order o) (editHN_reach C word order o) C word p coord rng (Lr.sInv_empty _)⟩

/-- **C76, the adder** (eval/examples/adder.rs), memoised in all of its stages, every result read in full. -/
theorem C76_adder (C : Coord G Char) (word : R → BitVec 64 × R) (p : Params) (coord : G) (rng : R) (o : Edit) :
    Ends (sessionH C word p coord rng (editH C word o) adderRun AdderSpaces.empty)
      (sessionV C word p coord rng (fun s r => o.run C word s r) (fun t => (adderScratch t).map some)) :=
  session_sim Lr.adder_computes (editH_follows C word o) (editH_reach C word o) C word p coord rng ⟨Lr.sInv_empty _, FInv.empty, Lr.sInv_empty _⟩

/-! ### C76 on plain lists -/

theorem test_total {D T O : Type} {create : R → P (D × R)} {edit : D → R → P (D × R)} {f : D → P O} {n : Nat} {σ : T} {rng rng' : R} {as : List (T × O)}
    (h : Eval.test create edit (plainly f) n σ rng = .ok (as, rng')) :
    Eval.test create edit (plainly (fun d => .ok (f d))) n σ rng = .ok (as.map (fun a => (a.1, .ok a.2)), rng') := by
  have loop : ∀ (n : Nat) (d : D) (σ : T) (rng rng' : R) (as : List (T × O)), Eval.testLoop edit (plainly f) n d σ rng = .ok (as, rng') →
      Eval.testLoop edit (plainly (fun d => .ok (f d))) n d σ rng = .ok (as.map (fun a => (a.1, .ok a.2)), rng') := by
    intro n
    induction n with
    | zero => intro d σ rng rng' as h; cases h; rfl
    | succ n ih =>
      intro d σ rng rng' as h
      unfold Eval.testLoop at h ⊢
      obtain ⟨⟨d1, r1⟩, h1, h⟩ := bind_ok.1 h
      obtain ⟨⟨σ1, a⟩, h2, h⟩ := bind_ok.1 h
      obtain ⟨⟨as1, r2⟩, h3, h⟩ := bind_ok.1 h
      cases h
      obtain ⟨a', h4, h2⟩ := bind_ok.1 h2
      cases h2
      rw [h1]
      show (Eval.testLoop edit _ n d1 σ r1 >>= fun x => Except.ok ((σ, f d1) :: x.1, x.2)) = _
      rw [ih _ _ _ _ _ h3, h4]
      rfl
  unfold Eval.test at h ⊢
  obtain ⟨⟨d1, r1⟩, h1, h⟩ := bind_ok.1 h
  obtain ⟨⟨σ1, a⟩, h2, h⟩ := bind_ok.1 h
  obtain ⟨⟨as1, r2⟩, h3, h⟩ := bind_ok.1 h
  cases h
  obtain ⟨a', h4, h2⟩ := bind_ok.1 h2
  cases h2
  rw [h1]
  show (Eval.testLoop edit _ n d1 σ r1 >>= fun x => Except.ok ((σ, f d1) :: x.1, x.2)) = _
  rw [loop _ _ _ _ _ _ h3, h4]
  rfl

/-- The parameters are within the number types: gauges of at least 1, and all counters fit. -/
structure InRange (p : Params) : Prop where
  datagauge : p.datagauge ≠ 0
  namegauge : p.namegauge ≠ 0
  gauges : p.namegauge * p.datagauge ≤ usizeMax
  counters : p.size + p.changes * (p.batch + 1) < usizeMax

/-- The edits of the session, with the batch size of the parameters; only a sequence that is not empty can be inserted into. -/
def Possible (p : Params) (o : Edit) : Prop := (o = .insert p.batch ∧ (p.size ≠ 0 ∨ p.changes = 0)) ∨ o = .append p.batch

/-- The answers are related to the sequences that the edits make on a plain list. -/
def Matches (C : Coord G E) (p : Params) (coord : G) (o : Edit) (Q : List E → B → Prop) (as : List B) : Prop :=
  as.length = p.changes + 1 ∧ ∀ (i : Nat) a, as[i]? = some a → Q (sessionAt (o.spec C) C p.size coord i).1 a

theorem sessionV_total (C : Coord G E) (word : R → BitVec 64 × R) (p : Params) (coord : G) (rng : R) (hp : InRange p) {o : Edit} (ho : Possible p o)
    {scratch : RazTree E Count → P B} {Q : List E → B → Prop}
    (hR : ∀ t, t.Reachable .edit → ∃ b, scratch t = .ok b ∧ Q t.elems b) :
    ∃ as rng', sessionV C word p coord rng (fun s r => o.run C word s r) scratch = .ok (as, rng') ∧ Matches C p coord o Q as := by
  have key := C67_session C word p coord () rng hp.1 hp.2 hp.3 hp.4 (plainly (fun s => unwrap s.raztree >>= scratch)) (fun _ a xs => Q xs a.2) (by
    intro σ s t ht hr _ _
    obtain ⟨b, h1, h2⟩ := hR t hr
    exact ⟨((), b), by simp only [plainly, ht, unwrap, bind, Except.bind, h1]; rfl, h2⟩)
  obtain ⟨as, rng', h1, h2, h3⟩ : ∃ as rng', Eval.test (createRaz C word p coord) (fun s r => o.run C word s r)
      (plainly (T := Unit) (fun s => unwrap s.raztree >>= scratch)) p.changes () rng = .ok (as, rng') ∧ as.length = p.changes + 1 ∧
      ∀ (i : Nat) a, as[i]? = some a → Q (sessionAt (o.spec C) C p.size coord i).1 a.2 := by
    rcases ho with ⟨rfl, h0⟩ | rfl
    · exact drop_store (key.1 h0)
    · exact drop_store key.2
  refine ⟨as.map Prod.snd, rng', ?_, by simpa using h2, ?_⟩
  · unfold sessionV
    rw [h1]
    rfl
  · intro i a hi
    rw [List.getElem?_map, Option.map_eq_some_iff] at hi
    obtain ⟨a, hi, rfl⟩ := hi
    exact h3 i a hi

theorem sessionV_when_ok (C : Coord G E) (word : R → BitVec 64 × R) (p : Params) (coord : G) (rng : R) (hp : InRange p) {o : Edit} (ho : Possible p o)
    {scratch : RazTree E Count → P B} {Q : List E → B → Prop}
    (hR : ∀ t b, t.Reachable .edit → scratch t = .ok b → Q t.elems b) {as : List B} {rng' : R}
    (h : sessionV C word p coord rng (fun s r => o.run C word s r) scratch = .ok (as, rng')) : Matches C p coord o Q as := by
  unfold sessionV at h
  cases hx : Eval.test (createRaz C word p coord) (fun s r => o.run C word s r) (plainly (T := Unit) (fun s => unwrap s.raztree >>= scratch)) p.changes () rng with
  | error q => rw [hx] at h; cases h
  | ok x =>
    obtain ⟨as0, r0⟩ := x
    rw [hx] at h
    cases h
    have h1 := test_total hx
    have key := C67_session C word p coord () rng hp.1 hp.2 hp.3 hp.4 (plainly (fun s => .ok (unwrap s.raztree >>= scratch)))
      (fun _ a xs => ∀ b, a.2 = .ok b → Q xs b) (by
        intro σ s t ht hr _ _
        refine ⟨((), scratch t), by simp only [plainly, ht, unwrap, bind, Except.bind]; rfl, fun b hb => hR t b hr hb⟩)
    obtain ⟨as, rng1, g1, g2, g3⟩ : ∃ as rng', Eval.test (createRaz C word p coord) (fun s r => o.run C word s r)
        (plainly (T := Unit) (fun s => .ok (unwrap s.raztree >>= scratch))) p.changes () rng = .ok (as, rng') ∧ as.length = p.changes + 1 ∧
        ∀ (i : Nat) a, as[i]? = some a → ∀ b, a.2 = .ok b → Q (sessionAt (o.spec C) C p.size coord i).1 b := by
      rcases ho with ⟨rfl, h0⟩ | rfl
      · exact drop_store (key.1 h0)
      · exact drop_store key.2
    rw [h1] at g1
    cases g1
    refine ⟨by simpa using g2, fun i a hi => ?_⟩
    rw [List.getElem?_map, Option.map_eq_some_iff] at hi
    obtain ⟨a, hi, rfl⟩ := hi
    exact g3 i (a.1, .ok a.2) (by rw [List.getElem?_map, hi]; rfl) a.2 rfl

/-- **C76, on plain lists.** Within the number types, a session with the incremental engine does not panic, and each of its answers is the
one for the sequence that the edits so far make on a plain list: the greatest element, -/
theorem C76_max_lists [DecidableEq E] {le : E → E → Bool} (tot : ∀ a b, le a b = true ∨ le b a = true)
    (tr : ∀ a b c, le a b = true → le b c = true → le a c = true) (C : Coord G E) (word : R → BitVec 64 × R) (p : Params) (coord : G)
    (rng : R) (q : Name) (hp : InRange p) {o : Edit} (ho : Possible p o) :
    ∃ as rng', Ends (sessionH C word p coord rng (editH C word o) (upRun (upNode (fun e => e) (EvalRaz.cmpMax le)) q) Table.empty)
      (.ok (as, rng')) ∧ Matches C p coord o (maxSpec le) as := by
  obtain ⟨as, rng', h1, h2⟩ := sessionV_total C word p coord rng hp ho (scratch := fun t => t.foldUp (fun e => e) (EvalRaz.cmpMax le)) (Q := maxSpec le) (by
    intro t hr
    obtain ⟨-, h2, h3⟩ := C52_max_partial tot tr (s := (⟨some t, 0, (), 0, 0, 0⟩ : EvalRaz E Count Unit)) rfl hr.any
      (full_noEmptySub (Reach.mono (by simp [Usage.edit]) (by simp [Usage.edit]) hr)) (g := ())
    by_cases he : t.elems = []
    · exact ⟨none, h2 he, .inl ⟨he, rfl⟩⟩
    · obtain ⟨m, h4, h5⟩ := h3 he
      exact ⟨some m, h4, .inr ⟨m, rfl, h5⟩⟩)
  have key := (C76_fold_up (fun e => e) (EvalRaz.cmpMax le) C word p coord rng q o (fun _ l => l)).1
  rw [h1] at key
  exact ⟨as, rng', key, h2⟩

/-- the list of the function's values, -/
theorem C76_map_lists [DecidableEq E] [RazMeta F N] [DecidableEq F] [DecidableEq N] (fn : E → F) (C : Coord G E) (word : R → BitVec 64 × R) (p : Params)
    (coord : G) (rng : R) (hp : InRange p) {o : Edit} (ho : Possible p o) :
    ∃ as rng', Ends (sessionH C word p coord rng (editH C word o) (mapRun (N := N) fn) Space.empty) (.ok (as, rng')) ∧
      Matches C p coord o (fun xs a => ∃ t, a = some t ∧ t.elems = xs.map fn) as := by
  obtain ⟨as, rng', h1, h2⟩ := sessionV_total C word p coord rng hp ho (scratch := fun t => ((t.map fn : P (RazTree F N))).map some)
    (Q := fun xs a => ∃ t, a = some t ∧ t.elems = xs.map fn) (by
    intro t hr
    obtain ⟨t', h1, -, h3, -⟩ := C15_map (N := N) hr fn
    exact ⟨some t', by rw [h1]; rfl, t', rfl, h3⟩)
  have key := (C76_map (N := N) fn C word p coord rng o (fun _ l => l)).1
  rw [h1] at key
  exact ⟨as, rng', key, h2⟩

theorem rebuild_ok {M : Type} [RazMeta E M] [RazMeta E N] (c : Rebuild E) {t : RazTree E M} (hr : t.Reachable .any) :
    ∃ b : Option (RazTree E N), c.scratch t = .ok b := by
  cases c with
  | reverse =>
    rcases C46_reverse (N := N) (s := (⟨some t, 0, (), 0, 0, 0⟩ : EvalRaz E M Unit)) rfl hr (g := ()) with ⟨-, h, -⟩ | ⟨-, t', h, -⟩
    · exact ⟨_, h⟩
    · exact ⟨_, h⟩
  | filter f =>
    rcases C46_filter (N := N) f (s := (⟨some t, 0, (), 0, 0, 0⟩ : EvalRaz E M Unit)) rfl hr (g := ()) with ⟨-, h, -⟩ | ⟨-, t', h, -⟩
    · exact ⟨_, h⟩
    · exact ⟨_, h⟩

/-- the reversed or filtered list, -/
theorem C76_rebuild_lists [DecidableEq E] [RazMeta E N] [DecidableEq N] (c : Rebuild E) (C : Coord G E) (word : R → BitVec 64 × R) (p : Params)
    (coord : G) (rng : R) (hp : InRange p) {o : Edit} (ho : Possible p o) :
    ∃ as rng', Ends (sessionH C word p coord rng (editH C word o) (rebuildRun (N := N) c) Space.empty) (.ok (as, rng')) ∧
      Matches C p coord o (fun xs a => a.read = some (.mapped (c.list xs))) as := by
  obtain ⟨as, rng', h1, h2⟩ := sessionV_total C word p coord rng hp ho (scratch := fun t => (c.scratch t).map RAns.rebuilt)
    (Q := fun xs (a : RAns E N) => a.read = some (.mapped (c.list xs))) (by
    intro t hr
    obtain ⟨b, hb⟩ := rebuild_ok (N := N) c hr.any
    exact ⟨.rebuilt b, by rw [hb]; rfl, scratch_elems c hr.any hb⟩)
  have key := (C76_rebuild (N := N) c C word p coord rng o (fun _ l => l)).1
  rw [h1] at key
  exact ⟨as, rng', key, h2⟩

/-- the elements themselves, -/
theorem C76_list_lists [DecidableEq E] (C : Coord G E) (word : R → BitVec 64 × R) (p : Params) (coord : G) (rng : R) (hp : InRange p) {o : Edit}
    (ho : Possible p o) :
    ∃ as rng', Ends (sessionH C word p coord rng (editH C word o) toListRun Space.empty) (.ok (as, rng')) ∧
      Matches C p coord o (fun xs a => ∃ s, a = some s ∧ s.elems.reverse = xs) as := by
  obtain ⟨as, rng', h1, h2⟩ := sessionV_total C word p coord rng hp ho (scratch := fun t => .ok (some (toListScratch t)))
    (Q := fun xs a => ∃ s, a = some s ∧ s.elems.reverse = xs) (fun t hr => ⟨_, rfl, _, rfl, toListScratch_elems hr.any⟩)
  have key := (C76_to_list C word p coord rng o (fun _ l => l)).1
  rw [h1] at key
  exact ⟨as, rng', key, h2⟩

/-- or the sum that the non-incremental adder gives, if the session ends without a panic (the adder panics on texts that it does not
understand). -/
theorem C76_adder_lists (C : Coord G Char) (word : R → BitVec 64 × R) (p : Params) (coord : G) (rng : R) (hp : InRange p) {o : Edit}
    (ho : Possible p o) {as : List (Option (AStack Nat Nat))} {rng' : R}
    (h : Ends (sessionH C word p coord rng (editH C word o) adderRun AdderSpaces.empty) (.ok (as, rng'))) :
    Matches C p coord o (fun xs a => ∃ s, a = some s ∧ Adder.nonInc (⟨xs, ()⟩ : EvalVec Char Unit) () = .ok s.elems.reverse) as := by
  refine sessionV_when_ok C word p coord rng hp ho (fun t b hr hb => ?_) ((C76_adder C word p coord rng o).unique h)
  cases hx : adderScratch t with
  | error q => rw [hx] at hb; cases hb
  | ok y =>
    rw [hx] at hb
    cases hb
    exact ⟨y, rfl, Adder.C47_when_ok rfl hr.any hx ()⟩

/-! ### Cases -/

theorem ends_of {M A : Type} {m : HR E M (List B × R)} {r : P (List B × R)} (h : Ends m r) {f : List B × R → A} {a : A} (he : r.map f = .ok a) :
    ∃ x, Ends m (.ok x) ∧ f x = a := by
  cases r with
  | error q => cases he
  | ok x => exact ⟨x, h, Except.ok.inj he⟩

theorem exParams_inRange : InRange exParams := ⟨by decide, by decide, by decide, by decide⟩

/-- The greatest elements after three insertions, with positions and with names. -/
example : (∃ x, Ends (sessionH exCoord exWord exParams 0 0 (editH exCoord exWord (.insert 2)) (upRun (upNode (fun e => e) max) (.str "max")) Table.empty)
      (.ok x) ∧ x.1 = [some 4, some 7, some 10, some 13]) ∧
    ∃ x, Ends (sessionH exCoord exWord exParams 0 0 (editHN exCoord exWord (fun r l => if r % 2 = 0 then l else l.reverse) (.insert 2))
      (upRun (upNode (fun e => e) max) (.str "max")) Table.empty) (.ok x) ∧ x.1 = [some 4, some 7, some 10, some 13] := by
  obtain ⟨h1, h2⟩ := C76_fold_up (fun e : Nat => e) max exCoord exWord exParams 0 0 (.str "max") (.insert 2)
    (fun r l => if r % 2 = 0 then l else l.reverse)
  exact ⟨ends_of h1 (f := Prod.fst) (by decide +kernel), ends_of h2 (f := Prod.fst) (by decide +kernel)⟩

example : ∃ as rng', Ends (sessionH exCoord exWord exParams 0 0 (editH exCoord exWord (.insert 2))
      (upRun (upNode (fun e => e) (EvalRaz.cmpMax (fun a b => decide (a ≤ b)))) (.str "max")) Table.empty) (.ok (as, rng')) ∧
    Matches exCoord exParams 0 (.insert 2) (maxSpec (fun a b => decide (a ≤ b))) as :=
  C76_max_lists (le := fun a b : Nat => decide (a ≤ b)) (by intro a b; simp; omega) (by intro a b c; simp; omega) exCoord exWord exParams 0 0
    (.str "max") exParams_inRange (.inl ⟨rfl, .inl (by decide)⟩)

/-- Mapped sequences in a session with insertions. -/
example : ∃ x, Ends (sessionH exCoord exWord exParams 0 0 (editH exCoord exWord (.insert 2)) (mapRun (N := Count) (· * 2)) Space.empty) (.ok x) ∧
    x.1.map (Option.map RazTree.elems) = [some [0, 2, 4, 6, 8], some [12, 14, 0, 2, 4, 6, 8], some [18, 20, 12, 14, 0, 2, 4, 6, 8],
      some [18, 20, 12, 14, 0, 24, 26, 2, 4, 6, 8]] :=
  ends_of (C76_map (N := Count) (fun e : Nat => e * 2) exCoord exWord exParams 0 0 (.insert 2) (fun _ l => l)).1
    (f := fun x => x.1.map (Option.map RazTree.elems)) (by decide +kernel)

example : ∃ as rng', Ends (sessionH exCoord exWord exParams 0 0 (editH exCoord exWord (.append 2)) (mapRun (N := Count) (· * 2)) Space.empty) (.ok (as, rng')) ∧
    Matches exCoord exParams 0 (.append 2) (fun xs a => ∃ t, a = some t ∧ t.elems = xs.map (· * 2)) as :=
  C76_map_lists (N := Count) (fun e : Nat => e * 2) exCoord exWord exParams 0 0 exParams_inRange (.inr rfl)

/-- Reversed sequences in a session with insertions. -/
example : ∃ x, Ends (sessionH exCoord exWord exParams 0 0 (editH exCoord exWord (.insert 2)) (rebuildRun (N := Count) .reverse) Space.empty) (.ok x) ∧
    x.1.map (fun a => a.read) = [some (.mapped [4, 3, 2, 1, 0]), some (.mapped [4, 3, 2, 1, 0, 7, 6]), some (.mapped [4, 3, 2, 1, 0, 7, 6, 10, 9]),
      some (.mapped [4, 3, 2, 1, 13, 12, 0, 7, 6, 10, 9])] := by
  obtain ⟨as, rng', h1, h2, h3⟩ := C76_rebuild_lists (N := Count) (.reverse : Rebuild Nat) exCoord exWord exParams 0 0 exParams_inRange
    (o := .insert 2) (.inl ⟨rfl, .inl (by decide)⟩)
  refine ⟨(as, rng'), h1, ?_⟩
  obtain ⟨a, b, c, d, rfl⟩ : ∃ a b c d, as = [a, b, c, d] := by
    rcases as with _ | ⟨a, _ | ⟨b, _ | ⟨c, _ | ⟨d, _ | ⟨e, as⟩⟩⟩⟩⟩ <;> simp [exParams] at h2
    exact ⟨a, b, c, d, rfl⟩
  have e0 := h3 0 a rfl
  have e1 := h3 1 b rfl
  have e2 := h3 2 c rfl
  have e3 := h3 3 d rfl
  simp only [List.map_cons, List.map_nil, e0, e1, e2, e3]
  rfl

example : ∃ x, Ends (sessionH exCoord exWord exParams 0 0 (editHN exCoord exWord (fun _ l => l.reverse) (.append 2))
      (rebuildRun (N := Count) (.filter (fun n => decide (n % 3 = 1)))) Space.empty) (.ok x) ∧
    x.1.length = 4 :=
  ends_of (C76_rebuild (N := Count) (.filter (fun n => decide (n % 3 = 1)) : Rebuild Nat) exCoord exWord exParams 0 0 (.append 2) (fun _ l => l.reverse)).2
    (f := fun x => x.1.length) (by decide +kernel)

/-- Lists in a session with insertions. -/
example : ∃ as rng', Ends (sessionH exCoord exWord exParams 0 0 (editH exCoord exWord (.insert 2)) toListRun Space.empty) (.ok (as, rng')) ∧
    Matches exCoord exParams 0 (.insert 2) (fun xs a => ∃ s, a = some s ∧ s.elems.reverse = xs) as :=
  C76_list_lists exCoord exWord exParams 0 0 exParams_inRange (.inl ⟨rfl, .inl (by decide)⟩)

example : ∃ x, Ends (sessionH exCoord exWord exParams 0 0 (editHN exCoord exWord (fun _ l => l) (.insert 2)) toListRun Space.empty) (.ok x) ∧
    x.1.map (Option.map AStack.elems) = [some [4, 3, 2, 1, 0], some [4, 3, 2, 7, 6, 1, 0], some [4, 10, 9, 3, 2, 7, 6, 1, 0],
      some [4, 10, 9, 3, 2, 13, 12, 7, 6, 1, 0]] :=
  ends_of (C76_to_list exCoord exWord exParams 0 0 (.insert 2) (fun _ l => l)).2 (f := fun x => x.1.map (Option.map AStack.elems)) (by decide +kernel)

/-- Random texts for the adder. -/
def exLang : Coord Nat Char :=
  ⟨fun g => (if g % 4 = 1 then ',' else if g % 4 = 3 then '+' else Char.ofNat (49 + g % 7), g + 1), fun g => (7 * g, g + 1)⟩

/-- "1,3+" and three insertions. -/
example : ∃ as rng', Ends (sessionH exLang exWord ⟨4, 2, 1, 3, 3⟩ 0 0 (editH exLang exWord (.insert 3)) adderRun AdderSpaces.empty) (.ok (as, rng')) ∧
    as.map (Option.map AStack.elems) = [some [4], some [4, 7], some [4, 11], some [4, 12]] ∧
    Matches exLang ⟨4, 2, 1, 3, 3⟩ 0 (.insert 3) (fun xs a => ∃ s, a = some s ∧ Adder.nonInc (⟨xs, ()⟩ : EvalVec Char Unit) () = .ok s.elems.reverse) as := by
  obtain ⟨⟨as, rng'⟩, h1, h2⟩ := ends_of (C76_adder exLang exWord ⟨4, 2, 1, 3, 3⟩ 0 0 (.insert 3)) (f := fun x => x.1.map (Option.map AStack.elems))
    (a := [some [4], some [4, 7], some [4, 11], some [4, 12]]) (by decide +kernel)
  exact ⟨as, rng', h1, h2, C76_adder_lists exLang exWord ⟨4, 2, 1, 3, 3⟩ 0 0 ⟨by decide, by decide, by decide, by decide⟩ (.inl ⟨rfl, .inl (by decide)⟩) h1⟩

/-- Insertions into an empty sequence: the session panics, with whatever computation. -/
example : Ends (sessionH exCoord exWord ⟨0, 2, 1, 2, 3⟩ 0 0 (editH exCoord exWord (.insert 2)) (upRun (upNode (fun e => e) max) (.str "max")) Table.empty)
    (.error .overflow) := by
  have h := (C76_fold_up (fun e : Nat => e) max exCoord exWord ⟨0, 2, 1, 2, 3⟩ 0 0 (.str "max") (.insert 2) (fun _ l => l)).1
  have he : (sessionV exCoord exWord ⟨0, 2, 1, 2, 3⟩ 0 0 (fun s r => (Edit.insert 2).run exCoord exWord s r)
      (fun t => t.foldUp (fun e => e) max)).map (fun _ => ()) = .error .overflow := by decide +kernel
  cases hr : sessionV exCoord exWord ⟨0, 2, 1, 2, 3⟩ 0 0 (fun s r => (Edit.insert 2).run exCoord exWord s r) (fun t => t.foldUp (fun e => e) max) with
  | error q => rw [hr] at he h; cases he; exact h
  | ok x => rw [hr] at he; cases he

end Iodyn.Heap
