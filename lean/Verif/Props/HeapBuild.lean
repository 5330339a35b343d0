import Verif.Spec.HeapBuild
import Verif.Props.HeapSession
/-
C85: sessions of the test driver for building.
-/
namespace Iodyn.Heap
open Iodyn.Eval Iodyn.Incr
variable {E M G R : Type} {e : Engine}

theorem lookH_sim [RazMeta E M] {σ : RMem E M} {hs : HEval M G} {s : EvalRaz E M G} (h : RepE e σ hs s) :
    Sim (lookH hs) σ (.ok s.raztree : P (Option (RazTree E M))) (fun b a σ' => a = b ∧ σ' = σ) := by
  rcases h.tree with ⟨h1, h2⟩ | ⟨ht, t, h1, h2, h3⟩
  · rw [h2]
    exact ⟨_, _, ⟨0, fun f _ => by simp only [lookH, h1]⟩, rfl, rfl⟩
  · rw [h2]
    obtain ⟨v, v1, v2, -⟩ := view_exists h3.tree
    refine ⟨some t, σ, ⟨v.size, fun f hf => ?_⟩, rfl, rfl⟩
    simp only [lookH, h1, readTree_view v1 f hf, v2, h3.info]
    rfl

theorem build_sim [RazMeta E M] (C : Coord G E) (word : R → BitVec 64 × R) (dg ng : Nat) (coord : G) {edit : HEval M G → R → HR E M (HEval M G × R)}
    {edit' : EvalRaz E M G → R → P (EvalRaz E M G × R)}
    (he : ∀ (σ : RMem E M) hs s rng, Holding e σ hs s → Sim (edit hs rng) σ (edit' s rng) (fun b a σ' => Holding e σ' a.1 b.1 ∧ a.2 = b.2)) :
    ∀ (sizes : List Nat) (rng : R) (σ : RMem E M), Sim (buildH e C word dg ng coord edit sizes rng) σ (buildV C word dg ng coord edit' sizes rng)
      (fun b a _ => a = b)
  | [], rng, σ => Sim.pure rfl
  | size :: sizes, rng, σ => by
    unfold buildH buildV buildTest Eval.buildTest
    refine (incInit_sim C word _ _ _ coord rng _).bind ?_
    rintro ⟨s1, r1⟩ ⟨hs1, r1'⟩ σ1 hx ⟨h1, h2, h3⟩
    simp only at h1 h2 h3 ⊢
    subst h2
    refine (lookH_sim h1).bind ?_
    rintro b a σ2 - ⟨rfl, rfl⟩
    refine (he _ _ _ r1' ⟨h1, h3⟩).bind ?_
    rintro ⟨s3, r3⟩ ⟨hs3, r3'⟩ σ3 - ⟨h4, h5⟩
    simp only at h4 h5 ⊢
    subst h5
    refine (lookH_sim h4.1).bind ?_
    rintro b a σ4 - ⟨rfl, rfl⟩
    refine (build_sim C word dg ng coord he sizes r3' _).bind ?_
    rintro b a σ5 - rfl
    exact Sim.pure rfl

theorem sim_ends {A : Type} {m : HR E M A} {σ : RMem E M} {x : P A} (h : Sim m σ x (fun b a _ => a = b)) : ∃ f0, ∀ f, f0 ≤ f → (m f σ).map Prod.fst = x := by
  cases x with
  | error q =>
    obtain ⟨f0, h⟩ := h
    exact ⟨f0, fun f hf => by rw [h f hf]; rfl⟩
  | ok b =>
    obtain ⟨a, σ', ⟨f0, h⟩, rfl⟩ := h
    exact ⟨f0, fun f hf => by rw [h f hf]; rfl⟩

/-- **C85, over the store.** The test driver for building makes one sequence after the other in the same store, and all use the same names. Still every
sequence, read in full after it is built and after its edit, is the one that the harness makes on values, and a panic happens wherever one happens there: from
any store, for all lists of sizes, gauges, batches, and random streams, with both engines, for both indices. -/
theorem C85_store (C : Coord G E) (word : R → BitVec 64 × R) (dg ng : Nat) (coord : G) (batch : Nat) (order : R → List Name → List Name) (sizes : List Nat) (rng : R) :
    (∀ σ : RMem E Count, ∃ f0, ∀ f, f0 ≤ f → (buildH e C word dg ng coord (fun s r => HEval.insert e C word batch s r) sizes rng f σ).map Prod.fst =
      buildV C word dg ng coord (fun s r => EvalIRaz.insert C word s batch r) sizes rng) ∧
    (∀ σ : RMem E Names, ∃ f0, ∀ f, f0 ≤ f → (buildH e C word dg ng coord (fun s r => HEval.insertAtName e C word (order r) batch s r) sizes rng f σ).map Prod.fst =
      buildV C word dg ng coord (fun s r => EvalRazNameIndex.insert C word (order r) s batch r) sizes rng) :=
  ⟨fun σ => sim_ends (build_sim C word dg ng coord (fun _ _ _ rng h => insert_sim C word h batch rng) sizes rng σ),
    fun σ => sim_ends (build_sim C word dg ng coord (fun _ _ _ rng h => insertAtName_sim C word (order rng) h batch rng) sizes rng σ)⟩

/-- One round of the driver is a session of the other driver with one change. -/
theorem round_test {D O T : Type} {create : R → P (D × R)} {edit : D → R → P (D × R)} {look : D → O} {rng rng' : R} {σ : T} {as : List (T × O)}
    (h : Eval.test create edit (plainly (fun d => .ok (look d))) 1 σ rng = .ok (as, rng')) :
    ∃ d r d', create rng = .ok (d, r) ∧ edit d r = .ok (d', rng') ∧ as = [(σ, look d), (σ, look d')] := by
  unfold Eval.test at h
  obtain ⟨⟨d, r⟩, h1, h⟩ := bind_ok.1 h
  obtain ⟨a, h2, h⟩ := bind_ok.1 h
  obtain ⟨⟨as', r'⟩, h3, h⟩ := bind_ok.1 h
  cases h
  cases h2
  unfold Eval.testLoop at h3
  obtain ⟨⟨d', r2⟩, h4, h3⟩ := bind_ok.1 h3
  obtain ⟨a', h5, h3⟩ := bind_ok.1 h3
  obtain ⟨⟨as2, r3⟩, h6, h3⟩ := bind_ok.1 h3
  cases h3
  cases h5
  cases h6
  exact ⟨d, r, d', h1, h4, rfl⟩

theorem round_ok (C : Coord G E) (word : R → BitVec 64 × R) {dg ng : Nat} (coord : G) {batch n : Nat} (hd : dg ≠ 0) (hn : ng ≠ 0) (hg : ng * dg ≤ usizeMax)
    (h0 : n ≠ 0) (h1 : n + (batch + 1) < usizeMax) (rng : R) : ∃ d r d' rng' t t', (EvalRaz.incInit C word n dg ng coord rng : P (EvalRaz E Count G × R)) = .ok (d, r) ∧
      EvalIRaz.insert C word d batch r = .ok (d', rng') ∧ d.raztree = some t ∧ d'.raztree = some t' ∧ t.Reachable .edit ∧ t'.Reachable .edit ∧
      t.elems = draws C.elem coord n ∧ t'.elems = ((Edit.insert batch).spec C (draws C.elem coord n, after C.elem coord n)).1 := by
  obtain ⟨as, rng', k1, k2, k3⟩ := (C67_session C word ⟨n, dg, ng, batch, 1⟩ coord () rng hd hn hg (by simpa using h1) (plainly (fun s => .ok s.raztree))
    (fun _ a xs => ∃ t, a.2 = some t ∧ t.Reachable .edit ∧ t.elems = xs) (fun σ s t ht hr _ _ => ⟨_, rfl, t, ht, hr, rfl⟩)).1 (.inl h0)
  obtain ⟨d, r, d', g1, g2, rfl⟩ := round_test k1
  obtain ⟨t, t1, t2, t3⟩ := k3 0 () _ rfl rfl
  obtain ⟨t', u1, u2, u3⟩ := k3 1 () _ rfl rfl
  exact ⟨d, r, d', rng', t, t', g1, g2, t1, u1, t2, u2, t3, u3⟩

/-- **C85, on plain lists.** With sizes from 1, gauges from 1 and numbers that fit, nothing panics: every sequence has the elements of the data generator, the
same for all sizes as far as they go, and after the edit the batch is in it at the place that the generator gives. -/
theorem C85_lists (C : Coord G E) (word : R → BitVec 64 × R) {dg ng : Nat} (coord : G) {batch : Nat} (hd : dg ≠ 0) (hn : ng ≠ 0) (hg : ng * dg ≤ usizeMax) :
    ∀ (sizes : List Nat) (rng : R), (∀ n ∈ sizes, n ≠ 0 ∧ n + (batch + 1) < usizeMax) →
    ∃ outs rng', buildV C word dg ng coord (fun s r => EvalIRaz.insert C word s batch r) sizes rng = .ok (outs, rng') ∧
      List.Forall₂ (fun n (o : Option (RazTree E Count) × Option (RazTree E Count)) => ∃ t t', o = (some t, some t') ∧ t.Reachable .edit ∧ t'.Reachable .edit ∧
        t.elems = draws C.elem coord n ∧ t'.elems = ((Edit.insert batch).spec C (draws C.elem coord n, after C.elem coord n)).1) sizes outs
  | [], rng, _ => ⟨[], rng, rfl, .nil⟩
  | n :: sizes, rng, h => by
    obtain ⟨h0, h1⟩ := h n List.mem_cons_self
    obtain ⟨d, r, d', rng', t, t', g1, g2, t1, u1, t2, u2, t3, u3⟩ := round_ok C word coord hd hn hg h0 h1 rng
    obtain ⟨outs, rng2, f1, f2⟩ := C85_lists C word coord hd hn hg sizes rng' (fun m hm => h m (List.mem_cons_of_mem _ hm))
    refine ⟨(some t, some t') :: outs, rng2, ?_, .cons ⟨t, t', rfl, t2, u2, t3, u3⟩ f2⟩
    unfold buildV Eval.buildTest
    refine bind_ok.2 ⟨_, g1, bind_ok.2 ⟨_, rfl, bind_ok.2 ⟨_, g2, bind_ok.2 ⟨_, rfl, bind_ok.2 ⟨_, f1, ?_⟩⟩⟩⟩⟩
    simp only [t1, u1]
    rfl

/-- **C85, vectors.** The second half of eval/examples/build_seq.rs: the vectors built are the same lists; the edits differ from those of the sequences as in C50. -/
theorem C85_vec (C : Coord G E) (coord : G) (batch : Nat) : ∀ (sizes : List Nat) (rng : R), (∀ n ∈ sizes, n ≠ 0) →
    ∃ outs rng', buildVec C coord batch sizes rng = .ok (outs, rng') ∧
      List.Forall₂ (fun n (o : List E × List E) => o.1 = draws C.elem coord n ∧
        o.2 = (vecInsertSpec C batch (draws C.elem coord n, after C.elem coord n)).1) sizes outs
  | [], rng, _ => ⟨[], rng, rfl, .nil⟩
  | n :: sizes, rng, h => by
    obtain ⟨as, rng', k1, k2, k3⟩ := (C67_session_vec C ⟨n, 1, 1, batch, 1⟩ coord () rng (plainly (fun s => .ok s.vec))
      (fun _ a xs => a.2 = xs) (fun σ s => ⟨_, rfl, rfl⟩)).1 (.inl (h n List.mem_cons_self))
    obtain ⟨d, r, d', g1, g2, rfl⟩ := round_test k1
    obtain ⟨outs, rng2, f1, f2⟩ := C85_vec C coord batch sizes rng' (fun m hm => h m (List.mem_cons_of_mem _ hm))
    refine ⟨(d.vec, d'.vec) :: outs, rng2, ?_, .cons ⟨k3 0 () _ rfl rfl, k3 1 () _ rfl rfl⟩ f2⟩
    unfold buildVec Eval.buildTest
    exact bind_ok.2 ⟨_, g1, bind_ok.2 ⟨_, rfl, bind_ok.2 ⟨_, g2, bind_ok.2 ⟨_, rfl, bind_ok.2 ⟨_, f1, rfl⟩⟩⟩⟩⟩

/-- **C85, size 0** (a multiplier below 1): the first edit of an empty sequence panics, whatever came before. -/
theorem C85_zero (C : Coord G E) (word : R → BitVec 64 × R) {dg ng : Nat} (coord : G) {batch : Nat} (hd : dg ≠ 0) (hn : ng ≠ 0) (hg : ng * dg ≤ usizeMax)
    (rest : List Nat) : ∀ (sizes : List Nat) (rng : R), (∀ n ∈ sizes, n ≠ 0 ∧ n + (batch + 1) < usizeMax) →
    buildV C word dg ng coord (fun s r => EvalIRaz.insert C word s batch r) (sizes ++ 0 :: rest) rng = .error .overflow ∧
    buildVec C coord batch (sizes ++ 0 :: rest) rng = .error .overflow
  | [], rng, _ => by
    constructor
    · obtain ⟨s, t, h1, h2, h3, h4, -⟩ := C44_init (M := Count) (u := .edit) C word 0 dg ng coord rng hd hn hg (by decide)
      have he : t.elems = [] := by rw [h4]; rfl
      simp only [List.nil_append, buildV, Eval.buildTest, h1, bind, Except.bind, C45_insert_empty C word h2 h3 he]
    · have he : (EvalVec.incInit C 0 coord).vec = [] := by
        simp only [EvalVec.incInit, genData_eq, foldl_push, List.nil_append]; rfl
      simp only [List.nil_append, buildVec, Eval.buildTest, createVec, bind, Except.bind, insertVec, EvalVec.insert, he, List.length_nil, remU, if_true]
  | n :: sizes, rng, h => by
    obtain ⟨h0, h1⟩ := h n List.mem_cons_self
    constructor
    · obtain ⟨d, r, d', rng', t, t', g1, g2, t1, u1, t2, u2, t3, u3⟩ := round_ok C word coord hd hn hg h0 h1 rng
      have ih := (C85_zero C word coord hd hn hg rest sizes rng' (fun m hm => h m (List.mem_cons_of_mem _ hm))).1
      unfold buildV at ih ⊢
      simp only [List.cons_append, Eval.buildTest, g1, g2, bind, Except.bind, ih]
    · obtain ⟨as, rng', k1, k2, k3⟩ := (C67_session_vec C ⟨n, 1, 1, batch, 1⟩ coord () rng (plainly (fun s => .ok s.vec))
        (fun _ a xs => a.2 = xs) (fun σ s => ⟨_, rfl, rfl⟩)).1 (.inl h0)
      obtain ⟨d, r, d', g1, g2, rfl⟩ := round_test k1
      have ih := (C85_zero C word coord hd hn hg rest sizes rng' (fun m hm => h m (List.mem_cons_of_mem _ hm))).2
      unfold buildVec at ih ⊢
      have g1 : createVec C ⟨n, 1, 1, batch, 1⟩ coord rng = .ok (d, r) := g1
      have g2 : insertVec C ⟨0, 1, 1, batch, 1⟩ d r = .ok (d', rng') := g2
      simp only [List.cons_append, Eval.buildTest, g1, g2, bind, Except.bind, ih]

/-- Builds a sequence, reads it, builds another one and reads the first again. -/
def keptH (e : Engine) (a b : Nat) : HR Nat Count (Option (List Nat) × Option (List Nat)) := do
  let (s, r) ← HEval.incInit e exCoord exWord a 1 1 0 0
  let x ← lookH s
  let _ ← HEval.incInit (M := Count) e exCoord exWord b 1 1 0 r
  let y ← lookH s
  return (x.map (·.elems), y.map (·.elems))

/-- **C85, sequences that are kept.** That the driver drops each sequence before it builds the next is essential: with the incremental engine a sequence that is
kept changes when another harness builds one, because all harnesses count their names from 0. Not with the naive engine. -/
theorem C85_kept : (keptH .dcg 3 3 99 Store.empty).map Prod.fst = .ok (some [0, 1, 2], some [0, 1]) ∧
    (keptH .dcg 4 8 99 Store.empty).map Prod.fst = .ok (some [0, 1, 2, 3], some [0, 1, 2, 3, 4]) ∧
    (keptH .naive 4 8 99 Store.empty).map Prod.fst = .ok (some [0, 1, 2, 3], some [0, 1, 2, 3]) := by
  refine ⟨by decide +kernel, by decide +kernel, by decide +kernel⟩

/-- A session over the store, as C85_store and C85_lists say. -/
example : (∀ n ∈ [1, 3, 10], n ≠ 0 ∧ n + (2 + 1) < usizeMax) ∧
    (buildH (M := Count) .dcg exCoord exWord 2 1 0 (fun s r => HEval.insert .dcg exCoord exWord 2 s r) [1, 3, 10] 0 99 Store.empty).map
      (fun x => x.1.1.map (fun o => (o.1.map (·.elems), o.2.map (·.elems)))) =
    .ok [(some [0], some [2, 3, 0]), (some [0, 1, 2], some [4, 5, 0, 1, 2]),
      (some [0, 1, 2, 3, 4, 5, 6, 7, 8, 9], some [11, 12, 0, 1, 2, 3, 4, 5, 6, 7, 8, 9])] := by
  refine ⟨by decide, by decide +kernel⟩

/-- The same with vectors, and with a size of 0. -/
example : (buildVec exCoord 0 2 [1, 3] 0).map Prod.fst = .ok [([0], [2, 1, 0]), ([0, 1, 2], [0, 1, 4, 3, 2])] ∧
    (buildVec exCoord 0 2 ([1, 3] ++ 0 :: []) 0).map Prod.fst = .error .overflow := by
  refine ⟨by decide +kernel, ?_⟩
  rw [(C85_zero exCoord exWord (dg := 1) (ng := 1) 0 (batch := 2) (by decide) (by decide) (by decide) [] [1, 3] 0 (by decide)).2]
  rfl

end Iodyn.Heap
