import Verif.Spec.HarnessCost
import Verif.Proof.HarnessOps
import Verif.Props.EditAgain
import Verif.Props.HeapSession
/-
C81 the work of memoised computations in sessions of the test driver.
-/
namespace Iodyn.Incr
open Iodyn.Heap Iodyn.Eval
variable {E M F N A B Sp G R D X : Type} [RazMeta E M] [DecidableEq E] [DecidableEq M]

theorem Runs.map {A' : Type} {m : H D X A} {σ σ' : Mem D X} {a : A} (h : Runs m σ a σ') (f : A → A') : Runs (m >>= fun a => Pure.pure (f a)) σ (f a) σ' :=
  h.bind .pure

/-- What holds between the edits of a harness. -/
structure Held (Hist : Sp → List (Tree (Tr × TreeData E M)) → Prop) (σ : RMem E M) (ht : HTree M) (s : EvalRaz E M G) (t : RazTree E M) (sp : Sp)
    (v : Tree (Tr × TreeData E M)) (vs : List (Tree (Tr × TreeData E M))) : Prop where
  tree : s.raztree = some t
  btw : Between Hist σ ht t sp v vs []
  num : Numbered s.names (tN .dcg t.tree)
  past : ∀ w ∈ vs, Numbered s.names (nodeNames w)

omit [RazMeta E M] [DecidableEq E] [DecidableEq M] in
theorem numbered_le {j k : Nat} {l : List Name} (h : Numbered j l) (hle : j ≤ k) : Numbered k l := fun x hx => by
  obtain ⟨i, h1, h2⟩ := h x hx
  exact ⟨i, by omega, h2⟩

theorem held_step [LawfulMeta E M] {run : HTree M → Sp → HR E M (A × Nat × Sp)} {val : RazTree E M → P B} {Rel : B → A → Sp → Prop}
    {Hist : Sp → List (Tree (Tr × TreeData E M)) → Prop} (hR : Reuses run val Rel Hist) {edit : HEval M G → R → HR E M (HEval M G × R)}
    {edit' : EvalRaz E M G → R → P (EvalRaz E M G × R)} {batch : Nat} (hc : Calls edit edit' batch) (h0 : 0 < batch) {σ : RMem E M} {ht : HTree M}
    {s s' : EvalRaz E M G} {t : RazTree E M} {sp : Sp} {v : Tree (Tr × TreeData E M)} {vs : List (Tree (Tr × TreeData E M))} {rng rng' : R}
    (g : Held Hist σ ht s t sp v vs) (he : edit' s rng = .ok (s', rng')) {t' : RazTree E M} (ht' : s'.raztree = some t') {b : B} (hb : val t' = .ok b) :
    ∃ hT σ' a w sp' v', Runs (edit (toH s ht) rng) σ (toH s' hT, rng') σ' ∧ Runs (run hT sp) σ' (a, w, sp') σ' ∧ Rel b a sp' ∧
      w ≤ (2 * (t.tree.depth + batch / (s.namegauge * s.datagauge) + 1) + 1) * t'.tree.gap ∧ s'.datagauge = s.datagauge ∧ s'.namegauge = s.namegauge ∧
      Held Hist σ' hT s' t' sp' v' (v :: vs) := by
  obtain ⟨i, ops, t1, k, c1, c2, c3, c4, c5, c6, c7, -, c9, c10, c11⟩ := hc s t rng s' rng' g.tree he
  rw [ht'] at c2
  cases c2
  have hl : t.LocalEdit [(i, ops)] := ⟨fun z _ => adds_local c3 (.inr (by omega)), fun _ _ => trivial⟩
  have he' : t.edits [(i, ops)] = .ok (t', t.tree.depth + LOp.points ops + 0) := bind_ok.2 ⟨t', c1, rfl⟩
  have hnd : (tN .dcg t.tree).Nodup := by have := g.btw.nodup; rwa [List.append_nil] at this
  have hnum := nodup_count (nodup_num (e := .dcg) (n := k) g.num hnd)
  have hcells : restCells [(i, ops)] = LOp.cells ops := by simp [restCells]
  have hn : (tN .dcg t.tree ++ restCells [(i, ops)]).Nodup := count_nodup fun x => by
    have h1 := hnum x
    have h2 := c6 x
    rw [hcells]
    simp only [List.count_append] at *
    omega
  obtain ⟨_, _, _, hm⟩ := moves [(i, ops)] g.btw.rep g.btw.inv g.btw.canon g.btw.full hn hl he'
  have hb1 : Between Hist σ ht t sp v vs (restCells [(i, ops)] ++ []) := by
    refine ⟨g.btw.rep, g.btw.inv, g.btw.canon, g.btw.full, g.btw.view, g.btw.plain, g.btw.hist, by rw [List.append_nil]; exact hn, fun w hw x hx hx' => ?_⟩
    rw [List.append_nil, hcells] at hx'
    obtain ⟨j, h1, -, h2⟩ := numN_mem (c6.subset hx')
    obtain ⟨j', h3, h4⟩ := g.past w hw x hx
    rcases h2 with rfl | rfl <;> rcases h4 with h4 | h4 <;> cases h4 <;> omega
  obtain ⟨hT, σ', a, w, sp', v', r1, r2, r3, r4, r5⟩ := between_step hR hb1 hl he' hb
  have hnv : ∀ x, x ∈ nodeNames v ↔ x ∈ tN .dcg t.tree := fun x => by rw [← nodeNames_plain, g.btw.plain, names_mem]
  refine ⟨hT, σ', a, w, sp', v', ?_, r2, r3, Nat.le_trans r4 (Nat.mul_le_mul_right _ (by omega)), c9, c10, ht', r5, ?_, ?_⟩
  · obtain ⟨f0, r1⟩ := r1
    refine ⟨f0, fun f hf => c11 ht g.btw.rep.info f σ hT σ' ?_⟩
    have := r1 f hf
    simp only [HTree.edits] at this
    rwa [show (ht.edit .dcg i ops >>= fun t' => (Pure.pure t' : HR E M _)) = ht.edit .dcg i ops from hbind_pure _] at this
  · rw [c5]
    refine numbered_num (e := .dcg) (n := k) g.num fun x => ?_
    have h1 := hm.names x
    have h2 := c6 x
    rw [hcells] at h1
    simp only [List.count_append] at *
    omega
  · intro w hw
    rcases List.mem_cons.1 hw with rfl | hw
    · intro x hx
      obtain ⟨j, h1, h2⟩ := g.num x ((hnv x).1 hx)
      exact ⟨j, by omega, h2⟩
    · exact numbered_le (g.past w hw) (by omega)

omit [RazMeta E M] [DecidableEq E] [DecidableEq M] in
/-- The answer from scratch of the driver's computation. -/
theorem plain_answer {val : RazTree E M → P B} {s : EvalRaz E M G} {x : Unit × (RazTree E M × B)}
    (h : plainly (T := Unit) (fun s : EvalRaz E M G => unwrap s.raztree >>= withTree val) () s = .ok x) : s.raztree = some x.2.1 ∧ val x.2.1 = .ok x.2.2 := by
  obtain ⟨y, h1, hfin⟩ := bind_ok.1 h
  obtain ⟨t, h2, h1⟩ := bind_ok.1 h1
  obtain ⟨b, h3, h4⟩ := bind_ok.1 h1
  cases hfin
  cases h4
  cases hs : s.raztree with
  | none => rw [hs] at h2; cases h2
  | some t' => rw [hs] at h2; cases h2; exact ⟨rfl, h3⟩

omit [RazMeta E M] [DecidableEq E] [DecidableEq M] in
theorem comp_keeping {run : HTree M → Sp → HR E M (A × Nat × Sp)} {s : EvalRaz E M G} {hT : HTree M} {σ σ' : RMem E M} {sp sp' : Sp} {a : A} {w : Nat}
    (h : Runs (run hT sp) σ (a, w, sp') σ') : Runs (HEval.comp (keeping run) sp (toH s hT)) σ (sp', a, w, sp') σ' := by
  unfold HEval.comp toH keeping
  exact (h.map fun x => (x, x.2.2)).map fun x => (x.2, x.1)

theorem held_all [LawfulMeta E M] {run : HTree M → Sp → HR E M (A × Nat × Sp)} {val : RazTree E M → P B} {Rel : B → A → Sp → Prop}
    {Hist : Sp → List (Tree (Tr × TreeData E M)) → Prop} (hR : Reuses run val Rel Hist) {edit : HEval M G → R → HR E M (HEval M G × R)}
    {edit' : EvalRaz E M G → R → P (EvalRaz E M G × R)} {batch : Nat} (hc : Calls edit edit' batch) (h0 : 0 < batch) (p : Params) :
    ∀ (n : Nat) {σ : RMem E M} {ht : HTree M} {s : EvalRaz E M G} {t : RazTree E M} {sp : Sp} {v : Tree (Tr × TreeData E M)}
      {vs : List (Tree (Tr × TreeData E M))} {rng rng' : R} {as : List (Unit × (RazTree E M × B))}, Held Hist σ ht s t sp v vs → s.namegauge = p.namegauge →
      s.datagauge = p.datagauge →
      Eval.testLoop edit' (plainly (T := Unit) (fun s => unwrap s.raztree >>= withTree val)) n s () rng = .ok (as, rng') →
      ∃ outs σ', Runs (Heap.testLoop edit (HEval.comp (keeping run)) n (toH s ht) sp rng) σ (outs, rng') σ' ∧
        worksAfter p batch Rel t (as.map Prod.snd) outs := by
  intro n
  induction n with
  | zero =>
    intro σ ht s t sp v vs rng rng' as g _ _ h
    cases h
    exact ⟨[], σ, .pure, trivial⟩
  | succ n ih =>
    intro σ ht s t sp v vs rng rng' as g hng hdg h
    unfold Eval.testLoop at h
    obtain ⟨⟨s1, r1⟩, e1, h⟩ := bind_ok.1 h
    obtain ⟨⟨u, t1, b⟩, e2, h⟩ := bind_ok.1 h
    obtain ⟨⟨as1, r2⟩, e3, hfin⟩ := bind_ok.1 h
    cases hfin
    obtain ⟨e4, e5⟩ := plain_answer e2
    obtain ⟨hT, σ1, a, w, sp', v', k1, k2, k3, k4, k5, k6, k7⟩ := held_step hR hc h0 g e1 e4 e5
    obtain ⟨outs, σ2, k8, k9⟩ := ih k7 (by rw [k6, hng]) (by rw [k5, hdg]) e3
    refine ⟨(a, w, sp') :: outs, σ2, ?_, k3, by rw [← hng, ← hdg]; exact k4, k9⟩
    unfold Heap.testLoop
    exact k1.bind ((comp_keeping k2).bind (k8.bind .pure))

theorem session_works [LawfulMeta E M] {run : HTree M → Sp → HR E M (A × Nat × Sp)} {val : RazTree E M → P B} {Rel : B → A → Sp → Prop}
    {Hist : Sp → List (Tree (Tr × TreeData E M)) → Prop} (hR : Reuses run val Rel Hist) {new : Sp} (hnew : Hist new [])
    {edit : HEval M G → R → HR E M (HEval M G × R)} {edit' : EvalRaz E M G → R → P (EvalRaz E M G × R)} {batch : Nat} (hc : Calls edit edit' batch)
    (h0 : 0 < batch) {C : Coord G E} {word : R → BitVec 64 × R} {p : Params} (hs : 0 < p.size) {coord : G} {rng rng' : R}
    {as : List (RazTree E M × B)} (h : sessionV C word p coord rng edit' (withTree val) = .ok (as, rng')) :
    ∃ outs, Ends (sessionH C word p coord rng edit (keeping run) new) (.ok (outs, rng')) ∧ worksWithin p batch Rel as outs := by
  unfold sessionV at h
  cases hx : Eval.test (createRaz C word p coord) edit' (plainly (T := Unit) (fun s => unwrap s.raztree >>= withTree val)) p.changes () rng with
  | error q => rw [hx] at h; cases h
  | ok x =>
    obtain ⟨as0, r0⟩ := x
    rw [hx] at h
    cases h
    unfold Eval.test at hx
    obtain ⟨⟨s, r1⟩, e1, hx⟩ := bind_ok.1 hx
    obtain ⟨⟨u, t, b⟩, e2, hx⟩ := bind_ok.1 hx
    obtain ⟨⟨as1, r2⟩, e3, hfin⟩ := bind_ok.1 hx
    cases hfin
    obtain ⟨e4, e5⟩ := plain_answer e2
    obtain ⟨ops, z, t', c1, c2, c3, c4, c5, c6, -, c8, c9, c10⟩ := incInit_calls e1
    simp only at e4 e5
    rw [e4] at c3
    cases c3
    have hl : (Raz.new : Raz E M).Local ops := adds_local c4 (.inr (by omega))
    have hz : ∀ x, (cN .dcg (Raz.new : Raz E M).lForest ++ cN .dcg (Raz.new : Raz E M).rForest).count x = 0 := fun x => rfl
    have hnum := nodup_count (numN_nodup (e := .dcg) 0 s.names)
    have hnd : (cN .dcg (Raz.new : Raz E M).lForest ++ cN .dcg (Raz.new : Raz E M).rForest ++ LOp.cells ops).Nodup := count_nodup fun x => by
      have h1 := hnum x
      have h2 := c6 x
      rw [List.count_append, hz]
      omega
    have start : LInvs (Raz.new : Raz E M) (Raz.new : Raz E M) [] 0 := ⟨ZInv.empty, ZC.empty, rfl, rfl, fun x => Nat.le_refl _, Nat.le_refl _⟩
    obtain ⟨hz', σ1, k1, k2, k3, k4, -⟩ := sim_runs (lops_sim (σ := Store.empty) ops start hl RepZ.empty hnd) c1
    obtain ⟨ht, σ2, k5, k6, k7, k8, k9, k10, -⟩ := sim_runs (close_sim k3 k4 k2 hnd) c2
    obtain ⟨v, a1, a2, a3⟩ := view_exists k6.tree
    have hsub : Sub (tN .dcg t.tree) (numN .dcg 0 s.names) := fun x => by
      have h1 := k10 x
      have h2 := c6 x
      rw [List.count_append, hz] at h1
      simp only [List.nil_append] at h1
      omega
    have hn' : (tN .dcg t.tree).Nodup := count_nodup fun x => by
      have h1 := hsub x
      have h2 := hnum x
      omega
    have hnv : (nodeNames v).Nodup := by rw [a3]; exact names_nodup hn'
    obtain ⟨a, w, sp, d1, d2, d3, d4, -⟩ := hR.step hnew trivial a1 a2 k9 hnv e5
    have hh : Held Hist σ2 ht s t sp v [] := by
      refine ⟨e4, ⟨k6, k7, k8, k9, a1, a2, d3, by rw [List.append_nil]; exact hn', fun w hw => by cases hw⟩, fun x hx => ?_, fun w hw => by cases hw⟩
      obtain ⟨j, -, h1, h2⟩ := numN_mem (hsub.subset hx)
      exact ⟨j, by omega, h2⟩
    obtain ⟨outs, σ3, g1, g2⟩ := held_all hR hc h0 p p.changes hh c9 c8 e3
    have hrun : Runs (sessionH C word p coord rng edit (keeping run) new) Store.empty ((a, w, sp) :: outs, r0) σ3 := by
      unfold sessionH Heap.test
      refine Runs.bind (a := (toH s ht, r1)) (σ' := σ2) ?_ ((comp_keeping d1).bind (g1.bind .pure))
      rw [c10]
      exact k1.bind (k5.bind .pure)
    obtain ⟨f0, hrun⟩ := hrun
    refine ⟨(a, w, sp) :: outs, ⟨f0, fun f hf => by rw [hrun f hf]; rfl⟩, d2, ?_, g2⟩
    rw [← a2, plain_size]
    exact d4

omit [DecidableEq E] in
theorem edit_calls (C : Coord G E) (word : R → BitVec 64 × R) (o : Edit) : Calls (editH C word o) (fun s rng => o.run C word s rng) o.size := by
  cases o with
  | insert b => exact insert_calls C word b
  | append b => exact append_calls C word b

omit [DecidableEq E] in
theorem editN_calls (C : Coord G E) (word : R → BitVec 64 × R) (order : R → List Name → List Name) (o : Edit) :
    Calls (editHN C word order o) (fun s rng => o.runN C word (order rng) s rng) o.size := by
  cases o with
  | insert b => exact insertAtName_calls C word order b
  | append b => exact appendLast_calls C word b

/-! ### The theorems -/

/-- **C81, folds** (`FindMax`, `TreeFold` in sessions of the driver, eval/examples/crossover.rs). The harness makes a sequence of at least one element,
folds it with stored calls, and then in turn edits it with batches of at least one element and folds it. The answers are those from scratch.
The first fold runs the function at most once per node. After each edit it runs at most
`(2 * (depth + batch / (namegauge * datagauge) + 1) + 1) * gap` times: with the depth of the tree before the edit, and the size of the
largest part without names of the tree after it. For all parameters, generators and random streams for which the session does not panic;
with positions, -/
theorem C81_fold [DecidableEq B] {f : Fns (TreeData E Count) B} {q : Name} {C : Coord G E} {word : R → BitVec 64 × R} {p : Params} (hs : 0 < p.size)
    {o : Edit} (ho : 0 < o.size) {coord : G} {rng rng' : R} {as : List (RazTree E Count × Option B)}
    (h : sessionV C word p coord rng (fun s r => o.run C word s r) (withTree fun t => t.tree.foldUpMeta f.up) = .ok (as, rng')) :
    ∃ outs, Ends (sessionH C word p coord rng (editH C word o) (keeping (refold f q)) Table.empty) (.ok (outs, rng')) ∧
      worksWithin p o.size (fun b a _ => a = b) as outs :=
  session_works (fold_reuses f q) ⟨.start, fun _ => rfl⟩ (edit_calls C word o) ho hs h

/-- and with names as places of the edits. -/
theorem C81_fold_names [DecidableEq B] {f : Fns (TreeData E Names) B} {q : Name} {C : Coord G E} {word : R → BitVec 64 × R} {p : Params} (hs : 0 < p.size)
    {o : Edit} (ho : 0 < o.size) {order : R → List Name → List Name} {coord : G} {rng rng' : R} {as : List (RazTree E Names × Option B)}
    (h : sessionV C word p coord rng (fun s r => o.runN C word (order r) s r) (withTree fun t => t.tree.foldUpMeta f.up) = .ok (as, rng')) :
    ∃ outs, Ends (sessionH C word p coord rng (editHN C word order o) (keeping (refold f q)) Table.empty) (.ok (outs, rng')) ∧
      worksWithin p o.size (fun b a _ => a = b) as outs :=
  session_works (fold_reuses f q) ⟨.start, fun _ => rfl⟩ (editN_calls C word order o) ho hs h

section
variable [RazMeta F N] [DecidableEq F] [DecidableEq N]

/-- **C81, maps** (`Mapper`, eval/examples/to_string.rs): behind the handles are the sequences mapped from scratch. -/
theorem C81_map {f : E → F} {C : Coord G E} {word : R → BitVec 64 × R} {p : Params} (hs : 0 < p.size) {o : Edit} (ho : 0 < o.size) {coord : G} {rng rng' : R}
    {as : List (RazTree E Count × RazTree F N)}
    (h : sessionV C word p coord rng (fun s r => o.run C word s r) (withTree fun t => t.map f) = .ok (as, rng')) :
    ∃ outs, Ends (sessionH C word p coord rng (editH C word o) (keeping (countedMap f)) Space.empty) (.ok (outs, rng')) ∧
      worksWithin p o.size (fun b a (s : RSpace E Count F N) => Holds s.mem a b) as outs :=
  session_works (map_reuses f) .start (edit_calls C word o) ho hs h

theorem C81_map_names {f : E → F} {C : Coord G E} {word : R → BitVec 64 × R} {p : Params} (hs : 0 < p.size) {o : Edit} (ho : 0 < o.size)
    {order : R → List Name → List Name} {coord : G} {rng rng' : R} {as : List (RazTree E Names × RazTree F N)}
    (h : sessionV C word p coord rng (fun s r => o.runN C word (order r) s r) (withTree fun t => t.map f) = .ok (as, rng')) :
    ∃ outs, Ends (sessionH C word p coord rng (editHN C word order o) (keeping (countedMap f)) Space.empty) (.ok (outs, rng')) ∧
      worksWithin p o.size (fun b a (s : RSpace E Names F N) => Holds s.mem a b) as outs :=
  session_works (map_reuses f) .start (editN_calls C word order o) ho hs h

end

section
variable [RazMeta E N] [DecidableEq N]

/-- **C81, reverse and filter** (eval/examples/reverse.rs, filter.rs). -/
theorem C81_rebuild {c : Rebuild E} {C : Coord G E} {word : R → BitVec 64 × R} {p : Params} (hs : 0 < p.size) {o : Edit} (ho : 0 < o.size) {coord : G}
    {rng rng' : R} {as : List (RazTree E Count × Option (RazTree E N))}
    (h : sessionV C word p coord rng (fun s r => o.run C word s r) (withTree c.scratch) = .ok (as, rng')) :
    ∃ outs, Ends (sessionH C word p coord rng (editH C word o) (keeping (countedRebuild c)) Space.empty) (.ok (outs, rng')) ∧
      worksWithin p o.size (fun b a (s : GSpace E Count N) => ∃ x y, a = some x ∧ b = some y ∧ Holds s.mem x y) as outs :=
  session_works (rebuild_reuses c) .start (edit_calls C word o) ho hs h

theorem C81_rebuild_names {c : Rebuild E} {C : Coord G E} {word : R → BitVec 64 × R} {p : Params} (hs : 0 < p.size) {o : Edit} (ho : 0 < o.size)
    {order : R → List Name → List Name} {coord : G} {rng rng' : R} {as : List (RazTree E Names × Option (RazTree E N))}
    (h : sessionV C word p coord rng (fun s r => o.runN C word (order r) s r) (withTree c.scratch) = .ok (as, rng')) :
    ∃ outs, Ends (sessionH C word p coord rng (editHN C word order o) (keeping (countedRebuild c)) Space.empty) (.ok (outs, rng')) ∧
      worksWithin p o.size (fun b a (s : GSpace E Names N) => ∃ x y, a = some x ∧ b = some y ∧ Holds s.mem x y) as outs :=
  session_works (rebuild_reuses c) .start (editN_calls C word order o) ho hs h

end

theorem named_loop [LawfulMeta E M] {edit : HEval M G → R → HR E M (HEval M G × R)} {edit' : EvalRaz E M G → R → P (EvalRaz E M G × R)} {batch : Nat}
    (hc : Calls edit edit' batch) (h0 : 0 < batch) {val : RazTree E M → P B} : ∀ (n : Nat) {s : EvalRaz E M G} {t : RazTree E M} {rng rng' : R}
      {as : List (Unit × (RazTree E M × B))}, s.raztree = some t → TreeTitled t → s.namegauge = 1 →
      Eval.testLoop edit' (plainly (T := Unit) (fun s => unwrap s.raztree >>= withTree val)) n s () rng = .ok (as, rng') → ∀ a ∈ as, a.2.1.tree.gap ≤ 1 := by
  intro n
  induction n with
  | zero => intro s t rng rng' as _ _ _ h; cases h; simp
  | succ n ih =>
    intro s t rng rng' as ht hT hng h
    unfold Eval.testLoop at h
    obtain ⟨⟨s1, r1⟩, e1, h⟩ := bind_ok.1 h
    obtain ⟨⟨u, t1, b⟩, e2, h⟩ := bind_ok.1 h
    obtain ⟨⟨as1, r2⟩, e3, hfin⟩ := bind_ok.1 h
    cases hfin
    obtain ⟨e4, e5⟩ := plain_answer e2
    obtain ⟨i, ops, t2, k, c1, c2, c3, c4, c5, c6, c7, c8, c9, c10, c11⟩ := hc s t rng s1 r1 ht e1
    rw [e4] at c2
    cases c2
    have hT1 := titled_edit hT (c8 hng) (edit_lifts (fun z _ => adds_local c3 (.inr (by omega))) c1) c1
    intro a ha
    rcases List.mem_cons.1 ha with rfl | ha
    · exact hT1.gap
    · exact ih e4 hT1 (by rw [c10, hng]) e3 a ha

theorem named_session [LawfulMeta E M] {edit : HEval M G → R → HR E M (HEval M G × R)} {edit' : EvalRaz E M G → R → P (EvalRaz E M G × R)} {batch : Nat}
    (hc : Calls edit edit' batch) (h0 : 0 < batch) {val : RazTree E M → P B} {C : Coord G E} {word : R → BitVec 64 × R} {p : Params} (hs : 0 < p.size)
    (hg : p.namegauge = 1) {coord : G} {rng rng' : R} {as : List (RazTree E M × B)}
    (h : sessionV C word p coord rng edit' (withTree val) = .ok (as, rng')) : ∀ a ∈ as, a.1.tree.gap ≤ 1 := by
  unfold sessionV at h
  cases hx : Eval.test (createRaz C word p coord) edit' (plainly (T := Unit) (fun s => unwrap s.raztree >>= withTree val)) p.changes () rng with
  | error q => rw [hx] at h; cases h
  | ok x =>
    obtain ⟨as0, r0⟩ := x
    rw [hx] at h
    cases h
    unfold Eval.test at hx
    obtain ⟨⟨s, r1⟩, e1, hx⟩ := bind_ok.1 hx
    obtain ⟨⟨u, t, b⟩, e2, hx⟩ := bind_ok.1 hx
    obtain ⟨⟨as1, r2⟩, e3, hfin⟩ := bind_ok.1 hx
    cases hfin
    obtain ⟨e4, e5⟩ := plain_answer e2
    obtain ⟨ops, z, t', c1, c2, c3, c4, c5, c6, c7, c8, c9, c10⟩ := incInit_calls e1
    simp only at e4 e5
    rw [e4] at c3
    cases c3
    have h1 : AllTitled (Raz.new : Raz E M) := ⟨ZInv.empty, fun i hi => (by cases hi), fun i hi => (by cases hi)⟩
    have h2 := titled_unfocus (titled_lops h1 (c7 hg) (local_lifts (adds_local c4 (.inr (by omega))) c1) c1) c2
    intro a ha
    obtain ⟨x, hx, rfl⟩ := List.mem_map.1 ha
    rcases List.mem_cons.1 hx with rfl | hx
    · exact h2.gap
    · exact named_loop hc h0 p.changes e4 h2 (by rw [c9, hg]) e3 x hx

/-- **C81, names everywhere.** With `namegauge` 1 every gap in such a session is at most 1: the work after an edit is at most
`2 * (depth + batch / datagauge + 1) + 1`. -/
theorem C81_named {val : RazTree E Count → P B} {valN : RazTree E Names → P B} {C : Coord G E} {word : R → BitVec 64 × R} {p : Params} (hs : 0 < p.size)
    (hg : p.namegauge = 1) {o : Edit} (ho : 0 < o.size) {order : R → List Name → List Name} {coord : G} {rng rng' : R} :
    (∀ {as}, sessionV C word p coord rng (fun s r => o.run C word s r) (withTree val) = .ok (as, rng') → ∀ a ∈ as, a.1.tree.gap ≤ 1) ∧
    (∀ {as}, sessionV C word p coord rng (fun s r => o.runN C word (order r) s r) (withTree valN) = .ok (as, rng') → ∀ a ∈ as, a.1.tree.gap ≤ 1) :=
  ⟨named_session (edit_calls C word o) ho hs hg, named_session (editN_calls C word order o) ho hs hg⟩

/-- **C81, no panics.** Within the number types, and for computations that have a result for every sequence made by edits, the session on values
does not panic, and its sequences are those that the edits make on a plain list: so the bounds above hold without further conditions. -/
theorem C81_total {val : RazTree E Count → P B} (hv : ∀ t, t.Reachable .edit → ∃ b, val t = .ok b) (C : Coord G E) (word : R → BitVec 64 × R) (p : Params)
    (coord : G) (rng : R) (hp : InRange p) {o : Edit} (ho : Possible p o) :
    ∃ as rng', sessionV C word p coord rng (fun s r => o.run C word s r) (withTree val) = .ok (as, rng') ∧
      Matches C p coord o (fun xs a => a.1.elems = xs ∧ val a.1 = .ok a.2) as :=
  sessionV_total C word p coord rng hp ho (fun t hr => by
    obtain ⟨b, hb⟩ := hv t hr
    exact ⟨(t, b), bind_ok.2 ⟨b, hb, rfl⟩, rfl, hb⟩)

/-! ### Sessions that meet the conditions -/

/-- 40 elements, an archive point with a name after every second one, and four insertions of two elements. -/
def exLong : Params := ⟨40, 2, 1, 2, 4⟩

/-- Depth, size and gap of the trees of this session, and the sums of the elements. -/
theorem exLong_session : (sessionV exCoord exWord exLong 0 0 (fun s r => (Edit.insert 2).run exCoord exWord s r)
      (withTree fun t => t.tree.foldUpMeta sumF.fns.up)).map (fun x => x.1.map fun a => (a.1.tree.depth, a.1.tree.size, a.1.tree.gap, a.2)) =
    .ok [(6, 39, 1, some 780), (6, 41, 1, some 863), (7, 43, 1, some 952), (7, 43, 1, some 1047), (7, 45, 1, some 1148)] := by
  decide +kernel

/-- The bounds for this session: at most 39, 17, 17, 19 and 19 steps. -/
example : ∃ outs rng', Ends (sessionH exCoord exWord exLong 0 0 (editH exCoord exWord (.insert 2)) (keeping (refold sumF.fns (.str "sum"))) Table.empty)
      (.ok (outs, rng')) ∧ outs.map (·.1) = [some 780, some 863, some 952, some 1047, some 1148] ∧
    List.Forall₂ (fun (o : Option Nat × Nat × RTable Nat Count Nat) b => o.2.1 ≤ b) outs [39, 17, 17, 19, 19] := by
  have h := exLong_session
  cases hx : sessionV exCoord exWord exLong 0 0 (fun s r => (Edit.insert 2).run exCoord exWord s r) (withTree fun t => t.tree.foldUpMeta sumF.fns.up) with
  | error q => rw [hx] at h; cases h
  | ok x =>
    obtain ⟨as, rng'⟩ := x
    rw [hx] at h
    obtain ⟨outs, h1, h2⟩ := C81_fold (f := sumF.fns) (q := .str "sum") (by decide) (by decide) hx
    refine ⟨outs, rng', h1, ?_⟩
    have h := Except.ok.inj h
    simp only at h
    obtain ⟨⟨t0, b0⟩, ⟨t1, b1⟩, ⟨t2, b2⟩, ⟨t3, b3⟩, ⟨t4, b4⟩, rfl⟩ : ∃ a b c d e, as = [a, b, c, d, e] := by
      rcases as with _ | ⟨a, _ | ⟨b, _ | ⟨c, _ | ⟨d, _ | ⟨e, _ | ⟨f, as⟩⟩⟩⟩⟩⟩ <;> simp at h
      exact ⟨a, b, c, d, e, rfl⟩
    simp only [List.map_cons, List.map_nil, List.cons.injEq, Prod.mk.injEq, and_true] at h
    rcases outs with _ | ⟨o0, _ | ⟨o1, _ | ⟨o2, _ | ⟨o3, _ | ⟨o4, _ | ⟨o5, outs⟩⟩⟩⟩⟩⟩ <;> simp only [worksWithin, worksAfter, and_false] at h2
    simp only [exLong, Edit.size, and_true] at h2
    obtain ⟨⟨d0, s0, g0, r0⟩, ⟨d1, s1, g1, r1⟩, ⟨d2, s2, g2, r2⟩, ⟨d3, s3, g3, r3⟩, ⟨d4, s4, g4, r4⟩⟩ := h
    rw [d0, d1, d2, d3, g1, g2, g3, g4, s0, r0, r1, r2, r3, r4] at h2
    obtain ⟨k0, w0, k1, w1, k2, w2, k3, w3, k4, w4⟩ := h2
    exact ⟨by simp [k0, k1, k2, k3, k4], .cons w0 (.cons w1 (.cons w2 (.cons w3 (.cons w4 .nil))))⟩

/-- What the model gives when it is run. -/
example : ((sessionH exCoord exWord exLong 0 0 (editH exCoord exWord (.insert 2)) (keeping (refold sumF.fns (.str "sum"))) Table.empty) 200 Store.empty).map
    (fun x => x.1.1.map fun o => o.2.1) = .ok [39, 4, 9, 8, 9] := by
  decide +kernel

/-- The conditions of the theorems for maps and for reversing, with names as places. -/
example : ((sessionV exCoord exWord exParams 0 0 (fun s r => (Edit.insert 2).runN exCoord exWord (fun l => l.reverse) s r)
      (withTree fun t => (t.map (· * 2) : P (RazTree Nat Count)))).map (fun x => x.1.map fun a => a.2.elems) =
    .ok [[0, 2, 4, 6, 8], [0, 2, 4, 6, 12, 14, 8], [0, 2, 18, 20, 4, 6, 12, 14, 8], [0, 2, 18, 20, 4, 6, 12, 14, 24, 26, 8]]) ∧
    ((sessionV exCoord exWord exParams 0 0 (fun s r => (Edit.append 2).runN exCoord exWord (fun l => l.reverse) s r)
      (withTree (Rebuild.scratch (N := Count) .reverse))).map (fun x => x.1.map fun a => a.2.map RazTree.elems)).isOk = true := by
  constructor <;> decide +kernel

/-- No panic for maps and for reversing. -/
example : (∃ as rng', sessionV exCoord exWord exParams 0 0 (fun s r => (Edit.insert 2).run exCoord exWord s r)
      (withTree fun t => (t.map (· * 2) : P (RazTree Nat Count))) = .ok (as, rng') ∧
      Matches exCoord exParams 0 (.insert 2) (fun xs a => a.1.elems = xs ∧ a.1.map (· * 2) = .ok a.2) as) ∧
    ∃ as rng', sessionV exCoord exWord exParams 0 0 (fun s r => (Edit.insert 2).run exCoord exWord s r)
      (withTree (Rebuild.scratch (N := Count) .reverse)) = .ok (as, rng') ∧
      Matches exCoord exParams 0 (.insert 2) (fun xs a => a.1.elems = xs ∧ Rebuild.reverse.scratch a.1 = .ok a.2) as :=
  ⟨C81_total (fun t hr => by
      obtain ⟨t', h1, -⟩ := C15_map (N := Count) hr (· * 2)
      exact ⟨t', h1⟩) exCoord exWord exParams 0 0 exParams_inRange (.inl ⟨rfl, .inl (by decide)⟩),
    C81_total (fun t hr => rebuild_ok _ hr.any) exCoord exWord exParams 0 0 exParams_inRange (.inl ⟨rfl, .inl (by decide)⟩)⟩

end Iodyn.Incr
