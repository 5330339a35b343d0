import Verif.Proof.HarnessPlan
import Verif.Props.HarnessCost
import Verif.Props.MeanWork
/-
C87 the mean work of memoised computations in sessions of the test driver, over all random levels.
-/
namespace Iodyn.Incr
open Iodyn.Heap Iodyn.Eval
variable {E F N A B Sp G : Type}

/-- The levels that the harness generates from the numbers `w`. -/
theorem levels_reads {n : Nat} (w : Fin n → Fin (2 ^ 64)) : ∀ (k r : Nat), r + k ≤ n → genLevels (reads w) k r = ((List.range' r k).map (drawn w), r + k)
  | 0, r, _ => rfl
  | k + 1, r, h => by
    have hr : r < n := by omega
    simp only [genLevels, reads, levels_reads w k (r + 1) (by omega), List.range'_succ, List.map_cons, drawn, dif_pos hr]
    rw [show r + 1 + k = r + (k + 1) by omega]

/-! ### The edits of a session -/

/-- What the edits of a session depend on: the state of the coordinating generator, the counters, how many random numbers have been used, and the sequence with the
numbers of its random numbers in place of levels. -/
structure Sketch (E G : Type) where
  coord : G
  counter : Nat
  names : Nat
  used : Nat
  items : List (Item E)

namespace Sketch

/-- The place of the next edit. -/
def index (C : Coord G E) (q : Sketch E G) : Edit → Nat
  | .insert _ => (C.pos q.coord).1 % (elemsOf q.items).length
  | .append _ => (elemsOf q.items).length

/-- The generator after the place has been drawn. -/
def gen (C : Coord G E) (q : Sketch E G) : Edit → G
  | .insert _ => (C.pos q.coord).2
  | .append _ => q.coord

/-- The calls of the next edit. -/
def ops (C : Coord G E) (dg : Nat) (o : Edit) (q : Sketch E G) : List (LOp E) :=
  planLoop dg (genData C o.size (q.gen C o)).1 q.counter (List.range' q.used (o.size / dg + 1)) (titles q.names (o.size / dg + 1))

/-- After the next edit. -/
def next (C : Coord G E) (dg : Nat) (o : Edit) (q : Sketch E G) : Sketch E G :=
  ⟨(genData C o.size (q.gen C o)).2, q.counter + o.size, q.names + (o.size / dg + 1), q.used + (o.size / dg + 1), editList (q.index C o) (q.ops C dg o) q.items⟩

/-- The next edits. -/
def plans (C : Coord G E) (dg : Nat) (o : Edit) : Nat → Sketch E G → List (List (Nat × List (LOp E)))
  | 0, _ => []
  | m + 1, q => [(q.index C o, q.ops C dg o)] :: plans C dg o m (q.next C dg o)

variable {C : Coord G E} {dg : Nat} {o : Edit}

theorem cells_sub (q : Sketch E G) : Sub (LOp.cells (q.ops C dg o)) (numN .dcg q.names (o.size / dg + 1)) := by
  have := plan_cells dg (genData C o.size (q.gen C o)).1 q.counter (List.range' q.used (o.size / dg + 1)) (titles q.names (o.size / dg + 1))
  rwa [titles_vec] at this

theorem numN_add (a k k' : Nat) : numN .dcg a (k + k') = numN .dcg a k ++ numN .dcg (a + k) k' := by
  unfold numN
  rw [← List.range'_append_1, List.flatMap_append]

theorem plans_cells : ∀ (m : Nat) (q : Sketch E G), Sub (batchCells (plans C dg o m q)) (numN .dcg q.names (m * (o.size / dg + 1)))
  | 0, q => fun x => Nat.zero_le _
  | m + 1, q => fun x => by
    have h1 := cells_sub (C := C) (dg := dg) (o := o) q x
    have h2 := plans_cells m (q.next C dg o) x
    rw [show (m + 1) * (o.size / dg + 1) = (o.size / dg + 1) + m * (o.size / dg + 1) by rw [Nat.succ_mul, Nat.add_comm], numN_add]
    simp only [plans, batchCells, List.flatMap_cons, List.flatMap_nil, List.append_nil, List.count_append, next] at *
    omega

theorem slots_sub (q : Sketch E G) : (LOp.slots (q.ops C dg o)).Sublist (List.range' q.used (o.size / dg + 1)) := plan_slots ..

theorem plans_slots : ∀ (m : Nat) (q : Sketch E G), (batchSlots (plans C dg o m q)).Sublist (List.range' q.used (m * (o.size / dg + 1)))
  | 0, q => List.nil_sublist _
  | m + 1, q => by
    have h := (slots_sub (C := C) (dg := dg) (o := o) q).append (plans_slots m (q.next C dg o))
    rw [show (m + 1) * (o.size / dg + 1) = (o.size / dg + 1) + m * (o.size / dg + 1) by rw [Nat.succ_mul, Nat.add_comm], ← List.range'_append_1]
    simpa [plans, batchSlots, next] using h

theorem ops_titles (q : Sketch E G) : ∀ op ∈ q.ops C dg o, op.Titles := plan_titles _ _ _ _ fun _ h => titles_some h

theorem plans_titles : ∀ (m : Nat) (q : Sketch E G), ∀ es ∈ plans C dg o m q, ∀ e ∈ es, ∀ op ∈ e.2, op.Titles
  | 0, q => fun _ h => by cases h
  | m + 1, q => by
    intro es hes e he
    rcases List.mem_cons.1 hes with rfl | hes
    · obtain rfl := List.mem_singleton.1 he
      exact ops_titles q
    · exact plans_titles m _ es hes e he

theorem ops_points (q : Sketch E G) : LOp.points (q.ops C dg o) ≤ o.size / dg + 1 := by
  have := plan_points dg (genData C o.size (q.gen C o)).1 q.counter (List.range' q.used (o.size / dg + 1)) (titles q.names (o.size / dg + 1))
  rwa [titles_length] at this

theorem index_le (q : Sketch E G) (h : elemsOf q.items ≠ []) : q.index C o ≤ (elemsOf q.items).length := by
  cases o with
  | insert b => exact Nat.le_of_lt (Nat.mod_lt _ (List.length_pos_of_ne_nil h))
  | append b => exact Nat.le_refl _

theorem edit_elems {i : Nat} {items : List (Item E)} (hi : i ≤ (elemsOf items).length) (xs : List E) (c : Nat) (ls : List Nat) (ns : List (Option Name)) :
    (elemsOf (editList i (planLoop dg xs c ls ns) items)).length = (elemsOf items).length + xs.length := by
  obtain ⟨h1, h2⟩ := plan_elems dg xs c ls ns (cutAt i items)
  have h3 := congrArg (fun l => (elemsOf l).length) (cutAt_append items i hi)
  simp only [elemsOf, List.filterMap_append, List.length_append, List.filterMap_reverse, List.length_reverse] at h3
  unfold editList closed
  rw [elemsOf_settle, glue_elems, h1, h2]
  simp only [List.length_append, List.length_reverse, elemsOf] at *
  omega

theorem next_elems (q : Sketch E G) (h : elemsOf q.items ≠ []) : (elemsOf (q.next C dg o).items).length = (elemsOf q.items).length + o.size := by
  have := edit_elems (dg := dg) (index_le (C := C) (o := o) q h) (genData C o.size (q.gen C o)).1 q.counter (List.range' q.used (o.size / dg + 1))
    (titles q.names (o.size / dg + 1))
  rw [genData_length] at this
  exact this

theorem next_full (q : Sketch E G) (h : elemsOf q.items ≠ []) : elemsOf (q.next C dg o).items ≠ [] := by
  intro hn
  have := next_elems (C := C) (dg := dg) (o := o) q h
  rw [hn] at this
  have := List.length_pos_of_ne_nil h
  simp at *
  omega

theorem ops_local (h0 : 0 < o.size) (q : Sketch E G) (s : List (Item E) × List (Item E)) : localSides s (q.ops C dg o) = true := by
  refine plan_local _ _ _ _ _ s (.inr fun h => ?_)
  have := congrArg List.length h
  rw [genData_length] at this
  simp at this
  omega

theorem plans_local (h0 : 0 < o.size) : ∀ (m : Nat) (q : Sketch E G), elemsOf q.items ≠ [] → (elemsOf q.items).length + m * o.size < usizeMax →
    localLists q.items (plans C dg o m q) = true
  | 0, q, _, _ => rfl
  | m + 1, q, hne, hm => by
    have hi := index_le (C := C) (o := o) q hne
    have hlen := next_elems (C := C) (dg := dg) (o := o) q hne
    rw [Nat.succ_mul] at hm
    have ih := plans_local h0 m (q.next C dg o) (next_full q hne) (by rw [hlen]; omega)
    simp only [plans, localLists, localList, editLists, Bool.and_true, Bool.and_eq_true, decide_eq_true_eq]
    exact ⟨⟨⟨hi, by omega⟩, ops_local h0 q _⟩, ih⟩

theorem length_of_count {a b : List Nat} (h : ∀ x, a.count x ≤ b.count x) : a.length ≤ b.length :=
  (List.subperm_ext_iff.2 fun x _ => h x).length_le

theorem next_marks (q : Sketch E G) (h : elemsOf q.items ≠ []) : (marksOf (q.next C dg o).items).length ≤ (marksOf q.items).length + (o.size / dg + 1) := by
  have h1 := length_of_count (a := levelsOf (q.next C dg o).items) (b := levelsOf q.items ++ LOp.slots (q.ops C dg o)) fun x => by
    rw [List.count_append]
    exact edit_levels (index_le q h) _ x
  have h2 := (slots_sub (C := C) (dg := dg) (o := o) q).length_le
  simp only [levelsOf, List.length_map, List.length_append, List.length_range'] at h1 h2
  omega

theorem plans_bounds : ∀ (m : Nat) (q : Sketch E G) {a : Nat}, elemsOf q.items ≠ [] → (marksOf q.items).length ≤ a → ∀ j : Nat,
    ((logBounds q.items (plans C dg o m q))[j]?.elim 0 fun k => 2 * k + 1) ≤
      2 * (2 * (Nat.clog 2 (a + j * (o.size / dg + 1)) + 1) + (o.size / dg + 1)) + 1
  | 0, q, a, _, _, j => by simp [plans, logBounds]
  | m + 1, q, a, hne, ha, 0 => by
    have h1 := ops_points (C := C) (dg := dg) (o := o) q
    have h2 := Nat.clog_mono_right 2 ha
    simp only [plans, logBounds, logBound, List.getElem?_cons_zero, Option.elim_some, Nat.zero_mul, Nat.add_zero]
    omega
  | m + 1, q, a, hne, ha, j + 1 => by
    have h1 := next_marks (C := C) (dg := dg) (o := o) q hne
    have ih := plans_bounds m (q.next C dg o) (a := a + (o.size / dg + 1)) (next_full q hne) (by omega) j
    simp only [plans, logBounds, List.getElem?_cons_succ, editLists]
    rw [show a + (j + 1) * (o.size / dg + 1) = a + (o.size / dg + 1) + j * (o.size / dg + 1) by rw [Nat.succ_mul]; omega]
    exact ih

end Sketch

/-! ### The harness makes these edits -/

/-- The harness is at this point of a session. -/
structure Along (f : Nat → Nat) (dg : Nat) (s : EvalRaz E Count G) (t : RazTree E Count) (q : Sketch E G) : Prop where
  tree : s.raztree = some t
  stands : Stands f t q.items
  coord : s.coord = q.coord
  counter : s.counter = q.counter
  names : s.names = q.names
  datagauge : s.datagauge = dg
  namegauge : s.namegauge = 1

theorem stands_count {f : Nat → Nat} {t : RazTree E Count} {items : List (Item E)} (h : Stands f t items) : t.info.n = (elemsOf items).length := by
  rw [h.inv.info, ← at_elems f, ← h.eq]
  exact metaOf_count h.inv.wf 0 none

theorem focus_plan {C : Coord G E} {n : Nat} {w : Fin n → Fin (2 ^ 64)} {s s' : EvalRaz E Count G} (h0 : s.raztree = none) (hg : s.namegauge = 1)
    {t : RazTree E Count} {i batch r rng' : Nat} {k : Option (HRaz E) → HR E Count (HEval Count G × Nat)} {kx : Option (Raz E Count) → P (EvalRaz E Count G × Nat)}
    (k1 : ∀ z, k (some z) = HEval.editAt .dcg C (reads w) (toH0 s) z batch r) (x0 : kx none = .error .explicit)
    (x1 : ∀ z, kx (some z) = EvalRaz.editAt C (reads w) s z batch r) (hr : r + (batch / s.datagauge + 1) ≤ n) (h : (t.focus i >>= kx) = .ok (s', rng'))
    {ops : List (LOp E)} (ho : ops = (planLoop s.datagauge (genData C batch s.coord).1 s.counter (List.range' r (batch / s.datagauge + 1))
      (titles s.names (batch / s.datagauge + 1))).map (LOp.at (drawn w))) :
    ∃ t', t.edit i ops = .ok t' ∧ s'.raztree = some t' ∧ s'.coord = (genData C batch s.coord).2 ∧ s'.counter = s.counter + batch ∧
      s'.names = s.names + (batch / s.datagauge + 1) ∧ s'.datagauge = s.datagauge ∧ s'.namegauge = 1 ∧ rng' = r + (batch / s.datagauge + 1) ∧
      ∀ ht : HTree Count, ∀ f σ ht' σ', ht.edit .dcg i ops f σ = .ok (ht', σ') → (ht.focus i >>= k) f σ = .ok ((toH s' ht', rng'), σ') := by
  obtain ⟨o, e1, h⟩ := bind_ok.1 h
  cases o with
  | none => rw [x0] at h; cases h
  | some z =>
    rw [x1] at h
    have hlev := levels_reads w (batch / s.datagauge + 1) r hr
    rw [plan_at] at ho
    obtain ⟨z', t', c1, c2, c3, c4, c5, c6, c7, c8, c9, c10⟩ := editAt_plan h0 hg h (ops := ops) (by rw [hlev]; exact ho)
    rw [hlev] at c9
    refine ⟨t', bind_ok.2 ⟨_, e1, bind_ok.2 ⟨z, rfl, bind_ok.2 ⟨z', c1, c2⟩⟩⟩, c3, c4, c5, c6, c7, c8, c9, ?_⟩
    intro ht f σ ht' σ' he
    unfold HTree.edit at he
    simp only [Bind.bind] at he ⊢
    cases hf : (ht.focus i : HR E Count _) f σ with
    | error q => rw [hf] at he; cases he
    | ok p =>
      obtain ⟨o, σ1⟩ := p
      rw [hf] at he
      cases o with
      | none => cases he
      | some hz =>
        simp only [unwrap, liftP] at he
        simp only [k1, c10, Bind.bind]
        cases hl : (HRaz.lops .dcg hz ops : HR E Count _) f σ1 with
        | error q => rw [hl] at he; cases he
        | ok p =>
          obtain ⟨z2, σ2⟩ := p
          rw [hl] at he
          simp only at he ⊢
          rw [he]
          rfl

theorem edit_plan {C : Coord G E} {n : Nat} {w : Fin n → Fin (2 ^ 64)} {dg : Nat} {o : Edit} {s s' : EvalRaz E Count G} {t : RazTree E Count} {q : Sketch E G}
    (g : Along (drawn w) dg s t q) (hn : q.used + (o.size / dg + 1) ≤ n) {rng' : Nat} (h : o.run C (reads w) s q.used = .ok (s', rng')) :
    ∃ t', t.edit (q.index C o) ((q.ops C dg o).map (LOp.at (drawn w))) = .ok t' ∧ s'.raztree = some t' ∧ s'.coord = (q.next C dg o).coord ∧
      s'.counter = (q.next C dg o).counter ∧ s'.names = (q.next C dg o).names ∧ s'.datagauge = dg ∧ s'.namegauge = 1 ∧ rng' = (q.next C dg o).used ∧
      ∀ ht, ht.info = t.info → ∀ f σ ht' σ', ht.edit .dcg (q.index C o) ((q.ops C dg o).map (LOp.at (drawn w))) f σ = .ok (ht', σ') →
        editH C (reads w) o (toH s ht) q.used f σ = .ok ((toH s' ht', rng'), σ') := by
  obtain ⟨g1, g2, g3, g4, g5, g6, g7⟩ := g
  have hcount := stands_count g2
  subst g6
  cases o with
  | insert b =>
    simp only [Edit.run, EvalIRaz.insert, g1] at h
    obtain ⟨loc, e1, h⟩ := bind_ok.1 h
    have hloc : loc = q.index C (.insert b) := by
      unfold remU at e1
      split at e1 <;> cases e1
      simp only [Sketch.index, hcount, g3]
    obtain ⟨t', c1, c2, c3, c4, c5, c6, c7, c8, c9⟩ := focus_plan (w := w) (s := { s with coord := (C.pos s.coord).2, raztree := none }) rfl g7
      (k := fun o => match o with
        | none => liftP (.error .explicit)
        | some raz => HEval.editAt .dcg C (reads w) (toH0 { s with coord := (C.pos s.coord).2, raztree := none }) raz b q.used) (fun _ => rfl) rfl (fun _ => rfl) hn h
      (ops := (q.ops C s.datagauge (.insert b)).map (LOp.at (drawn w))) (by simp only [Sketch.ops, Sketch.gen, Edit.size, g3, g4, g5])
    rw [hloc] at c1 c9
    refine ⟨t', c1, c2, by rw [c3]; simp only [Sketch.next, Sketch.gen, Edit.size, g3], by rw [c4]; simp only [Sketch.next, Edit.size, g4],
      by rw [c5]; simp only [Sketch.next, Edit.size, g5], c6, c7, c8, ?_⟩
    intro ht hi f σ ht' σ' he
    have := c9 ht f σ ht' σ' he
    simp only [editH, HEval.insert, toH, hi] at this ⊢
    rw [e1, hlift_bind, hloc]
    exact this
  | append b =>
    simp only [Edit.run, EvalIRaz.append, g1] at h
    obtain ⟨t', c1, c2, c3, c4, c5, c6, c7, c8, c9⟩ := focus_plan (w := w) (s := { s with raztree := none }) rfl g7
      (k := fun o => match o with
        | none => liftP (.error .explicit)
        | some raz => HEval.editAt .dcg C (reads w) (toH0 { s with raztree := none }) raz b q.used) (fun _ => rfl) rfl (fun _ => rfl) hn h
      (ops := (q.ops C s.datagauge (.append b)).map (LOp.at (drawn w))) (by simp only [Sketch.ops, Sketch.gen, Edit.size, g3, g4, g5])
    rw [hcount] at c1 c9
    refine ⟨t', c1, c2, by rw [c3]; simp only [Sketch.next, Sketch.gen, Edit.size, g3], by rw [c4]; simp only [Sketch.next, Edit.size, g4],
      by rw [c5]; simp only [Sketch.next, Edit.size, g5], c6, c7, c8, ?_⟩
    intro ht hi f σ ht' σ' he
    have := c9 ht f σ ht' σ' he
    simp only [editH, HEval.append, toH, hi, hcount] at this ⊢
    exact this

/-! ### Sessions -/

theorem along_all [DecidableEq E] {run : HTree Count → Sp → HR E Count (A × Nat × Sp)} {val : RazTree E Count → P B} {Rel : B → A → Sp → Prop}
    {Hist : Sp → List (Tree (Tr × TreeData E Count)) → Prop} (hR : Reuses run val Rel Hist) {C : Coord G E} {n : Nat} {w : Fin n → Fin (2 ^ 64)} {dg : Nat}
    {o : Edit} : ∀ (m : Nat) {σ : RMem E Count} {ht : HTree Count} {s : EvalRaz E Count G} {t : RazTree E Count} {q : Sketch E G} {sp : Sp}
      {v : Tree (Tr × TreeData E Count)} {vs : List (Tree (Tr × TreeData E Count))} {rng' : Nat} {as : List (Unit × (RazTree E Count × B))},
      Between Hist σ ht t sp v vs (batchCells (q.plans C dg o m)) → Along (drawn w) dg s t q → TreeTitled t → localLists q.items (q.plans C dg o m) = true →
      q.used + m * (o.size / dg + 1) ≤ n →
      Eval.testLoop (fun s r => o.run C (reads w) s r) (plainly (T := Unit) (fun s => unwrap s.raztree >>= withTree val)) m s () q.used = .ok (as, rng') →
      ∃ outs σ', Runs (Heap.testLoop (editH C (reads w) o) (HEval.comp (keeping run)) m (toH s ht) sp q.used) σ (outs, rng') σ' ∧
        rng' = q.used + m * (o.size / dg + 1) ∧ List.Forall₂ (fun (a : Unit × (RazTree E Count × B)) (o : A × Nat × Sp) => Rel a.2.2 o.1 o.2.2) as outs ∧
        List.Forall₂ (fun (k : Nat) (o : A × Nat × Sp) => o.2.1 ≤ 2 * k + 1) (pathBatches (drawn w) q.items (q.plans C dg o m)) outs := by
  intro m
  induction m with
  | zero =>
    intro σ ht s t q sp v vs rng' as g ha htt hl hn h
    cases h
    exact ⟨[], σ, .pure, by simp, .nil, .nil⟩
  | succ m ih =>
    intro σ ht s t q sp v vs rng' as g ha htt hl hn h
    rw [show (m + 1) * (o.size / dg + 1) = (o.size / dg + 1) + m * (o.size / dg + 1) by rw [Nat.succ_mul, Nat.add_comm]] at hn ⊢
    simp only [Sketch.plans, localLists, Bool.and_eq_true] at hl
    unfold Eval.testLoop at h
    obtain ⟨⟨s1, r1⟩, e1, h⟩ := bind_ok.1 h
    obtain ⟨⟨u, t1, b⟩, e2, h⟩ := bind_ok.1 h
    obtain ⟨⟨as1, r2⟩, e3, hfin⟩ := bind_ok.1 h
    cases hfin
    obtain ⟨e4, e5⟩ := plain_answer e2
    have g' : Between Hist σ ht t sp v vs (restCells [(q.index C o, q.ops C dg o)] ++ batchCells ((q.next C dg o).plans C dg o m)) := g
    have hc := nodup_count g'.nodup
    simp only [List.count_append] at hc
    obtain ⟨t', k, ht', σ', b0, b1, b2, b3, b4⟩ := stands_moves (drawn_one w) [(q.index C o, q.ops C dg o)] g.rep ha.stands (count_nodup fun x => by
      have := hc x; simp only [List.count_append]; omega) hl.1 (fun e he => by
      obtain rfl := List.mem_singleton.1 he
      exact Sketch.ops_titles q) htt
    obtain ⟨t2, c1, c2, c3, c4, c5, c6, c7, c8, c9⟩ := edit_plan ha (by omega) e1
    have htt' : t2 = t' := by
      obtain ⟨t3, d1, hb0⟩ := bind_ok.1 b0
      obtain ⟨⟨t4, k4⟩, d2, hfin⟩ := bind_ok.1 hb0
      simp only at d1
      rw [c1] at d1
      cases d1
      cases d2
      cases hfin
      rfl
    subst htt'
    simp only at e4 e5
    rw [c2] at e4
    cases e4
    obtain ⟨a, wk, s', v', d1, d2, d3, d4⟩ := between_moved hR g' b2 e5
    have ha' : Along (drawn w) dg s1 _ (q.next C dg o) := ⟨c2, b3, c3, c4, c5, c6, c7⟩
    subst c8
    obtain ⟨outs, σ'', k1, k2, k3, k4⟩ := ih d4 ha' b4 hl.2 (by simp only [Sketch.next]; omega) e3
    refine ⟨(a, wk, s') :: outs, σ'', ?_, by rw [k2]; simp only [Sketch.next]; omega, .cons d2 k3, .cons ?_ k4⟩
    · unfold Heap.testLoop
      refine Runs.bind (a := (toH s1 ht', (q.next C dg o).used)) (σ' := σ') ?_ ((comp_keeping d1).bind (k1.bind .pure))
      obtain ⟨f0, b1⟩ := b1
      refine ⟨f0, fun f hf => c9 ht g.rep.info f σ ht' σ' ?_⟩
      have := b1 f hf
      simp only [editsAt, List.map_cons, List.map_nil, HTree.edits] at this
      rwa [show (ht.edit .dcg (q.index C o) ((q.ops C dg o).map (LOp.at (drawn w))) >>= fun t' => (Pure.pure t' : HR E Count _)) = _ from hbind_pure _] at this
    · exact Nat.le_trans d3 (Nat.le_trans (Nat.mul_le_mul_left _ b4.gap) (Nat.le_of_eq (Nat.mul_one _)))

/-- The calls that build the sequence. -/
def startOps (C : Coord G E) (p : Params) (coord : G) : List (LOp E) :=
  planLoop p.datagauge (genData C p.size coord).1 0 (List.range' 0 (p.size / p.datagauge)) (titles 0 (p.size / p.datagauge))

/-- After building. -/
def startSketch (C : Coord G E) (p : Params) (coord : G) : Sketch E G :=
  ⟨(genData C p.size coord).2, 0, p.size / p.datagauge, p.size / p.datagauge, closed (onSides ([], []) (startOps C p coord))⟩

theorem start_local (C : Coord G E) (p : Params) (hs : 0 < p.size) (coord : G) : localSides ([], []) (startOps C p coord) = true := by
  refine plan_local _ _ _ _ _ _ (.inr fun h => ?_)
  have := congrArg List.length h
  rw [genData_length] at this
  simp at this
  omega

theorem start_elems (C : Coord G E) (p : Params) (coord : G) : (elemsOf (startSketch C p coord).items).length = p.size := by
  obtain ⟨h1, h2⟩ := plan_elems p.datagauge (genData C p.size coord).1 0 (List.range' 0 (p.size / p.datagauge)) (titles 0 (p.size / p.datagauge)) ([], [])
  unfold startSketch closed startOps
  simp only
  rw [elemsOf_settle, glue_elems, h1, h2]
  simp [elemsOf, genData_length]

theorem start_levels (C : Coord G E) (p : Params) (coord : G) (x : Nat) :
    (levelsOf (startSketch C p coord).items).count x ≤ (List.range' 0 (p.size / p.datagauge)).count x := by
  have h1 := onSides_levels (startOps C p coord) ([], []) x
  have h2 := closed_levels (onSides ([], []) (startOps C p coord)) x
  have h3 := (plan_slots p.datagauge (genData C p.size coord).1 0 (List.range' 0 (p.size / p.datagauge)) (titles 0 (p.size / p.datagauge))).count_le x
  have h0 : (levelsOf ([] : List (Item E))).count x = 0 := rfl
  simp only [h0] at h1
  unfold startSketch
  simp only [startOps] at *
  omega

/-- The first answer `x` of a session is that of `run` for a tree with the nodes `v`, which has the annotated elements `items`, and nothing stored. -/
def FirstRun [DecidableEq E] (run : HTree Count → Sp → HR E Count (A × Nat × Sp)) (val : RazTree E Count → P B) (new : Sp) (items : List (Item E))
    (x : A × Nat × Sp) : Prop :=
  ∃ (t : RazTree E Count) (v : Tree (Tr × TreeData E Count)) (ht : HTree Count) (σ : RMem E Count) (b : B), Runs (run ht new) σ x σ ∧ View σ ht.tree v ∧
    plain v = t.tree ∧ t.tree ≠ .nil ∧ TInv t ∧ (nodeNames v).Nodup ∧ val t = .ok b ∧ t.items = items

theorem session_along [DecidableEq E] {run : HTree Count → Sp → HR E Count (A × Nat × Sp)} {val : RazTree E Count → P B} {Rel : B → A → Sp → Prop}
    {Hist : Sp → List (Tree (Tr × TreeData E Count)) → Prop} (hR : Reuses run val Rel Hist) {new : Sp} (hnew : Hist new []) {C : Coord G E} {n : Nat}
    {w : Fin n → Fin (2 ^ 64)} {p : Params} (hg : p.namegauge = 1) (hs : 0 < p.size) {o : Edit} (ho : o.size = p.batch) (h0 : 0 < p.batch) (hn : drawsOf p ≤ n)
    (hm : p.size + p.changes * p.batch < usizeMax) {coord : G} {rng' : Nat} {as : List (RazTree E Count × B)}
    (h : sessionV C (reads w) p coord 0 (fun s r => o.run C (reads w) s r) (withTree val) = .ok (as, rng')) :
    ∃ outs, Ends (sessionH C (reads w) p coord 0 (editH C (reads w) o) (keeping run) new) (.ok (outs, drawsOf p)) ∧
      List.Forall₂ (fun (a : RazTree E Count × B) (o : A × Nat × Sp) => Rel a.2 o.1 o.2.2) as outs ∧
      List.Forall₂ (fun (k : Nat) (o : A × Nat × Sp) => o.2.1 ≤ 2 * k + 1)
        (pathBatches (drawn w) (startSketch C p coord).items ((startSketch C p coord).plans C p.datagauge o p.changes)) outs.tail ∧
      ∃ x, outs.head? = some x ∧ FirstRun run val new ((startSketch C p coord).items.map (Item.at (drawn w))) x := by
  unfold sessionV at h
  cases hx : Eval.test (createRaz C (reads w) p coord) (fun s r => o.run C (reads w) s r)
    (plainly (T := Unit) (fun s => unwrap s.raztree >>= withTree val)) p.changes () 0 with
  | error q => rw [hx] at h; cases h
  | ok x =>
    obtain ⟨as0, r0⟩ := x
    rw [hx] at h
    cases h
    unfold Eval.test at hx
    obtain ⟨⟨s, r1⟩, e1, hx⟩ := bind_ok.1 hx
    obtain ⟨⟨u, t, b⟩, e2, hx⟩ := bind_ok.1 hx
    obtain ⟨⟨as1, r2⟩, e3, hfin⟩ := bind_ok.1 hx
    cases hfin
    obtain ⟨e4, e5⟩ := plain_answer e2
    unfold createRaz at e1
    rw [hg] at e1
    unfold drawsOf at hn
    have hlev := levels_reads w (p.size / p.datagauge) 0 (by omega)
    obtain ⟨z, t', c1, c2, c3, c4, c5, c6, c7, c8, c9, c10⟩ := incInit_plan e1 (ops := (startOps C p coord).map (LOp.at (drawn w))) (by
      rw [hlev]
      unfold startOps
      rw [plan_at])
    simp only at e4 e5
    rw [e4] at c3
    cases c3
    rw [hlev] at c9
    subst c9
    have hlift := at_lifts (drawn w) (drawn_one w) (startOps C p coord)
    have hsides : ((Raz.new : Raz E Count).left, (Raz.new : Raz E Count).right) = sidesAt (drawn w) ([], []) := rfl
    have hloc : (Raz.new : Raz E Count).Local ((startOps C p coord).map (LOp.at (drawn w))) :=
      local_sides ZInv.empty hlift (by rw [hsides, at_local]; exact start_local C p hs coord)
    obtain ⟨z', f1, f2, f3⟩ := lops_sides (z := (Raz.new : Raz E Count)) ZInv.empty hlift
    rw [f1] at c1
    cases c1
    obtain ⟨t2, g1, g2, g3⟩ := unfocus_closed f2
    rw [g1] at c2
    cases c2
    have hti2 : t.items = (startSketch C p coord).items.map (Item.at (drawn w)) := by
      rw [g3, f3, hsides, at_onSides, at_closed]; rfl
    have htidy : TidySeq t.items := by
      rw [g3, f3]
      exact closed_tidy (onSides_tidy _ ⟨trivial, trivial⟩)
    have hcells : Sub (LOp.cells (startOps C p coord)) (numN .dcg 0 (p.size / p.datagauge)) := by
      have := plan_cells p.datagauge (genData C p.size coord).1 0 (List.range' 0 (p.size / p.datagauge)) (titles 0 (p.size / p.datagauge))
      rwa [titles_vec] at this
    have hpl := Sketch.plans_cells (C := C) (dg := p.datagauge) (o := o) p.changes (startSketch C p coord)
    have hnum := nodup_count (numN_nodup (e := .dcg) 0 (p.size / p.datagauge + p.changes * (o.size / p.datagauge + 1)))
    simp only [Sketch.numN_add, List.count_append, Nat.zero_add] at hnum
    have start : LInvs (Raz.new : Raz E Count) (Raz.new : Raz E Count) [] 0 := ⟨ZInv.empty, ZC.empty, rfl, rfl, fun x => Nat.le_refl _, Nat.le_refl _⟩
    have hz : ∀ x, (cN .dcg (Raz.new : Raz E Count).lForest ++ cN .dcg (Raz.new : Raz E Count).rForest).count x = 0 := fun x => rfl
    have hnd : (cN .dcg (Raz.new : Raz E Count).lForest ++ cN .dcg (Raz.new : Raz E Count).rForest ++
        LOp.cells ((startOps C p coord).map (LOp.at (drawn w)))).Nodup := count_nodup fun x => by
      have := hnum x
      have := hcells x
      rw [List.count_append, hz, at_cells]
      omega
    obtain ⟨hz', σ1, k1, k2, k3, k4, -⟩ := sim_runs (lops_sim (σ := Store.empty) _ start hloc RepZ.empty hnd) f1
    obtain ⟨ht, σ2, k5, k6, k7, k8, k9, k10, -⟩ := sim_runs (close_sim k3 k4 k2 hnd) g1
    obtain ⟨v, a1, a2, a3⟩ := view_exists k6.tree
    have hn' : (tN .dcg t.tree ++ batchCells ((startSketch C p coord).plans C p.datagauge o p.changes)).Nodup := count_nodup fun x => by
      have h1 := k10 x
      rw [List.count_append, hz] at h1
      simp only [List.nil_append, at_cells] at h1
      have := hnum x
      have := hcells x
      have := hpl x
      simp only [startSketch] at this
      rw [List.count_append]
      simp only [startSketch]
      omega
    have hnv : (nodeNames v).Nodup := by rw [a3]; exact names_nodup (List.Nodup.of_append_left hn')
    have h0' : AllTitled (Raz.new : Raz E Count) := ⟨ZInv.empty, fun i hi => (by cases hi), fun i hi => (by cases hi)⟩
    have htt := titled_unfocus (titled_lops h0' (at_titles (drawn w) (plan_titles _ _ _ _ fun _ h => titles_some h)) hlift f1) g1
    obtain ⟨a, wk, sp, d1, d2, d3, d4, -⟩ := hR.step hnew trivial a1 a2 k9 hnv e5
    have hlen := start_elems C p coord
    have hl : localLists (startSketch C p coord).items ((startSketch C p coord).plans C p.datagauge o p.changes) = true := by
      refine Sketch.plans_local (by omega) p.changes _ (fun h => ?_) (by rw [hlen, ho]; exact hm)
      rw [h] at hlen
      simp at hlen
      omega
    obtain ⟨outs, σ3, q1, q2, q3, q4⟩ := along_all hR (q := startSketch C p coord) p.changes ⟨k6, k7, k8, k9, a1, a2, d3, hn', fun w hw => by cases hw⟩
      ⟨e4, ⟨k7, k8, k9, hti2, htidy⟩, c4, c5, c6, c7, c8⟩ htt hl (by simp only [startSketch, ho]; omega) (by simpa only [startSketch, Nat.zero_add] using e3)
    have hrun : Runs (sessionH C (reads w) p coord 0 (editH C (reads w) o) (keeping run) new) Store.empty ((a, wk, sp) :: outs, r0) σ3 := by
      unfold sessionH Heap.test
      refine Runs.bind (a := (toH s ht, p.size / p.datagauge)) (σ' := σ2) ?_ ((comp_keeping d1).bind (q1.bind .pure))
      rw [hg, c10]
      simp only [Nat.zero_add]
      exact k1.bind (k5.bind .pure)
    obtain ⟨f0, hrun⟩ := hrun
    have hr0 : r0 = drawsOf p := by rw [q2, ho]; rfl
    refine ⟨(a, wk, sp) :: outs, ⟨f0, fun f hf => by rw [hrun f hf, ← hr0]; rfl⟩, .cons d2 ?_, q4, _, rfl, t, v, ht, σ2, b, d1, a1, a2, k9, k7, hnv, e5, hti2⟩
    rw [List.forall₂_map_left_iff]
    exact q3

theorem mean_sessions [DecidableEq E] {run : HTree Count → Sp → HR E Count (A × Nat × Sp)} {val : RazTree E Count → P B} {Rel : B → A → Sp → Prop}
    {Hist : Sp → List (Tree (Tr × TreeData E Count)) → Prop} (hR : Reuses run val Rel Hist) {new : Sp} (hnew : Hist new []) {Ans : List E → A → Sp → Prop}
    (hv : ∀ t : RazTree E Count, t.Reachable .edit → ∃ b, val t = .ok b)
    (hA : ∀ (t : RazTree E Count) (b : B), t.Reachable .edit → val t = .ok b → ∀ a s, Rel b a s → Ans t.elems a s) (C : Coord G E) {p : Params} (hp : InRange p)
    (hg : p.namegauge = 1) (hs : 0 < p.size) (h0 : 0 < p.batch) {o : Edit} (ho : Possible p o) (coord : G) {n : Nat} (hn : drawsOf p ≤ n) (h63 : n ≤ 2 ^ 63) :
    ∃ outs : (Fin n → Fin (2 ^ 64)) → List (A × Nat × Sp),
      (∀ w, Ends (sessionH C (reads w) p coord 0 (editH C (reads w) o) (keeping run) new) (.ok (outs w, drawsOf p)) ∧
        Matches C p coord o (fun xs a => Ans xs a.1 a.2.2) (outs w)) ∧
      ∀ j : Nat, ∑ w, ((outs w)[j + 1]?.elim 0 fun a => a.2.1) ≤ (2 ^ 64) ^ n *
        (2 * (2 * (Nat.clog 2 (p.size / p.datagauge + j * (p.batch / p.datagauge + 1)) + 1) + (p.batch / p.datagauge + 1)) + 1) := by
  have hos : o.size = p.batch := by
    rcases ho with ⟨rfl, -⟩ | rfl <;> rfl
  have hm : p.size + p.changes * p.batch < usizeMax := by
    have := hp.counters
    rw [Nat.mul_add] at this
    omega
  have h1 : ∀ w : Fin n → Fin (2 ^ 64), ∃ outs : List (A × Nat × Sp),
      (Ends (sessionH C (reads w) p coord 0 (editH C (reads w) o) (keeping run) new) (.ok (outs, drawsOf p)) ∧
        Matches C p coord o (fun xs a => Ans xs a.1 a.2.2) outs) ∧
      List.Forall₂ (fun (k : Nat) (o : A × Nat × Sp) => o.2.1 ≤ 2 * k + 1)
        (pathBatches (drawn w) (startSketch C p coord).items ((startSketch C p coord).plans C p.datagauge o p.changes)) outs.tail := by
    intro w
    obtain ⟨as, rng', k1, k2, k3⟩ := sessionV_total C (reads w) p coord 0 hp ho (scratch := withTree val)
      (Q := fun xs a => a.1.Reachable .edit ∧ a.1.elems = xs ∧ val a.1 = .ok a.2) (fun t hr => by
      obtain ⟨b, hb⟩ := hv t hr
      exact ⟨(t, b), bind_ok.2 ⟨b, hb, rfl⟩, hr, rfl, hb⟩)
    obtain ⟨outs, e1, e2, e3, -⟩ := session_along hR hnew hg hs hos h0 hn hm k1
    refine ⟨outs, ⟨e1, by rw [← e2.length_eq]; exact k2, fun i a hi => ?_⟩, e3⟩
    have hlt : i < outs.length := (List.getElem?_eq_some_iff.1 hi).1
    have hlt' : i < as.length := by rw [e2.length_eq]; exact hlt
    have hrel := e2.get hlt' hlt
    have ha : outs[i] = a := (List.getElem?_eq_some_iff.1 hi).2
    obtain ⟨q1, q2, q3⟩ := k3 i as[i] (List.getElem?_eq_getElem hlt')
    rw [← q2]
    refine hA _ _ q1 q3 _ _ ?_
    rw [← ha]
    exact hrel
  obtain ⟨outs, hq⟩ := Classical.axiom_of_choice h1
  refine ⟨outs, fun w => (hq w).1, fun j => ?_⟩
  have hlen := start_elems C p coord
  have hne : elemsOf (startSketch C p coord).items ≠ [] := fun h => by
    rw [h] at hlen
    simp at hlen
    omega
  have hl : localLists (startSketch C p coord).items ((startSketch C p coord).plans C p.datagauge o p.changes) = true :=
    Sketch.plans_local (by omega) p.changes _ hne (by rw [hlen, hos]; exact hm)
  have hsl := Sketch.plans_slots (C := C) (dg := p.datagauge) (o := o) p.changes (startSketch C p coord)
  have hr : ∀ x, (levelsOf (startSketch C p coord).items ++ batchSlots ((startSketch C p coord).plans C p.datagauge o p.changes)).count x ≤
      (List.range' 0 (p.size / p.datagauge + p.changes * (o.size / p.datagauge + 1))).count x := fun x => by
    have := start_levels C p coord x
    have := hsl.count_le x
    rw [List.count_append, ← List.range'_append_1, List.count_append, Nat.zero_add]
    simp only [startSketch] at *
    omega
  have hmean := batches_mean h63 _ (slots_nodup fun x => Nat.le_trans (hr x) (nodup_slots List.nodup_range' x)) (fun k hk => by
    have h2 := List.count_pos_iff.1 (Nat.lt_of_lt_of_le (List.count_pos_iff.2 hk) (hr k))
    rw [List.mem_range'_1, hos] at h2
    unfold drawsOf at hn
    omega) hl j
  refine Nat.le_trans (Finset.sum_le_sum fun w _ => ?_) (Nat.le_trans hmean (Nat.mul_le_mul_left _ ?_))
  · have := elim_le (hq w).2 j
    rwa [List.getElem?_tail] at this
  · have hmk : (marksOf (startSketch C p coord).items).length ≤ p.size / p.datagauge := by
      have := Sketch.length_of_count (start_levels C p coord)
      simpa [levelsOf] using this
    have := Sketch.plans_bounds (C := C) (dg := p.datagauge) (o := o) p.changes (startSketch C p coord) hne hmk j
    rwa [hos] at this

/-! ### The theorems -/

/-- **C87, folds** (`FindMax`, `TreeFold` in sessions of the driver, eval/examples/crossover.rs, with `namegauge` 1). The harness makes a sequence, folds it
with stored calls, and then in turn edits it with batches of `batch` elements and folds it. For every parameter, generator of elements and places, and edit:
whatever the random numbers, the session does not panic, takes `drawsOf p` random numbers, and the answers are the folds of the lists that the edits make. After
`j` edits before it there are at most `m = size / datagauge + j * (batch / datagauge + 1)` archive points; after the next one the fold runs its function, in the
mean over all random numbers, at most `2 * (2 * (log m + 1) + batch / datagauge + 1) + 1` times (the logarithm to the base 2, rounded up). -/
theorem C87_fold [DecidableEq E] [DecidableEq B] {c : Fun E B} (hassoc : ∀ x y z, c.bin (c.bin x y) z = c.bin x (c.bin y z)) {q : Name} (C : Coord G E) {p : Params}
    (hp : InRange p) (hg : p.namegauge = 1) (hs : 0 < p.size) (h0 : 0 < p.batch) {o : Edit} (ho : Possible p o) (coord : G) {n : Nat} (hn : drawsOf p ≤ n)
    (h63 : n ≤ 2 ^ 63) :
    ∃ outs : (Fin n → Fin (2 ^ 64)) → List (Option B × Nat × RTable E Count B),
      (∀ w, Ends (sessionH C (reads w) p coord 0 (editH C (reads w) o) (keeping (refold c.fns q)) Table.empty) (.ok (outs w, drawsOf p)) ∧
        Matches C p coord o (fun xs a => a.1 = fold1 c.bin (xs.map c.init)) (outs w)) ∧
      ∀ j : Nat, ∑ w, ((outs w)[j + 1]?.elim 0 fun a => a.2.1) ≤ (2 ^ 64) ^ n *
        (2 * (2 * (Nat.clog 2 (p.size / p.datagauge + j * (p.batch / p.datagauge + 1)) + 1) + (p.batch / p.datagauge + 1)) + 1) := by
  have key : ∀ t : RazTree E Count, t.Reachable .edit → t.tree.foldUpMeta (c.fns (M := Count)).up = .ok (fold1 c.bin (t.elems.map c.init)) := fun t hr =>
    C10_fold_up_edited_partial (Reach.mono (by simp [Usage.edit]) (by simp [Usage.edit]) hr) c.init c.bin hassoc
  refine mean_sessions (fold_reuses c.fns q) ⟨.start, fun _ => rfl⟩ (Ans := fun xs a _ => a = fold1 c.bin (xs.map c.init)) (fun t hr => ⟨_, key t hr⟩) ?_
    C hp hg hs h0 ho coord hn h63
  rintro t b hr hb a s rfl
  simp only [key t hr, Except.ok.injEq] at hb
  exact hb.symm

/-- **C87, maps** (`Mapper`, eval/examples/to_string.rs): behind the handles are sequences with the mapped elements. -/
theorem C87_map [DecidableEq E] [RazMeta F N] [DecidableEq F] [DecidableEq N] {f : E → F} (C : Coord G E) {p : Params}
    (hp : InRange p) (hg : p.namegauge = 1) (hs : 0 < p.size) (h0 : 0 < p.batch) {o : Edit} (ho : Possible p o) (coord : G) {n : Nat} (hn : drawsOf p ≤ n)
    (h63 : n ≤ 2 ^ 63) :
    ∃ outs : (Fin n → Fin (2 ^ 64)) → List (HTree N × Nat × RSpace E Count F N),
      (∀ w, Ends (sessionH C (reads w) p coord 0 (editH C (reads w) o) (keeping (countedMap f)) Space.empty) (.ok (outs w, drawsOf p)) ∧
        Matches C p coord o (fun xs a => ∃ t : RazTree F N, Holds a.2.2.mem a.1 t ∧ t.elems = xs.map f) (outs w)) ∧
      ∀ j : Nat, ∑ w, ((outs w)[j + 1]?.elim 0 fun a => a.2.1) ≤ (2 ^ 64) ^ n *
        (2 * (2 * (Nat.clog 2 (p.size / p.datagauge + j * (p.batch / p.datagauge + 1)) + 1) + (p.batch / p.datagauge + 1)) + 1) := by
  refine mean_sessions (map_reuses f) .start (Ans := fun xs a (s : RSpace E Count F N) => ∃ t : RazTree F N, Holds s.mem a t ∧ t.elems = xs.map f)
    (fun t hr => (C15_map (N := N) hr f).imp fun _ h => h.1) ?_ C hp hg hs h0 ho coord hn h63
  intro t b hr hb a s h
  obtain ⟨t', h1, -, h3, -⟩ := C15_map (N := N) hr f
  simp only [h1, Except.ok.injEq] at hb
  subst hb
  exact ⟨t', h, h3⟩

/-- **C87, reverse and filter** (eval/examples/reverse.rs, filter.rs). -/
theorem C87_rebuild [DecidableEq E] [RazMeta E N] [DecidableEq N] {c : Rebuild E} (C : Coord G E) {p : Params}
    (hp : InRange p) (hg : p.namegauge = 1) (hs : 0 < p.size) (h0 : 0 < p.batch) {o : Edit} (ho : Possible p o) (coord : G) {n : Nat} (hn : drawsOf p ≤ n)
    (h63 : n ≤ 2 ^ 63) :
    ∃ outs : (Fin n → Fin (2 ^ 64)) → List (Option (HTree N) × Nat × GSpace E Count N),
      (∀ w, Ends (sessionH C (reads w) p coord 0 (editH C (reads w) o) (keeping (countedRebuild c)) Space.empty) (.ok (outs w, drawsOf p)) ∧
        Matches C p coord o (fun xs a => ∃ x, ∃ t : RazTree E N, a.1 = some x ∧ Holds a.2.2.mem x t ∧ t.elems = c.list xs) (outs w)) ∧
      ∀ j : Nat, ∑ w, ((outs w)[j + 1]?.elim 0 fun a => a.2.1) ≤ (2 ^ 64) ^ n *
        (2 * (2 * (Nat.clog 2 (p.size / p.datagauge + j * (p.batch / p.datagauge + 1)) + 1) + (p.batch / p.datagauge + 1)) + 1) := by
  refine mean_sessions (rebuild_reuses c) .start (Ans := fun xs a (s : GSpace E Count N) => ∃ x, ∃ t : RazTree E N, a = some x ∧ Holds s.mem x t ∧ t.elems = c.list xs)
    (fun t hr => Heap.rebuild_ok (N := N) c hr.any) ?_ C hp hg hs h0 ho coord hn h63
  rintro t b hr hb a s ⟨x, y, rfl, rfl, h⟩
  refine ⟨x, y, rfl, h, ?_⟩
  simpa [RAns.read] using scratch_elems c hr.any hb

/-! ### A session that meets the conditions -/

/-- The session of 40 elements with archive points after every second one, with 28 random numbers: at most 29 steps in the mean after each edit. -/
example : ∃ outs : (Fin 28 → Fin (2 ^ 64)) → List (Option Nat × Nat × RTable Nat Count Nat),
    (∀ w, Ends (sessionH exCoord (reads w) exLong 0 0 (editH exCoord (reads w) (.insert 2)) (keeping (refold sumF.fns (.str "sum"))) Table.empty)
        (.ok (outs w, 28)) ∧
      (outs w).map (·.1) = [some 780, some 863, some 952, some 1047, some 1148]) ∧
    ∀ j, j < 4 → ∑ w, ((outs w)[j + 1]?.elim 0 fun a => a.2.1) ≤ (2 ^ 64) ^ 28 * 29 := by
  obtain ⟨outs, h1, h2⟩ := C87_fold (c := sumF) (q := .str "sum") (by intro x y z; exact Nat.add_assoc x y z) exCoord (p := exLong)
    ⟨by decide, by decide, by decide, by decide⟩ rfl (by decide) (by decide) (o := .insert 2) (.inl ⟨rfl, .inl (by decide)⟩) 0 (n := 28) (by decide) (by decide)
  refine ⟨outs, fun w => ⟨(h1 w).1, ?_⟩, fun j hj => ?_⟩
  · obtain ⟨k1, k2⟩ := (h1 w).2
    have k3 : (outs w).length = 5 := k1
    refine List.ext_getElem? fun i => ?_
    by_cases hi : i < 5
    · have := k2 i _ (List.getElem?_eq_getElem (by omega))
      rw [List.getElem?_map, List.getElem?_eq_getElem (by omega), Option.map_some, this]
      have h : ∀ i, i < 5 → some (fold1 sumF.bin ((sessionAt ((Edit.insert 2).spec exCoord) exCoord exLong.size 0 i).1.map sumF.init)) =
          ([some 780, some 863, some 952, some 1047, some 1148] : List (Option Nat))[i]? := by decide +kernel
      exact h i hi
    · rw [List.getElem?_eq_none (by simp; omega), List.getElem?_eq_none (by simp; omega)]
  · refine Nat.le_trans (h2 j) (Nat.mul_le_mul_left _ ?_)
    have h : ∀ j, j < 4 → 2 * (2 * (Nat.clog 2 (exLong.size / exLong.datagauge + j * (exLong.batch / exLong.datagauge + 1)) + 1) +
        (exLong.batch / exLong.datagauge + 1)) + 1 ≤ 29 := by decide +kernel
    exact h j hj

/-- What the model gives with the random numbers 0, 1, 2, …. -/
example : ((sessionH exCoord (reads (n := 28) fun k => ⟨k.1, by omega⟩) exLong 0 0 (editH exCoord (reads (n := 28) fun k => ⟨k.1, by omega⟩) (.insert 2))
    (keeping (refold sumF.fns (.str "sum"))) Table.empty) 200 Store.empty).map (fun x => x.1.1.map fun o => o.2.1) = .ok [39, 4, 9, 8, 9] := by
  decide +kernel

/-- The conditions of the theorems for maps and for reversing. -/
example : InRange exLong ∧ exLong.namegauge = 1 ∧ 0 < exLong.size ∧ 0 < exLong.batch ∧ Possible exLong (.insert 2) ∧ Possible exLong (.append 2) ∧ drawsOf exLong = 28 :=
  ⟨⟨by decide, by decide, by decide, by decide⟩, rfl, by decide, by decide, .inl ⟨rfl, .inl (by decide)⟩, .inr rfl, by decide⟩

end Iodyn.Incr
