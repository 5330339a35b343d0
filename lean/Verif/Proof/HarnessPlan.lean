import Verif.Proof.HarnessOps
import Verif.Proof.MeanList
import Verif.Spec.MeanHarness
/-
The calls of a harness that names all its archive points, in terms of its generators.
-/
namespace Iodyn
variable {E M : Type}

/-- An archive point with the next level and the next name, if there are any. -/
def planArch (k : List Nat → List (Option Name) → List (LOp E)) : List Nat → List (Option Name) → List (LOp E)
  | l :: ls, n :: ns => .archL l n :: k ls ns
  | ls, ns => k ls ns

/-- All elements, and an archive point whenever the counter is a multiple of `dg`. -/
def planLoop (dg : Nat) : List E → Nat → List Nat → List (Option Name) → List (LOp E)
  | [], _, _, _ => []
  | x :: xs, c, ls, ns => .pushL x :: if (c + 1) % dg = 0 then planArch (planLoop dg xs (c + 1)) ls ns else planLoop dg xs (c + 1) ls ns

/-- The names of the numbers from `a` on, as the harness gives them. -/
def titles (a k : Nat) : List (Option Name) := (List.range' a k).map fun j => some (.usize j)

theorem titles_succ (a k : Nat) : titles a (k + 1) = some (.usize a) :: titles (a + 1) k := rfl
theorem titles_length (a k : Nat) : (titles a k).length = k := by simp [titles]
theorem titles_vec (a k : Nat) : Heap.vecN .dcg (titles a k) = Heap.numN .dcg a k := by simp [titles, Heap.vecN, Heap.numN, List.flatMap_map]
theorem titles_some {a k : Nat} {n : Option Name} (h : n ∈ titles a k) : n.isSome = true := by
  simp only [titles, List.mem_map] at h
  obtain ⟨j, -, rfl⟩ := h
  rfl

/-- What holds for calls that are built from pushes and archive points. -/
theorem plan_ind {dg : Nat} {Q : List E → List Nat → List (Option Name) → List (LOp E) → Prop} (h0 : ∀ ls ns, Q [] ls ns [])
    (h1 : ∀ x xs ls ns ops, Q xs ls ns ops → Q (x :: xs) ls ns (.pushL x :: ops))
    (h2 : ∀ x xs l ls n ns ops, Q xs ls ns ops → Q (x :: xs) (l :: ls) (n :: ns) (.pushL x :: .archL l n :: ops)) :
    ∀ (xs : List E) (c : Nat) (ls : List Nat) (ns : List (Option Name)), Q xs ls ns (planLoop dg xs c ls ns)
  | [], c, ls, ns => h0 ls ns
  | x :: xs, c, ls, ns => by
    have ih := plan_ind (dg := dg) h0 h1 h2 xs (c + 1)
    unfold planLoop
    split
    · rcases ls with _ | ⟨l, ls⟩
      · exact h1 _ _ _ _ _ (ih _ _)
      · rcases ns with _ | ⟨n, ns⟩
        · exact h1 _ _ _ _ _ (ih _ _)
        · exact h2 _ _ _ _ _ _ _ (ih _ _)
    · exact h1 _ _ _ _ _ (ih _ _)

theorem plan_at (f : Nat → Nat) (dg : Nat) : ∀ (xs : List E) (c : Nat) (ls : List Nat) (ns : List (Option Name)),
    (planLoop dg xs c ls ns).map (LOp.at f) = planLoop dg xs c (ls.map f) ns
  | [], c, ls, ns => rfl
  | x :: xs, c, ls, ns => by
    have ih := plan_at f dg xs (c + 1)
    unfold planLoop
    by_cases hc : (c + 1) % dg = 0
    · rw [if_pos hc, if_pos hc]
      rcases ls with _ | ⟨l, ls⟩
      · simp [planArch, LOp.at, ih]
      · rcases ns with _ | ⟨n, ns⟩ <;> simp [planArch, LOp.at, ih]
    · rw [if_neg hc, if_neg hc]
      simp [LOp.at, ih]

theorem plan_pushes (dg : Nat) (xs : List E) (c : Nat) (ls : List Nat) (ns : List (Option Name)) : pushes (planLoop dg xs c ls ns) = xs.length := by
  refine plan_ind (Q := fun xs _ _ ops => pushes ops = xs.length) (fun _ _ => rfl) ?_ ?_ xs c ls ns
  · intro x xs ls ns ops h; simp [pushes, h]
  · intro x xs l ls n ns ops h; simp [pushes, h]

theorem plan_cells (dg : Nat) (xs : List E) (c : Nat) (ls : List Nat) (ns : List (Option Name)) : Heap.Sub (LOp.cells (planLoop dg xs c ls ns)) (Heap.vecN .dcg ns) := by
  refine plan_ind (Q := fun _ _ ns ops => Heap.Sub (LOp.cells ops) (Heap.vecN .dcg ns)) (fun _ _ x => Nat.zero_le _) ?_ ?_ xs c ls ns
  · intro x xs ls ns ops h
    have e : LOp.cells (.pushL x :: ops) = LOp.cells ops := by simp [LOp.cells, LOp.name?]
    rw [e]; exact h
  · intro x xs l ls n ns ops h y
    have e : LOp.cells (.pushL x :: .archL l n :: ops) = LOp.cells [(.archL l n : LOp E)] ++ LOp.cells ops := by simp [LOp.cells, LOp.name?]
    rw [e, List.count_append, Heap.arch_cells]
    have := h y
    simp only [Heap.vecN, List.flatMap_cons, List.count_append] at this ⊢
    omega

theorem plan_points (dg : Nat) (xs : List E) (c : Nat) (ls : List Nat) (ns : List (Option Name)) : LOp.points (planLoop dg xs c ls ns) ≤ ns.length := by
  refine plan_ind (Q := fun _ _ ns ops => LOp.points ops ≤ ns.length) (fun _ _ => Nat.zero_le _) ?_ ?_ xs c ls ns
  · intro x xs ls ns ops h; simpa [LOp.points, LOp.name?] using h
  · intro x xs l ls n ns ops h
    cases n <;> simp [LOp.points, LOp.name?] at h ⊢ <;> omega

theorem plan_titles (dg : Nat) (xs : List E) (c : Nat) (ls : List Nat) {ns : List (Option Name)} (hn : ∀ n ∈ ns, n.isSome = true) :
    ∀ op ∈ planLoop dg xs c ls ns, op.Titles := by
  refine plan_ind (Q := fun _ _ ns ops => (∀ n ∈ ns, n.isSome = true) → ∀ op ∈ ops, op.Titles) (fun _ _ _ _ h => by cases h) ?_ ?_ xs c ls ns hn
  · intro x xs ls ns ops h hn
    exact Heap.mem_cons_all trivial (h hn)
  · intro x xs l ls n ns ops h hn
    exact Heap.mem_cons_all trivial (Heap.mem_cons_all (hn n List.mem_cons_self) (h fun n hn' => hn n (List.mem_cons_of_mem _ hn')))

theorem plan_slots (dg : Nat) (xs : List E) (c : Nat) (ls : List Nat) (ns : List (Option Name)) : (LOp.slots (planLoop dg xs c ls ns)).Sublist ls := by
  refine plan_ind (Q := fun _ ls _ ops => (LOp.slots ops).Sublist ls) (fun _ _ => List.nil_sublist _) ?_ ?_ xs c ls ns
  · intro x xs ls ns ops h; exact h
  · intro x xs l ls n ns ops h; exact h.cons₂ l

theorem hand_archive (l : Nat) (n : Option Name) {s : List (Item E)} (h : atHand s = true) : atHand (archiveSide l n s) = true := by
  unfold archiveSide
  split
  · rfl
  · exact h

theorem plan_local (dg : Nat) (xs : List E) (c : Nat) (ls : List Nat) (ns : List (Option Name)) : ∀ s : List (Item E) × List (Item E),
    (atHand s.1 = true ∨ xs ≠ []) → localSides s (planLoop dg xs c ls ns) = true := by
  refine plan_ind (Q := fun xs _ _ ops => ∀ s : List (Item E) × List (Item E), (atHand s.1 = true ∨ xs ≠ []) → localSides s ops = true) ?_ ?_ ?_ xs c ls ns
  · intro _ _ s h
    simp [localSides, h.resolve_right (by simp)]
  · intro x xs ls ns ops h s _
    simp only [localSides, LOp.staysAt, Bool.true_and]
    exact h _ (.inl rfl)
  · intro x xs l ls n ns ops h s _
    simp only [localSides, LOp.staysAt, Bool.true_and]
    exact h _ (.inl rfl)

theorem archive_elems (l : Nat) (n : Option Name) (s : List (Item E)) : elemsOf (archiveSide l n s) = elemsOf s := by
  unfold archiveSide
  split <;> rfl

theorem plan_elems (dg : Nat) (xs : List E) (c : Nat) (ls : List Nat) (ns : List (Option Name)) : ∀ s : List (Item E) × List (Item E),
    elemsOf (onSides s (planLoop dg xs c ls ns)).1 = xs.reverse ++ elemsOf s.1 ∧ (onSides s (planLoop dg xs c ls ns)).2 = s.2 := by
  refine plan_ind (Q := fun xs _ _ ops => ∀ s : List (Item E) × List (Item E), elemsOf (onSides s ops).1 = xs.reverse ++ elemsOf s.1 ∧ (onSides s ops).2 = s.2)
    ?_ ?_ ?_ xs c ls ns
  · intro _ _ s; exact ⟨rfl, rfl⟩
  · intro x xs ls ns ops h s
    obtain ⟨h1, h2⟩ := h (.elem x :: s.1, s.2)
    refine ⟨?_, h2⟩
    rw [List.reverse_cons, List.append_assoc]
    exact h1
  · intro x xs l ls n ns ops h s
    obtain ⟨h1, h2⟩ := h (archiveSide l n (.elem x :: s.1), s.2)
    refine ⟨?_, h2⟩
    rw [List.reverse_cons, List.append_assoc]
    rw [archive_elems] at h1
    exact h1

/-- Less elements than the next archive point needs. -/
theorem plan_short {dg : Nat} : ∀ {xs : List E} {c : Nat} (ls : List Nat) (ns : List (Option Name)), c % dg + xs.length < dg →
    planLoop dg xs c ls ns = xs.map LOp.pushL
  | [], c, ls, ns, _ => rfl
  | x :: xs, c, ls, ns, h => by
    simp only [List.length_cons] at h
    have e : (c + 1) % dg = c % dg + 1 := by
      rw [Nat.add_mod, Nat.mod_eq_of_lt (show 1 < dg by omega), Nat.mod_eq_of_lt (by omega)]
    unfold planLoop
    rw [if_neg (by omega), plan_short ls ns (by omega)]
    rfl

/-- Elements up to the next archive point. -/
theorem plan_block {dg : Nat} : ∀ {ys : List E} {c : Nat} (xs : List E) (l : Nat) (ls : List Nat) (n : Option Name) (ns : List (Option Name)), ys ≠ [] →
    c % dg + ys.length = dg → planLoop dg (ys ++ xs) c (l :: ls) (n :: ns) = ys.map LOp.pushL ++ .archL l n :: planLoop dg xs (c + ys.length) ls ns
  | [], c, _, _, _, _, _, h, _ => absurd rfl h
  | [y], c, xs, l, ls, n, ns, _, h => by
    simp only [List.length_cons, List.length_nil] at h
    have e : (c + 1) % dg = 0 := by
      rw [← Nat.mod_add_mod, show c % dg + 1 = dg by omega, Nat.mod_self]
    simp only [List.cons_append, List.nil_append, List.map_cons, List.map_nil, List.length_cons, List.length_nil]
    rw [planLoop, if_pos e]
    rfl
  | y :: y' :: ys, c, xs, l, ls, n, ns, _, h => by
    simp only [List.length_cons] at h
    have e : (c + 1) % dg = c % dg + 1 := by
      rw [Nat.add_mod, Nat.mod_eq_of_lt (show 1 < dg by omega), Nat.mod_eq_of_lt (by omega)]
    have ih := plan_block (dg := dg) (ys := y' :: ys) (c := c + 1) xs l ls n ns (by simp) (by simp only [List.length_cons]; omega)
    rw [List.cons_append, planLoop, if_neg (by omega), ih]
    simp only [List.map_cons, List.cons_append, List.length_cons]
    rw [show c + 1 + (ys.length + 1) = c + (ys.length + 1 + 1) by omega]

namespace Heap
open Iodyn.Eval
variable {G R : Type} [RazMeta E M]

omit [RazMeta E M] in
theorem editNames_list : ∀ (k : Nat) {s s' : EvalRaz E M G} {ns}, EvalRaz.editNames k s = .ok (s', ns) → ns = titles s.names k
  | 0, s, s', ns, h => by cases h; rfl
  | k + 1, s, s', ns, h => by
    unfold EvalRaz.editNames at h
    obtain ⟨⟨s1, n⟩, e2, h⟩ := bind_ok.1 h
    obtain ⟨⟨s2, ns'⟩, e3, hfin⟩ := bind_ok.1 h
    cases hfin
    unfold EvalRaz.nextName at e2
    obtain ⟨m, e4, hfin⟩ := bind_ok.1 e2
    cases hfin
    rw [editNames_list k e3, titles_succ, addU_ok e4]

omit [RazMeta E M] in
theorem initNames_list : ∀ (k : Nat) {s s' : EvalRaz E M G} {ns}, s.namegauge = 1 → EvalRaz.initNames k s = .ok (s', ns) → ns = titles s.names k ∧ s'.counter = s.counter
  | 0, s, s', ns, _, h => by cases h; exact ⟨rfl, rfl⟩
  | k + 1, s, s', ns, hg, h => by
    unfold EvalRaz.initNames at h
    obtain ⟨g, e1, h⟩ := bind_ok.1 h
    obtain ⟨⟨s1, n⟩, e2, h⟩ := bind_ok.1 h
    obtain ⟨⟨s2, ns'⟩, e3, hfin⟩ := bind_ok.1 h
    cases hfin
    unfold EvalRaz.nextName at e2
    obtain ⟨m, e4, hfin⟩ := bind_ok.1 e2
    cases hfin
    have : g = 0 := by have := subU_ok e1; omega
    subst this
    have := initNames_list k (s := { s with names := m }) hg e3
    rw [this.1, titles_succ, addU_ok e4]
    exact ⟨rfl, this.2⟩

/-- The insertion loop makes these calls. -/
theorem editLoop_plan {dg : Nat} : ∀ {xs : List E} {z z' : Raz E M} {c c' : Nat} {ls : List Nat} {ns : List (Option Name)},
    EvalRaz.editLoop dg 1 xs z c ls ns = .ok (z', c') → z.lops (planLoop dg xs c ls ns) = .ok z' ∧ c' = c + xs.length ∧
      ∀ hz, (HEval.editLoop .dcg dg 1 xs hz c ls ns : HR E M _) = HRaz.lops .dcg hz (planLoop dg xs c ls ns) >>= fun z => Pure.pure (z, c')
  | [], z, z', c, c', ls, ns, h => by
    cases h
    exact ⟨rfl, rfl, fun hz => rfl⟩
  | x :: xs, z, z', c, c', ls, ns, h => by
    unfold EvalRaz.editLoop at h
    obtain ⟨c1, e1, h⟩ := bind_ok.1 h
    obtain ⟨a, e2, h⟩ := bind_ok.1 h
    obtain ⟨r, e3, h⟩ := bind_ok.1 h
    have ha := mulU_ok e2
    rw [Nat.one_mul] at ha
    subst ha
    have hc1 := addU_ok e1
    subst hc1
    have hrr : r = (c + 1) % a := by unfold remU at e3; split at e3 <;> cases e3; rfl
    subst hrr
    split at h
    · rename_i hr
      rcases ls with _ | ⟨l, ls⟩
      · cases h
      · rcases ns with _ | ⟨n, ns⟩
        · cases h
        · obtain ⟨k1, k2, k3⟩ := editLoop_plan h
          have e : planLoop a (x :: xs) c (l :: ls) (n :: ns) = .pushL x :: .archL l n :: planLoop a xs (c + 1) ls ns := by
            rw [planLoop, if_pos hr]; rfl
          rw [e]
          refine ⟨k1, by simp only [List.length_cons]; omega, fun hz => ?_⟩
          unfold HEval.editLoop
          simp only [e1, e2, e3, hlift_bind, hr, if_true, HRaz.lops, HRaz.lop, hbind_assoc, hpure_bind, k3]
    · rename_i hr
      obtain ⟨r', e4, h⟩ := bind_ok.1 h
      have hrr : r' = (c + 1) % a := by unfold remU at e4; split at e4 <;> cases e4; rfl
      subst hrr
      rw [if_neg hr] at h
      obtain ⟨k1, k2, k3⟩ := editLoop_plan h
      have e : planLoop a (x :: xs) c ls ns = .pushL x :: planLoop a xs (c + 1) ls ns := by rw [planLoop, if_neg hr]
      rw [e]
      refine ⟨k1, by simp only [List.length_cons]; omega, fun hz => ?_⟩
      unfold HEval.editLoop
      simp only [e1, e2, e3, hlift_bind, hr, if_false, HRaz.lops, HRaz.lop, hpure_bind, k3]

/-- The common part of the edits makes these calls. -/
theorem editAt_plan {C : Coord G E} {word : R → BitVec 64 × R} {s s' : EvalRaz E M G} (h0 : s.raztree = none) (hg : s.namegauge = 1) {z : Raz E M} {batch : Nat}
    {rng rng' : R} (h : EvalRaz.editAt C word s z batch rng = .ok (s', rng')) {ops : List (LOp E)}
    (ho : ops = planLoop s.datagauge (genData C batch s.coord).1 s.counter (genLevels word (batch / s.datagauge + 1) rng).1
      (titles s.names (batch / s.datagauge + 1))) :
    ∃ z' t, z.lops ops = .ok z' ∧ z'.unfocus = .ok t ∧ s'.raztree = some t ∧ s'.coord = (genData C batch s.coord).2 ∧ s'.counter = s.counter + batch ∧
      s'.names = s.names + (batch / s.datagauge + 1) ∧ s'.datagauge = s.datagauge ∧ s'.namegauge = 1 ∧ rng' = (genLevels word (batch / s.datagauge + 1) rng).2 ∧
      ∀ hz, (HEval.editAt .dcg C word (toH0 s) hz batch rng : HR E M _) =
        HRaz.lops .dcg hz ops >>= fun z => z.unfocus .dcg >>= fun t => Pure.pure (toH s' t, rng') := by
  unfold EvalRaz.editAt at h
  obtain ⟨a1, e1, h⟩ := bind_ok.1 h
  obtain ⟨a2, e2, h⟩ := bind_ok.1 h
  obtain ⟨a3, e3, h⟩ := bind_ok.1 h
  obtain ⟨a4, e4, h⟩ := bind_ok.1 h
  obtain ⟨a5, e5, h⟩ := bind_ok.1 h
  obtain ⟨⟨s1, ns⟩, e6, h⟩ := bind_ok.1 h
  obtain ⟨⟨z1, c1⟩, e7, h⟩ := bind_ok.1 h
  obtain ⟨t, e8, hfin⟩ := bind_ok.1 h
  cases hfin
  obtain ⟨n1, n2, n3, n4, n5, n6, n7, n8, n9, n10⟩ := editNames_eq a5 h0 e6
  have m1 := divU_ok e1
  have m2 := addU_ok e2
  have m3 := mulU_ok e3
  have m4 := divU_ok e4
  have m5 := addU_ok e5
  have hns := editNames_list a5 e6
  rw [hg, Nat.one_mul] at m3
  have h2 : a2 = batch / s.datagauge + 1 := by rw [m2, m1.2]
  have h5 : a5 = batch / s.datagauge + 1 := by rw [m5, m4.2, m3]
  rw [n5, n6, n7, n8, hg, hns, h2, h5] at e7
  obtain ⟨k1, k2, k3⟩ := editLoop_plan e7
  rw [← ho] at k1 k3
  refine ⟨z1, t, k1, e8, rfl, by simp only [n7], by rw [k2, genData_length], by simp only [n4, h5], n5, by simp only [n6, hg], by simp only [h2], fun hz => ?_⟩
  unfold HEval.editAt
  have e1' : divU batch (toH0 s : HEval M G).datagauge = .ok a1 := e1
  have e3' : mulU (toH0 s : HEval M G).namegauge (toH0 s : HEval M G).datagauge = .ok a3 := e3
  simp only [e1', e2, e3', e4, e5, n1, hlift_bind]
  have k7' := k3 hz
  simp only [toH0]
  rw [n5, n6, n7, n8, hg, hns, h2, h5, k7', hbind_assoc]
  rfl

/-! ### Building -/

/-- From `s` to `s'` with these calls, on values and over the store. -/
structure Exact (hb : HIters E → HR E M (HIters E)) (s s' : Iters E M) (ops : List (LOp E)) : Prop where
  vals : s.raz.lops ops = .ok s'.raz
  heap : ∀ hz, hb ⟨hz, s.data, s.names, s.levels⟩ = HRaz.lops .dcg hz ops >>= fun z => Pure.pure ⟨z, s'.data, s'.names, s'.levels⟩

theorem Exact.trans {hb hb' : HIters E → HR E M (HIters E)} {s s' s'' : Iters E M} {ops ops' : List (LOp E)} (h : Exact hb s s' ops) (h' : Exact hb' s' s'' ops') :
    Exact (fun s => hb s >>= hb') s s'' (ops ++ ops') := by
  refine ⟨?_, fun hz => ?_⟩
  · rw [lops_append, h.vals]; exact h'.vals
  · simp only [h.heap, hlops_append, hbind_assoc, hpure_bind, h'.heap]

theorem Exact.refl (s : Iters E M) : Exact (fun s => Pure.pure s) s s [] := ⟨rfl, fun _ => rfl⟩

theorem push_many : ∀ (n : Nat) {s s' : Iters E M}, forN n EvalRaz.pushNext s = .ok s' →
    ∃ ys, ys.length = n ∧ s.data = ys ++ s'.data ∧ s'.names = s.names ∧ s'.levels = s.levels ∧ Exact (forH n HEval.pushNext) s s' (ys.map LOp.pushL)
  | 0, s, s', h => by cases h; exact ⟨[], rfl, rfl, rfl, rfl, Exact.refl s⟩
  | n + 1, s, s', h => by
    obtain ⟨s1, e1, h⟩ := bind_ok.1 h
    obtain ⟨z, data, names, levels⟩ := s
    unfold EvalRaz.pushNext at e1
    rcases data with _ | ⟨x, data⟩
    · cases e1
    · cases e1
      obtain ⟨ys, k1, k2, k3, k4, k5⟩ := push_many n h
      have e : Exact (M := M) HEval.pushNext ⟨z, x :: data, names, levels⟩ ⟨(z.pushLeft x).1, data, names, levels⟩ [.pushL x] := ⟨rfl, fun hz => rfl⟩
      exact ⟨x :: ys, by simp [k1], by simp only [List.cons_append]; rw [← k2], k3, k4, e.trans k5⟩

theorem archive_exact {s s' : Iters E M} (h : EvalRaz.archiveNext s = .ok s') :
    ∃ l n, s.levels = l :: s'.levels ∧ s.names = n :: s'.names ∧ s'.data = s.data ∧ Exact (HEval.archiveNext .dcg) s s' [.archL l n] := by
  obtain ⟨z, data, names, levels⟩ := s
  unfold EvalRaz.archiveNext at h
  rcases levels with _ | ⟨l, levels⟩
  · cases h
  · rcases names with _ | ⟨n, names⟩
    · cases h
    · cases h
      exact ⟨l, n, rfl, rfl, rfl, rfl, fun hz => by simp only [HEval.archiveNext, HRaz.lops, HRaz.lop, hbind_pure]⟩

theorem block_exact {dg : Nat} (hd : dg ≠ 0) {s s' : Iters E M} {c : Nat} (hc : c % dg = 0) (h : (forN dg EvalRaz.pushNext s >>= EvalRaz.archiveNext) = .ok s') :
    ∃ ops, Exact (fun s => forH dg HEval.pushNext s >>= HEval.archiveNext .dcg) s s' ops ∧
      planLoop dg s.data c s.levels s.names = ops ++ planLoop dg s'.data (c + dg) s'.levels s'.names ∧ s.data.length = dg + s'.data.length := by
  obtain ⟨s1, e1, h⟩ := bind_ok.1 h
  obtain ⟨ys, k1, k2, k3, k4, k5⟩ := push_many dg e1
  obtain ⟨l, n, a1, a2, a3, a4⟩ := archive_exact h
  refine ⟨_, k5.trans a4, ?_, by rw [k2, a3, List.length_append, k1]⟩
  have hne : ys ≠ [] := fun h => hd (by rw [← k1, h]; rfl)
  rw [k2, ← k4, ← k3, a1, a2, plan_block _ _ _ _ _ hne (by rw [hc, k1, Nat.zero_add]), k1, a3]
  simp

theorem blocks_exact {dg : Nat} (hd : dg ≠ 0) : ∀ (k : Nat) {s s' : Iters E M} {c : Nat}, c % dg = 0 →
    forN k (forN 1 (fun s => forN dg EvalRaz.pushNext s >>= EvalRaz.archiveNext)) s = .ok s' →
    ∃ ops, Exact (forH k (forH 1 (fun s => forH dg HEval.pushNext s >>= HEval.archiveNext .dcg))) s s' ops ∧
      planLoop dg s.data c s.levels s.names = ops ++ planLoop dg s'.data (c + k * dg) s'.levels s'.names ∧ s.data.length = k * dg + s'.data.length
  | 0, s, s', c, hc, h => by cases h; exact ⟨[], Exact.refl s, by simp, by simp⟩
  | k + 1, s, s', c, hc, h => by
    obtain ⟨s1, e1, h⟩ := bind_ok.1 h
    obtain ⟨s2, e1, hfin⟩ := bind_ok.1 e1
    cases hfin
    obtain ⟨ops, b1, b2, b3⟩ := block_exact hd hc e1
    obtain ⟨ops', b4, b5, b6⟩ := blocks_exact hd k (c := c + dg) (by rw [Nat.add_mod_right, hc]) h
    refine ⟨(ops ++ []) ++ ops', (b1.trans (Exact.refl s1)).trans b4, ?_, ?_⟩
    · rw [b2, b5, List.append_nil, List.append_assoc, show c + dg + k * dg = c + (k + 1) * dg by rw [Nat.succ_mul]; omega]
    · rw [b3, b6, Nat.succ_mul]; omega

/-- Building a sequence makes these calls. -/
theorem incInit_plan {C : Coord G E} {word : R → BitVec 64 × R} {size dg : Nat} {coord : G} {rng rng' : R} {s : EvalRaz E M G}
    (h : EvalRaz.incInit C word size dg 1 coord rng = .ok (s, rng')) {ops : List (LOp E)}
    (ho : ops = planLoop dg (genData C size coord).1 0 (genLevels word (size / dg) rng).1 (titles 0 (size / dg))) :
    ∃ z t, (Raz.new : Raz E M).lops ops = .ok z ∧ z.unfocus = .ok t ∧ s.raztree = some t ∧ s.coord = (genData C size coord).2 ∧ s.counter = 0 ∧
      s.names = size / dg ∧ s.datagauge = dg ∧ s.namegauge = 1 ∧ rng' = (genLevels word (size / dg) rng).2 ∧
      (HEval.incInit .dcg C word size dg 1 coord rng : HR E M _) =
        HRaz.lops .dcg HRaz.new ops >>= fun z => z.unfocus .dcg >>= fun t => Pure.pure (toH s t, rng') := by
  unfold EvalRaz.incInit at h
  obtain ⟨a1, e1, h⟩ := bind_ok.1 h
  obtain ⟨names, e2, h⟩ := bind_ok.1 h
  obtain ⟨levels, e3, h⟩ := bind_ok.1 h
  obtain ⟨a2, e4, h⟩ := bind_ok.1 h
  obtain ⟨a3, e5, h⟩ := bind_ok.1 h
  obtain ⟨nonames, e6, h⟩ := bind_ok.1 h
  obtain ⟨units, e7, h⟩ := bind_ok.1 h
  obtain ⟨a4, e8, h⟩ := bind_ok.1 h
  obtain ⟨nounits, e9, h⟩ := bind_ok.1 h
  obtain ⟨⟨s1, ns⟩, e10, h⟩ := bind_ok.1 h
  obtain ⟨i1, e11, h⟩ := bind_ok.1 h
  obtain ⟨i2, e12, h⟩ := bind_ok.1 h
  obtain ⟨i3, e13, h⟩ := bind_ok.1 h
  obtain ⟨t, e14, hfin⟩ := bind_ok.1 h
  cases hfin
  obtain ⟨n1, n2, n3, n4, n5, n6, n7, n8⟩ := initNames_eq names rfl e10
  obtain ⟨hns, n9⟩ := initNames_list names rfl e10
  have m1 := mulU_ok e1
  have m2 := divU_ok e2
  have m3 := divU_ok e3
  have m4 := mulU_ok e4
  have m5 := mulU_ok e5
  have m6 := subU_ok e6
  have m7 := divU_ok e7
  have m8 := mulU_ok e8
  have m9 := subU_ok e9
  simp only [EvalRaz.new] at m1 m2 m3 m4 m5 m6 m7 m8 m9 n1 n3 n4 n5 n6 n7 n8 n9 hns
  rw [Nat.one_mul] at m1
  rw [Nat.mul_one] at m4
  have hdm := Nat.div_add_mod size dg
  have hlt := Nat.mod_lt size (Nat.pos_of_ne_zero m3.1)
  have hnn : nonames = size % dg := by
    rw [m6.2, m5, m4, m2.2, m1, Nat.mul_comm]
    omega
  have hu : units = 0 := by rw [m7.2, hnn, Nat.div_eq_of_lt hlt]
  subst hu
  have hna : nounits = size % dg := by rw [m9.2, m8, hnn]; omega
  have hn2 : names = size / dg := by rw [m2.2, m1]
  cases e12
  rw [n5, n6] at e11
  obtain ⟨ops1, b1, b2, b3⟩ := blocks_exact m3.1 names (c := 0) (Nat.zero_mod _) e11
  obtain ⟨ys, b4, b5, b6, b7, b8⟩ := push_many nounits e13
  simp only [n7, hns, m3.2] at b2 b3
  rw [genData_length] at b3
  have hlen : i1.data.length = size % dg := by
    have : size = dg * (size / dg) + i1.data.length := by rw [Nat.mul_comm, ← hn2]; exact b3
    omega
  have hdata : i3.data = [] := by
    have := congrArg List.length b5
    rw [List.length_append, hlen, b4, hna] at this
    exact List.length_eq_zero_iff.1 (by omega)
  rw [hdata, List.append_nil] at b5
  have hsh : planLoop dg i1.data (0 + names * dg) i1.levels i1.names = i1.data.map LOp.pushL :=
    plan_short _ _ (by rw [Nat.zero_add, Nat.mul_mod_left, Nat.zero_add, hlen]; exact hlt)
  rw [hsh, b5, hn2, ← ho] at b2
  have b := b1.trans ((Exact.refl (M := M) i1).trans b8)
  rw [List.nil_append, ← b2] at b
  refine ⟨i3.raz, t, b.vals, e14, rfl, by simp only [n7], n9, by simp only [n4, hn2, Nat.zero_add], n5, n6, by simp only [m3.2], ?_⟩
  have heap := b.heap HRaz.new
  unfold HEval.incInit
  have g : ∀ k : HIters E → HR E M (HEval M G × R), _ := fun k => congrArg (fun m => m >>= k) heap
  simp only [hbind_assoc, hpure_bind] at g
  have e1' : mulU (HEval.new dg 1 coord : HEval M G).namegauge (HEval.new dg 1 coord : HEval M G).datagauge = .ok a1 := e1
  have e3' : divU size (HEval.new dg 1 coord : HEval M G).datagauge = .ok levels := e3
  have e4' : mulU names (HEval.new dg 1 coord : HEval M G).namegauge = .ok a2 := e4
  have e5' : mulU a2 (HEval.new dg 1 coord : HEval M G).datagauge = .ok a3 := e5
  have e7' : divU nonames (HEval.new dg 1 coord : HEval M G).datagauge = .ok 0 := e7
  have e8' : mulU 0 (HEval.new dg 1 coord : HEval M G).datagauge = .ok a4 := e8
  have n1' : HEval.initNames names (HEval.new dg 1 coord : HEval M G) = .ok (toH0 s1, ns) := n1
  simp only [e1', e2, e3', e4', e5', e6, e7', e8', e9, n1', hlift_bind]
  simp only [toH0, n5, n6]
  exact g (fun s => s.raz.unfocus .dcg >>= fun t => Pure.pure (_, _))

end Heap
end Iodyn
