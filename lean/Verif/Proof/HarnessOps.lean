import Verif.Proof.HeapSession
import Verif.Spec.EditCost
/-
What the building and editing loops of the harness call at the cursor, as lists of calls.
-/
namespace Iodyn
variable {E M : Type}

/-- Pushes and archive points left of the cursor, with proper levels. -/
def Adds (ops : List (LOp E)) : Prop := ∀ op ∈ ops, (∃ x, op = .pushL x) ∨ ∃ lev nm, op = .archL lev nm ∧ 1 ≤ lev

theorem Adds.nil : Adds ([] : List (LOp E)) := fun _ h => by cases h

theorem Adds.append {a b : List (LOp E)} (h : Adds a) (h' : Adds b) : Adds (a ++ b) := fun op ho => (List.mem_append.1 ho).elim (h op) (h' op)

/-- The number of pushes. -/
def pushes : List (LOp E) → Nat
  | [] => 0
  | .pushL _ :: l => pushes l + 1
  | _ :: l => pushes l

theorem pushes_append (a b : List (LOp E)) : pushes (a ++ b) = pushes a + pushes b := by
  induction a with
  | nil => simp [pushes]
  | cons op a ih => cases op <;> simp only [List.cons_append, pushes, ih] <;> omega

theorem cells_append (a b : List (LOp E)) : LOp.cells (a ++ b) = LOp.cells a ++ LOp.cells b := by
  induction a with
  | nil => rfl
  | cons op a ih => simp only [List.cons_append, LOp.cells, ih, List.append_assoc]

theorem points_append (a b : List (LOp E)) : LOp.points (a ++ b) = LOp.points a + LOp.points b := by
  induction a with
  | nil => simp [LOp.points]
  | cons op a ih => simp only [List.cons_append, LOp.points, ih]; omega

variable [RazMeta E M]

theorem lops_append (a b : List (LOp E)) (z : Raz E M) : z.lops (a ++ b) = z.lops a >>= fun z => z.lops b := by
  induction a generalizing z with
  | nil => rfl
  | cons op a ih =>
    show (z.lop op >>= fun z => z.lops (a ++ b)) = (z.lop op >>= fun z => z.lops a) >>= fun z => z.lops b
    cases z.lop op with
    | error q => rfl
    | ok z => exact ih z

omit [RazMeta E M] in
theorem near_push (z : Raz E M) (x : E) : Near (z.pushLeft x).1.left :=
  ⟨.elem x, z.left, by simp [Raz.left, Raz.pushLeft, side_push], fun _ _ h => by cases h⟩

omit [RazMeta E M] in
theorem near_archive {z : Raz E M} (lev : Nat) (nm : Option Name) (h : Near z.left) : Near (z.archiveLeft lev nm).left := by
  have e : (z.archiveLeft lev nm).left = archiveSide lev nm z.left := side_archive _ _ _ _ (leftSide_markHead _)
  rw [e]
  obtain ⟨i, r, h1, h2⟩ := h
  rw [h1]
  cases i with
  | elem => exact ⟨_, _, rfl, fun _ _ h => by cases h⟩
  | pend => exact ⟨_, _, rfl, h2⟩
  | mark => exact absurd rfl (h2 _ _)

/-- Such calls are local, if there is a push among them. -/
theorem adds_local : ∀ {ops : List (LOp E)} {z : Raz E M}, Adds ops → (Near z.left ∨ 0 < pushes ops) → z.Local ops
  | [], z, _, h => .inl (h.resolve_right (by simp [pushes]))
  | op :: l, z, ha, h => by
    have hl : Adds l := fun op ho => ha op (List.mem_cons_of_mem _ ho)
    rcases ha op List.mem_cons_self with ⟨x, rfl⟩ | ⟨lev, nm, rfl, h1⟩
    · refine ⟨trivial, fun z' hz => ?_⟩
      cases hz
      exact adds_local hl (.inl (near_push z x))
    · refine ⟨h1, fun z' hz => ?_⟩
      cases hz
      exact adds_local hl (h.imp (near_archive lev nm) (fun h => h))

namespace Heap
open Iodyn.Eval
variable {G R S A : Type}

theorem hbind_assoc {D X B C : Type} (m : H D X A) (k : A → H D X B) (k' : B → H D X C) : (m >>= k) >>= k' = m >>= fun a => k a >>= k' := by
  funext f σ
  simp only [Bind.bind]
  cases m f σ <;> rfl

theorem hbind_pure {D X : Type} (m : H D X A) : (m >>= fun a => Pure.pure a) = m := by
  funext f σ
  simp only [Bind.bind, Pure.pure]
  cases m f σ <;> rfl

theorem hpure_bind {D X B : Type} (a : A) (k : A → H D X B) : (Pure.pure a >>= k) = k a := rfl

theorem hlift_bind {D X B : Type} (a : A) (k : A → H D X B) : ((liftP (.ok a) : H D X A) >>= k) = k a := rfl

theorem hlops_append (a b : List (LOp E)) (z : HRaz E) : (HRaz.lops .dcg z (a ++ b) : HR E M _) = HRaz.lops .dcg z a >>= fun z => HRaz.lops .dcg z b := by
  induction a generalizing z with
  | nil => rfl
  | cons op a ih =>
    show (z.lop .dcg op >>= fun z => HRaz.lops .dcg z (a ++ b)) = (z.lop .dcg op >>= fun z => HRaz.lops .dcg z a) >>= fun z => HRaz.lops .dcg z b
    rw [hbind_assoc]
    congr 1
    funext z
    exact ih z

omit [RazMeta E M] in
theorem arch_cells (lev : Nat) (nm : Option Name) (x : Name) : (LOp.cells [(.archL lev nm : LOp E)]).count x = (archN .dcg nm).count x := by
  cases nm <;> rfl

/-! ### Building -/

/-- From `s` to `s'` with some calls, of which `k` are pushes; over the store, `hb` makes these calls. -/
structure Built (hb : HIters E → HR E M (HIters E)) (s s' : Iters E M) (k : Nat) (ops : List (LOp E)) : Prop where
  vals : s.raz.lops ops = .ok s'.raz
  heap : ∀ hz, hb ⟨hz, s.data, s.names, s.levels⟩ = HRaz.lops .dcg hz ops >>= fun z => Pure.pure ⟨z, s'.data, s'.names, s'.levels⟩
  adds : Adds ops
  count : pushes ops = k
  cells : Sub (LOp.cells ops ++ vecN .dcg s'.names) (vecN .dcg s.names)
  levels : ∀ l ∈ s'.levels, l ∈ s.levels

theorem Built.trans {hb hb' : HIters E → HR E M (HIters E)} {s s' s'' : Iters E M} {k k' : Nat} {ops ops' : List (LOp E)} (h : Built hb s s' k ops)
    (h' : Built hb' s' s'' k' ops') : Built (fun s => hb s >>= hb') s s'' (k + k') (ops ++ ops') := by
  refine ⟨?_, fun hz => ?_, h.adds.append h'.adds, by rw [pushes_append, h.count, h'.count], fun x => ?_, fun l hl => h.levels l (h'.levels l hl)⟩
  · rw [lops_append, h.vals]; exact h'.vals
  · simp only [h.heap, hlops_append, hbind_assoc, hpure_bind, h'.heap]
  · have h1 := h.cells x
    have h2 := h'.cells x
    rw [cells_append]
    simp only [List.count_append] at *
    omega

theorem Built.refl (s : Iters E M) : Built (fun s => Pure.pure s) s s 0 [] :=
  ⟨rfl, fun _ => rfl, .nil, rfl, fun x => by simp [LOp.cells], fun _ h => h⟩

/-- Whatever `body` does is done by `hb` with calls of which `k` are pushes. -/
def Builds (hb : HIters E → HR E M (HIters E)) (body : Iters E M → P (Iters E M)) (k : Nat) (Q : LOp E → Prop) : Prop :=
  ∀ s s', (∀ l ∈ s.levels, 1 ≤ l) → (∀ n ∈ s.names, ∀ l, Q (.archL l n)) → body s = .ok s' →
    (∀ n ∈ s'.names, n ∈ s.names) ∧ ∃ ops, Built hb s s' k ops ∧ ∀ op ∈ ops, Q op

theorem Builds.seq {hb hb' : HIters E → HR E M (HIters E)} {body body' : Iters E M → P (Iters E M)} {k k' : Nat} {Q : LOp E → Prop} (h : Builds hb body k Q)
    (h' : Builds hb' body' k' Q) : Builds (fun s => hb s >>= hb') (fun s => body s >>= body') (k + k') Q := by
  intro s s'' hl hq hs
  obtain ⟨s', e1, e2⟩ := bind_ok.1 hs
  obtain ⟨k1, ops, k2, k3⟩ := h s s' hl hq e1
  obtain ⟨k4, ops', k5, k6⟩ := h' s' s'' (fun l hl' => hl l (k2.levels l hl')) (fun n hn => hq n (k1 n hn)) e2
  exact ⟨fun n hn => k1 n (k4 n hn), ops ++ ops', k2.trans k5, fun op ho => (List.mem_append.1 ho).elim (k3 op) (k6 op)⟩

theorem Builds.loop {hb : HIters E → HR E M (HIters E)} {body : Iters E M → P (Iters E M)} {k : Nat} {Q : LOp E → Prop} (h : Builds hb body k Q) :
    ∀ n, Builds (forH n hb) (forN n body) (n * k) Q
  | 0 => by
    intro s s' _ _ hs
    cases hs
    rw [Nat.zero_mul]
    exact ⟨fun n hn => hn, [], Built.refl s, fun _ h => by cases h⟩
  | n + 1 => by
    rw [show (n + 1) * k = k + n * k by rw [Nat.succ_mul, Nat.add_comm]]
    exact h.seq (Builds.loop h n)

theorem Builds.loop' {hb : HIters E → HR E M (HIters E)} {body : Iters E M → P (Iters E M)} {k : Nat} {Q : LOp E → Prop} (n : Nat) (h : n ≠ 0 → Builds hb body k Q) :
    Builds (forH n hb) (forN n body) (n * k) Q := by
  cases n with
  | zero =>
    intro s s' _ _ hs
    cases hs
    rw [Nat.zero_mul]
    exact ⟨fun n hn => hn, [], Built.refl s, fun _ h => by cases h⟩
  | succ n => exact (h (by omega)).loop _

theorem push_builds {Q : LOp E → Prop} (hQ : ∀ x, Q (.pushL x)) : Builds (M := M) HEval.pushNext EvalRaz.pushNext 1 Q := by
  intro s s' _ _ hs
  obtain ⟨z, data, names, levels⟩ := s
  unfold EvalRaz.pushNext at hs
  rcases data with _ | ⟨x, data⟩
  · cases hs
  · cases hs
    refine ⟨fun n hn => hn, [.pushL x], ⟨rfl, fun hz => rfl, ?_, rfl, fun y => by simp [LOp.cells, LOp.name?], fun l hl => hl⟩, ?_⟩
    · intro op ho
      exact .inl ⟨x, by simpa using ho⟩
    · intro op ho
      obtain rfl : op = .pushL x := by simpa using ho
      exact hQ x

theorem archive_builds {Q : LOp E → Prop} : Builds (M := M) (HEval.archiveNext .dcg) EvalRaz.archiveNext 0 Q := by
  intro s s' h1 h2 hs
  obtain ⟨z, data, names, levels⟩ := s
  unfold EvalRaz.archiveNext at hs
  rcases levels with _ | ⟨l, levels⟩
  · cases hs
  · rcases names with _ | ⟨n, names⟩
    · cases hs
    · cases hs
      refine ⟨fun n hn => List.mem_cons_of_mem _ hn, [.archL l n], ⟨rfl, fun hz => ?_, ?_, rfl, fun y => ?_, fun l hl => List.mem_cons_of_mem _ hl⟩, ?_⟩
      · simp only [HEval.archiveNext, HRaz.lops, HRaz.lop, hbind_pure]
      · intro op ho
        exact .inr ⟨l, n, by simpa using ho, h1 l List.mem_cons_self⟩
      · rw [List.count_append, arch_cells]
        simp only [vecN, List.flatMap_cons, List.count_append]
        exact Nat.le_refl _
      · intro op ho
        obtain rfl : op = .archL l n := by simpa using ho
        exact h2 n List.mem_cons_self l

theorem none_builds {Q : LOp E → Prop} (hQ : ∀ l, Q (.archL l none)) : Builds (M := M) (HEval.archiveNone .dcg) EvalRaz.archiveNone 0 Q := by
  intro s s' h1 h2 hs
  obtain ⟨z, data, names, levels⟩ := s
  unfold EvalRaz.archiveNone at hs
  rcases levels with _ | ⟨l, levels⟩
  · cases hs
  · cases hs
    refine ⟨fun n hn => hn, [.archL l none], ⟨rfl, fun hz => ?_, ?_, rfl, fun y => ?_, fun l hl => List.mem_cons_of_mem _ hl⟩, ?_⟩
    · simp only [HEval.archiveNone, HRaz.lops, HRaz.lop, hbind_pure]
    · intro op ho
      exact .inr ⟨l, none, by simpa using ho, h1 l List.mem_cons_self⟩
    · simp [LOp.cells, LOp.name?]
    · intro op ho
      obtain rfl : op = .archL l none := by simpa using ho
      exact hQ l

/-- The harness over the store with the numbers of the harness on values. -/
def toH (s : EvalRaz E M G) (t : HTree M) : HEval M G := ⟨some t, s.names, s.coord, s.counter, s.datagauge, s.namegauge⟩

/-- The same without its tree. -/
def toH0 (s : EvalRaz E M G) : HEval M G := ⟨none, s.names, s.coord, s.counter, s.datagauge, s.namegauge⟩

omit [RazMeta E M] in
theorem initNames_eq : ∀ (k : Nat) {s s' : EvalRaz E M G} {ns}, s.raztree = none → EvalRaz.initNames k s = .ok (s', ns) →
    (toH0 s).initNames k = .ok (toH0 s', ns) ∧ s'.raztree = none ∧ vecN .dcg ns = numN .dcg s.names k ∧ s'.names = s.names + k ∧ s'.datagauge = s.datagauge ∧
      s'.namegauge = s.namegauge ∧ s'.coord = s.coord ∧ (s.namegauge = 1 → ∀ n ∈ ns, n.isSome = true)
  | 0, s, s', ns, h0, h => by cases h; exact ⟨rfl, h0, rfl, rfl, rfl, rfl, rfl, fun _ _ h => by cases h⟩
  | k + 1, s, s', ns, h0, h => by
    unfold EvalRaz.initNames at h
    obtain ⟨g, e1, h⟩ := bind_ok.1 h
    obtain ⟨⟨s1, n⟩, e2, h⟩ := bind_ok.1 h
    obtain ⟨⟨s2, ns'⟩, e3, hfin⟩ := bind_ok.1 h
    cases hfin
    unfold EvalRaz.nextName at e2
    obtain ⟨m, e4, hfin⟩ := bind_ok.1 e2
    cases hfin
    have e5 : m = s.names + 1 := by unfold addU at e4; split at e4 <;> cases e4; rfl
    subst e5
    obtain ⟨k1, k2, k3, k4, k5, k6, k7, k8⟩ := initNames_eq k (s := { s with names := s.names + 1 }) h0 e3
    refine ⟨?_, k2, ?_, by simp only at k4; omega, k5, k6, k7, ?_⟩
    · have e1' : subU (toH0 s : HEval M G).namegauge 1 = .ok g := e1
      have e4' : addU (toH0 s : HEval M G).names 1 = .ok (s.names + 1) := e4
      have k1' : HEval.initNames k { (toH0 s : HEval M G) with names := s.names + 1 } = .ok (toH0 s', ns') := k1
      simp only [HEval.initNames, HEval.nextName, e1', e4', bind, Except.bind, pure, Except.pure, k1']
      rfl
    · rw [vecN_replicate]
      show archN .dcg (some (.usize s.names)) ++ vecN .dcg ns' = archN .dcg (some (.usize s.names)) ++ numN .dcg (s.names + 1) k
      rw [k3]
    · intro hg n hn
      have : g = 0 := by unfold subU at e1; split at e1 <;> cases e1; omega
      subst this
      simp only [List.replicate_zero, List.nil_append, List.mem_cons] at hn
      rcases hn with rfl | hn
      · rfl
      · exact k8 hg n hn

omit [RazMeta E M] in
theorem editNames_eq : ∀ (k : Nat) {s s' : EvalRaz E M G} {ns}, s.raztree = none → EvalRaz.editNames k s = .ok (s', ns) →
    (toH0 s).editNames k = .ok (toH0 s', ns) ∧ s'.raztree = none ∧ vecN .dcg ns = numN .dcg s.names k ∧ s'.names = s.names + k ∧ s'.datagauge = s.datagauge ∧
      s'.namegauge = s.namegauge ∧ s'.coord = s.coord ∧ s'.counter = s.counter ∧ ns.length = k ∧ ∀ n ∈ ns, n.isSome = true
  | 0, s, s', ns, h0, h => by cases h; exact ⟨rfl, h0, rfl, rfl, rfl, rfl, rfl, rfl, rfl, fun _ h => by cases h⟩
  | k + 1, s, s', ns, h0, h => by
    unfold EvalRaz.editNames at h
    obtain ⟨⟨s1, n⟩, e2, h⟩ := bind_ok.1 h
    obtain ⟨⟨s2, ns'⟩, e3, hfin⟩ := bind_ok.1 h
    cases hfin
    unfold EvalRaz.nextName at e2
    obtain ⟨m, e4, hfin⟩ := bind_ok.1 e2
    cases hfin
    have e5 : m = s.names + 1 := by unfold addU at e4; split at e4 <;> cases e4; rfl
    subst e5
    obtain ⟨k1, k2, k3, k4, k5, k6, k7, k8, k9, k10⟩ := editNames_eq k (s := { s with names := s.names + 1 }) h0 e3
    refine ⟨?_, k2, ?_, by simp only at k4; omega, k5, k6, k7, k8, by simp [k9], ?_⟩
    · have e4' : addU (toH0 s : HEval M G).names 1 = .ok (s.names + 1) := e4
      have k1' : HEval.editNames k { (toH0 s : HEval M G) with names := s.names + 1 } = .ok (toH0 s', ns') := k1
      simp only [HEval.editNames, HEval.nextName, e4', bind, Except.bind, pure, Except.pure, k1']
      rfl
    · show archN .dcg (some (.usize s.names)) ++ vecN .dcg ns' = archN .dcg (some (.usize s.names)) ++ numN .dcg (s.names + 1) k
      rw [k3]
    · intro n hn
      rcases List.mem_cons.1 hn with rfl | hn
      · rfl
      · exact k10 n hn

theorem mulU_ok {a b c : Nat} (h : mulU a b = .ok c) : c = a * b := by unfold mulU at h; split at h <;> cases h; rfl
theorem addU_ok {a b c : Nat} (h : addU a b = .ok c) : c = a + b := by unfold addU at h; split at h <;> cases h; rfl
theorem subU_ok {a b c : Nat} (h : subU a b = .ok c) : b ≤ a ∧ c = a - b := by unfold subU at h; split at h <;> cases h; exact ⟨by assumption, rfl⟩
theorem divU_ok {a b c : Nat} (h : divU a b = .ok c) : b ≠ 0 ∧ c = a / b := by unfold divU at h; split at h <;> cases h; exact ⟨by assumption, rfl⟩

/-- Building a sequence is a list of calls. -/
theorem incInit_calls {C : Coord G E} {word : R → BitVec 64 × R} {size dg ng : Nat} {coord : G} {rng rng' : R} {s : EvalRaz E M G}
    (h : EvalRaz.incInit C word size dg ng coord rng = .ok (s, rng')) :
    ∃ ops z t, (Raz.new : Raz E M).lops ops = .ok z ∧ z.unfocus = .ok t ∧ s.raztree = some t ∧ Adds ops ∧ pushes ops = size ∧
      Sub (LOp.cells ops) (numN .dcg 0 s.names) ∧ (ng = 1 → ∀ op ∈ ops, op.Titles) ∧ s.datagauge = dg ∧ s.namegauge = ng ∧
      (HEval.incInit .dcg C word size dg ng coord rng : HR E M _) =
        HRaz.lops .dcg HRaz.new ops >>= fun z => z.unfocus .dcg >>= fun t => Pure.pure (toH s t, rng') := by
  unfold EvalRaz.incInit at h
  obtain ⟨a1, e1, h⟩ := bind_ok.1 h
  obtain ⟨names, e2, h⟩ := bind_ok.1 h
  obtain ⟨levels, e3, h⟩ := bind_ok.1 h
  obtain ⟨a2, e4, h⟩ := bind_ok.1 h
  obtain ⟨a3, e5, h⟩ := bind_ok.1 h
  obtain ⟨nonames, e6, h⟩ := bind_ok.1 h
  obtain ⟨units, e7, h⟩ := bind_ok.1 h
  obtain ⟨a4, e8, h⟩ := bind_ok.1 h
  obtain ⟨nounits, e9, h⟩ := bind_ok.1 h
  obtain ⟨⟨s1, ns⟩, e10, h⟩ := bind_ok.1 h
  obtain ⟨i1, e11, h⟩ := bind_ok.1 h
  obtain ⟨i2, e12, h⟩ := bind_ok.1 h
  obtain ⟨i3, e13, h⟩ := bind_ok.1 h
  obtain ⟨t, e14, hfin⟩ := bind_ok.1 h
  cases hfin
  obtain ⟨n1, n2, n3, n4, n5, n6, n7, n8⟩ := initNames_eq names rfl e10
  have m1 := mulU_ok e1
  have m2 := divU_ok e2
  have m4 := mulU_ok e4
  have m5 := mulU_ok e5
  have m6 := subU_ok e6
  have m7 := divU_ok e7
  have m8 := mulU_ok e8
  have m9 := subU_ok e9
  simp only [EvalRaz.new] at m1 m2 m4 m5 m6 m7 m8 m9 n1 n3 n4 n5 n6 n7 n8
  have hQ : ∀ n ∈ ns, ∀ l, (fun op : LOp E => ng = 1 → op.Titles) (.archL l n) := fun n hn l hg => n8 hg n hn
  have loop1 := ((Builds.loop (((push_builds (M := M) (Q := fun op : LOp E => ng = 1 → op.Titles) (fun x _ => trivial)).loop s1.datagauge).seq archive_builds)
    s1.namegauge).loop names)
  have loop2 := Builds.loop' units (fun hu => ((push_builds (M := M) (Q := fun op : LOp E => ng = 1 → op.Titles) (fun x _ => trivial)).loop s1.datagauge).seq
    (none_builds (fun l hg => by
      exfalso
      subst hg
      rw [Nat.one_mul] at m1
      rw [Nat.mul_one] at m4
      refine hu ?_
      have hlt : nonames < dg := by
        have := Nat.div_add_mod size dg
        have := Nat.mod_lt size (Nat.pos_of_ne_zero m7.1)
        rw [m6.2, m5, m4, m2.2, m1, Nat.mul_comm]
        omega
      rw [m7.2, Nat.div_eq_of_lt hlt])))
  have loop3 := (push_builds (M := M) (Q := fun op : LOp E => ng = 1 → op.Titles) (fun x _ => trivial)).loop nounits
  obtain ⟨-, ops, b1, b2⟩ := (loop1.seq (loop2.seq loop3)) _ i3 (genLevels_pos word levels rng) hQ (bind_ok.2 ⟨i1, e11, bind_ok.2 ⟨i2, e12, e13⟩⟩)
  refine ⟨ops, i3.raz, t, b1.vals, e14, rfl, b1.adds, ?_, ?_, fun hg op ho => b2 op ho hg, n5, n6, ?_⟩
  · rw [b1.count, n5, n6, Nat.mul_one, Nat.mul_one, Nat.add_zero, ← Nat.mul_assoc]
    rw [m4] at m5
    omega
  · intro x
    have := b1.cells x
    simp only [List.count_append] at this
    rw [n3] at this
    simp only [n4, Nat.zero_add]
    omega
  · have heap := b1.heap HRaz.new
    unfold HEval.incInit
    have g : ∀ k : HIters E → HR E M (HEval M G × R), _ := fun k => congrArg (fun m => m >>= k) heap
    simp only [hbind_assoc, hpure_bind] at g
    have e1' : mulU (HEval.new dg ng coord : HEval M G).namegauge (HEval.new dg ng coord : HEval M G).datagauge = .ok a1 := e1
    have e3' : divU size (HEval.new dg ng coord : HEval M G).datagauge = .ok levels := e3
    have e4' : mulU names (HEval.new dg ng coord : HEval M G).namegauge = .ok a2 := e4
    have e5' : mulU a2 (HEval.new dg ng coord : HEval M G).datagauge = .ok a3 := e5
    have e7' : divU nonames (HEval.new dg ng coord : HEval M G).datagauge = .ok units := e7
    have e8' : mulU units (HEval.new dg ng coord : HEval M G).datagauge = .ok a4 := e8
    have n1' : HEval.initNames names (HEval.new dg ng coord : HEval M G) = .ok (toH0 s1, ns) := n1
    simp only [e1', e2, e3', e4', e5', e6, e7', e8', e9, n1', hlift_bind]
    exact g (fun s => s.raz.unfocus .dcg >>= fun t => Pure.pure (_, _))

/-! ### Editing -/

omit [RazMeta E M] in
theorem mem_cons_all {A : Type} {Q : A → Prop} {a : A} {l : List A} (h : Q a) (h' : ∀ x ∈ l, Q x) : ∀ x ∈ a :: l, Q x := fun x hx => by
  rcases List.mem_cons.1 hx with rfl | hx
  · exact h
  · exact h' x hx

/-- The insertion loop is a list of calls. -/
theorem editLoop_calls {dg ng : Nat} : ∀ {xs : List E} {z z' : Raz E M} {c c' : Nat} {ls : List Nat} {ns : List (Option Name)}, (∀ l ∈ ls, 1 ≤ l) →
    EvalRaz.editLoop dg ng xs z c ls ns = .ok (z', c') → ∃ ops, z.lops ops = .ok z' ∧ Adds ops ∧ pushes ops = xs.length ∧
      Sub (LOp.cells ops) (vecN .dcg ns) ∧ LOp.points ops ≤ ns.length ∧ (ng = 1 → (∀ n ∈ ns, n.isSome = true) → ∀ op ∈ ops, op.Titles) ∧
      ∀ hz, (HEval.editLoop .dcg dg ng xs hz c ls ns : HR E M _) = HRaz.lops .dcg hz ops >>= fun z => Pure.pure (z, c')
  | [], z, z', c, c', ls, ns, _, h => by
    cases h
    exact ⟨[], rfl, .nil, rfl, fun x => Nat.zero_le _, Nat.zero_le _, fun _ _ _ h => (by cases h), fun hz => rfl⟩
  | x :: xs, z, z', c, c', ls, ns, hl, h => by
    unfold EvalRaz.editLoop at h
    obtain ⟨c1, e1, h⟩ := bind_ok.1 h
    obtain ⟨a, e2, h⟩ := bind_ok.1 h
    obtain ⟨r, e3, h⟩ := bind_ok.1 h
    have hp : (∃ y, (LOp.pushL x : LOp E) = .pushL y) ∨ ∃ lev nm, (LOp.pushL x : LOp E) = .archL lev nm ∧ 1 ≤ lev := .inl ⟨x, rfl⟩
    split at h
    · rename_i hr
      rcases ls with _ | ⟨l, ls⟩
      · cases h
      · rcases ns with _ | ⟨n, ns⟩
        · cases h
        · obtain ⟨ops, k1, k2, k3, k4, k5, k6, k7⟩ := editLoop_calls (fun l hl' => hl l (List.mem_cons_of_mem _ hl')) h
          refine ⟨.pushL x :: .archL l n :: ops, k1, mem_cons_all hp (mem_cons_all (.inr ⟨l, n, rfl, hl l List.mem_cons_self⟩) k2), by simp [pushes, k3],
            fun y => ?_, ?_, fun hg hn => mem_cons_all trivial (mem_cons_all (hn n List.mem_cons_self) (k6 hg fun n hn' => hn n (List.mem_cons_of_mem _ hn'))),
            fun hz => ?_⟩
          · have e : LOp.cells (.pushL x :: .archL l n :: ops) = LOp.cells [(.archL l n : LOp E)] ++ LOp.cells ops := by simp [LOp.cells, LOp.name?]
            rw [e, List.count_append, arch_cells]
            have := k4 y
            simp only [vecN, List.flatMap_cons, List.count_append] at this ⊢
            omega
          · cases n <;> simp [LOp.points, LOp.name?] at k5 ⊢ <;> omega
          · unfold HEval.editLoop
            simp only [e1, e2, e3, hlift_bind, hr, if_true, HRaz.lops, HRaz.lop, hbind_assoc, hpure_bind, k7]
    · rename_i hr
      obtain ⟨r', e4, h⟩ := bind_ok.1 h
      split at h
      · rename_i hr'
        rcases ls with _ | ⟨l, ls⟩
        · cases h
        · obtain ⟨ops, k1, k2, k3, k4, k5, k6, k7⟩ := editLoop_calls (fun l hl' => hl l (List.mem_cons_of_mem _ hl')) h
          refine ⟨.pushL x :: .archL l none :: ops, k1, mem_cons_all hp (mem_cons_all (.inr ⟨l, none, rfl, hl l List.mem_cons_self⟩) k2), by simp [pushes, k3],
            fun y => ?_, ?_, fun hg _ => ?_, fun hz => ?_⟩
          · have e : LOp.cells (.pushL x :: .archL l none :: ops) = LOp.cells ops := by simp [LOp.cells, LOp.name?]
            rw [e]
            exact k4 y
          · simpa [LOp.points, LOp.name?] using k5
          · exfalso
            subst hg
            have := mulU_ok e2
            rw [Nat.one_mul] at this
            subst this
            rw [e3] at e4
            cases e4
            exact hr hr'
          · unfold HEval.editLoop
            simp only [e1, e2, e3, e4, hlift_bind, hr, hr', if_false, if_true, HRaz.lops, HRaz.lop, hbind_assoc, hpure_bind, k7]
      · rename_i hr'
        obtain ⟨ops, k1, k2, k3, k4, k5, k6, k7⟩ := editLoop_calls hl h
        refine ⟨.pushL x :: ops, k1, mem_cons_all hp k2, by simp [pushes, k3], fun y => ?_, ?_, fun hg hn => mem_cons_all trivial (k6 hg hn), fun hz => ?_⟩
        · have e : LOp.cells (.pushL x :: ops) = LOp.cells ops := by simp [LOp.cells, LOp.name?]
          rw [e]
          exact k4 y
        · simpa [LOp.points, LOp.name?] using k5
        · unfold HEval.editLoop
          simp only [e1, e2, e3, e4, hlift_bind, hr, hr', if_false, HRaz.lops, HRaz.lop, hpure_bind, k7]

omit [RazMeta E M] in
theorem genData_length (C : Coord G E) : ∀ (n : Nat) (g : G), (genData C n g).1.length = n
  | 0, _ => rfl
  | n + 1, g => by simp [genData, genData_length C n]

/-- The common part of the edits is a list of calls. -/
theorem editAt_calls {C : Coord G E} {word : R → BitVec 64 × R} {s s' : EvalRaz E M G} (h0 : s.raztree = none) {z : Raz E M} {batch : Nat} {rng rng' : R}
    (h : EvalRaz.editAt C word s z batch rng = .ok (s', rng')) :
    ∃ ops z' t k, z.lops ops = .ok z' ∧ z'.unfocus = .ok t ∧ s'.raztree = some t ∧ Adds ops ∧ pushes ops = batch ∧ s'.names = s.names + k ∧
      Sub (LOp.cells ops) (numN .dcg s.names k) ∧ LOp.points ops ≤ batch / (s.namegauge * s.datagauge) + 1 ∧ (s.namegauge = 1 → ∀ op ∈ ops, op.Titles) ∧
      s'.datagauge = s.datagauge ∧ s'.namegauge = s.namegauge ∧
      ∀ hz, (HEval.editAt .dcg C word (toH0 s) hz batch rng : HR E M _) =
        HRaz.lops .dcg hz ops >>= fun z => z.unfocus .dcg >>= fun t => Pure.pure (toH s' t, rng') := by
  unfold EvalRaz.editAt at h
  obtain ⟨a1, e1, h⟩ := bind_ok.1 h
  obtain ⟨a2, e2, h⟩ := bind_ok.1 h
  obtain ⟨a3, e3, h⟩ := bind_ok.1 h
  obtain ⟨a4, e4, h⟩ := bind_ok.1 h
  obtain ⟨a5, e5, h⟩ := bind_ok.1 h
  obtain ⟨⟨s1, ns⟩, e6, h⟩ := bind_ok.1 h
  obtain ⟨⟨z1, c1⟩, e7, h⟩ := bind_ok.1 h
  obtain ⟨t, e8, hfin⟩ := bind_ok.1 h
  cases hfin
  obtain ⟨n1, n2, n3, n4, n5, n6, n7, n8, n9, n10⟩ := editNames_eq a5 h0 e6
  obtain ⟨ops, k1, k2, k3, k4, k5, k6, k7⟩ := editLoop_calls (genLevels_pos word a2 rng) e7
  have m3 := mulU_ok e3
  have m4 := divU_ok e4
  have m5 := addU_ok e5
  refine ⟨ops, z1, t, a5, k1, e8, rfl, k2, by rw [k3, genData_length], n4, by rw [← n3]; exact k4, ?_, fun hg => k6 (by rw [n6]; exact hg) n10, n5, n6, fun hz => ?_⟩
  · rw [← m3, ← m4.2, ← m5, ← n9]
    exact k5
  · unfold HEval.editAt
    have e1' : divU batch (toH0 s : HEval M G).datagauge = .ok a1 := e1
    have e3' : mulU (toH0 s : HEval M G).namegauge (toH0 s : HEval M G).datagauge = .ok a3 := e3
    simp only [e1', e2, e3', e4, e5, n1, hlift_bind]
    have k7' := k7 hz
    simp only [toH0] at k7' ⊢
    rw [k7', hbind_assoc]
    rfl

/-- An edit of the harness with `batch` elements is an edit by local calls. -/
def Calls (edit : HEval M G → R → HR E M (HEval M G × R)) (edit' : EvalRaz E M G → R → P (EvalRaz E M G × R)) (batch : Nat) : Prop :=
  ∀ s t rng s' rng', s.raztree = some t → edit' s rng = .ok (s', rng') → ∃ i ops t' k, t.edit i ops = .ok t' ∧ s'.raztree = some t' ∧ Adds ops ∧
    pushes ops = batch ∧ s'.names = s.names + k ∧ Sub (LOp.cells ops) (numN .dcg s.names k) ∧ LOp.points ops ≤ batch / (s.namegauge * s.datagauge) + 1 ∧
    (s.namegauge = 1 → ∀ op ∈ ops, op.Titles) ∧ s'.datagauge = s.datagauge ∧ s'.namegauge = s.namegauge ∧
    ∀ ht, ht.info = t.info → ∀ f σ ht' σ', ht.edit .dcg i ops f σ = .ok (ht', σ') → edit (toH s ht) rng f σ = .ok ((toH s' ht', rng'), σ')

/-- `focus` and then the common part. -/
theorem focus_calls {C : Coord G E} {word : R → BitVec 64 × R} {s s' : EvalRaz E M G} (h0 : s.raztree = none) {t : RazTree E M} {i : RazMeta.Index E M}
    {batch : Nat} {rng rng' : R} {k : Option (HRaz E) → HR E M (HEval M G × R)} {kx : Option (Raz E M) → P (EvalRaz E M G × R)}
    (k1 : ∀ z, k (some z) = HEval.editAt .dcg C word (toH0 s) z batch rng) (x0 : kx none = .error .explicit)
    (x1 : ∀ z, kx (some z) = EvalRaz.editAt C word s z batch rng) (h : (t.focus i >>= kx) = .ok (s', rng')) :
    ∃ ops t' k', t.edit i ops = .ok t' ∧ s'.raztree = some t' ∧ Adds ops ∧ pushes ops = batch ∧ s'.names = s.names + k' ∧
      Sub (LOp.cells ops) (numN .dcg s.names k') ∧ LOp.points ops ≤ batch / (s.namegauge * s.datagauge) + 1 ∧ (s.namegauge = 1 → ∀ op ∈ ops, op.Titles) ∧
      s'.datagauge = s.datagauge ∧ s'.namegauge = s.namegauge ∧
      ∀ ht : HTree M, ∀ f σ ht' σ', ht.edit .dcg i ops f σ = .ok (ht', σ') → (ht.focus i >>= k) f σ = .ok ((toH s' ht', rng'), σ') := by
  obtain ⟨o, e1, h⟩ := bind_ok.1 h
  cases o with
  | none => rw [x0] at h; cases h
  | some z =>
    rw [x1] at h
    obtain ⟨ops, z', t', k', c1, c2, c3, c4, c5, c6, c7, c8, c9, c10, c11, c12⟩ := editAt_calls h0 h
    refine ⟨ops, t', k', bind_ok.2 ⟨_, e1, bind_ok.2 ⟨z, rfl, bind_ok.2 ⟨z', c1, c2⟩⟩⟩, c3, c4, c5, c6, c7, c8, c9, c10, c11, ?_⟩
    intro ht f σ ht' σ' he
    unfold HTree.edit at he
    simp only [Bind.bind] at he ⊢
    cases hf : (ht.focus i : HR E M _) f σ with
    | error q => rw [hf] at he; cases he
    | ok p =>
      obtain ⟨o, σ1⟩ := p
      rw [hf] at he
      cases o with
      | none => cases he
      | some hz =>
        simp only [unwrap, liftP] at he
        simp only [k1, c12, Bind.bind]
        cases hl : (HRaz.lops .dcg hz ops : HR E M _) f σ1 with
        | error q => rw [hl] at he; cases he
        | ok p =>
          obtain ⟨z2, σ2⟩ := p
          rw [hl] at he
          simp only at he ⊢
          rw [he]
          rfl

theorem insert_calls (C : Coord G E) (word : R → BitVec 64 × R) (b : Nat) : Calls (HEval.insert .dcg C word b) (fun s rng => EvalIRaz.insert C word s b rng) b := by
  intro s t rng s' rng' ht h
  simp only [EvalIRaz.insert, ht] at h
  obtain ⟨loc, e1, h⟩ := bind_ok.1 h
  obtain ⟨ops, t', k, c⟩ := focus_calls (s := { s with coord := (C.pos s.coord).2, raztree := none }) rfl
    (k := fun o => match o with
      | none => liftP (.error .explicit)
      | some raz => HEval.editAt .dcg C word (toH0 { s with coord := (C.pos s.coord).2, raztree := none }) raz b rng) (fun _ => rfl) rfl (fun _ => rfl) h
  obtain ⟨c1, c2, c3, c4, c5, c6, c7, c8, c9, c10, c11⟩ := c
  refine ⟨_, ops, t', k, c1, c2, c3, c4, c5, c6, c7, c8, c9, c10, ?_⟩
  intro ht hi f σ ht' σ' he
  have := c11 ht f σ ht' σ' he
  simp only [HEval.insert, toH, hi] at this ⊢
  rw [e1, hlift_bind]
  exact this

theorem append_calls (C : Coord G E) (word : R → BitVec 64 × R) (b : Nat) : Calls (HEval.append .dcg C word b) (fun s rng => EvalIRaz.append C word s b rng) b := by
  intro s t rng s' rng' ht h
  simp only [EvalIRaz.append, ht] at h
  obtain ⟨ops, t', k, c⟩ := focus_calls (s := { s with raztree := none }) rfl
    (k := fun o => match o with
      | none => liftP (.error .explicit)
      | some raz => HEval.editAt .dcg C word (toH0 { s with raztree := none }) raz b rng) (fun _ => rfl) rfl (fun _ => rfl) h
  obtain ⟨c1, c2, c3, c4, c5, c6, c7, c8, c9, c10, c11⟩ := c
  refine ⟨_, ops, t', k, c1, c2, c3, c4, c5, c6, c7, c8, c9, c10, ?_⟩
  intro ht hi f σ ht' σ' he
  have := c11 ht f σ ht' σ' he
  simp only [HEval.append, toH, hi] at this ⊢
  exact this

theorem insertAtName_calls (C : Coord G E) (word : R → BitVec 64 × R) (order : R → List Name → List Name) (b : Nat) :
    Calls (fun s rng => HEval.insertAtName .dcg C word (order rng) b s rng) (fun s rng => EvalRazNameIndex.insert C word (order rng) s b rng) b := by
  intro s t rng s' rng' ht h
  simp only [EvalRazNameIndex.insert, ht] at h
  obtain ⟨i, e1, h⟩ := bind_ok.1 h
  obtain ⟨loc, e2, h⟩ := bind_ok.1 h
  obtain ⟨ops, t', k, c⟩ := focus_calls (s := { s with coord := (C.pos s.coord).2, raztree := none }) rfl
    (k := fun o => match o with
      | none => liftP (.error .explicit)
      | some raz => HEval.editAt .dcg C word (toH0 { s with coord := (C.pos s.coord).2, raztree := none }) raz b rng) (fun _ => rfl) rfl (fun _ => rfl) h
  obtain ⟨c1, c2, c3, c4, c5, c6, c7, c8, c9, c10, c11⟩ := c
  refine ⟨_, ops, t', k, c1, c2, c3, c4, c5, c6, c7, c8, c9, c10, ?_⟩
  intro ht hi f σ ht' σ' he
  have := c11 ht f σ ht' σ' he
  simp only [HEval.insertAtName, toH, hi] at this ⊢
  rw [e1, hlift_bind, e2, hlift_bind]
  exact this

theorem appendLast_calls (C : Coord G E) (word : R → BitVec 64 × R) (b : Nat) :
    Calls (HEval.appendLast .dcg C word b) (fun s rng => EvalRazNameIndex.append C word s b rng) b := by
  intro s t rng s' rng' ht h
  simp only [EvalRazNameIndex.append, ht] at h
  obtain ⟨ops, t', k, c⟩ := focus_calls (s := { s with raztree := none }) rfl
    (k := fun o => match o with
      | none => liftP (.error .explicit)
      | some raz => HEval.editAt .dcg C word (toH0 { s with raztree := none }) raz b rng) (fun _ => rfl) rfl (fun _ => rfl) h
  obtain ⟨c1, c2, c3, c4, c5, c6, c7, c8, c9, c10, c11⟩ := c
  refine ⟨_, ops, t', k, c1, c2, c3, c4, c5, c6, c7, c8, c9, c10, ?_⟩
  intro ht hi f σ ht' σ' he
  have := c11 ht f σ ht' σ' he
  simp only [HEval.appendLast, toH] at this ⊢
  exact this

end Heap
end Iodyn
