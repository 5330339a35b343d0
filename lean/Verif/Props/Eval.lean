import Verif.Proof.Eval
import Verif.Props.Fold
import Verif.Props.Focus
import Verif.Props.Meta
import Verif.Props.Examples
/-
C44, C45, C50, C51, C52: the test harnesses of the evaluation suite.
-/
namespace Iodyn.Eval
variable {E M G R : Type}

/-! ### Example generators -/

/-- A counter as coordinating generator: elements are successive numbers, positions are 7 times the number. -/
def exCoord : Coord Nat Nat := ⟨fun g => (g, g + 1), fun g => (7 * g, g + 1)⟩
/-- A counter as source of levels. -/
def exWord (r : Nat) : BitVec 64 × Nat := (BitVec.ofNat 64 r, r + 1)

/-! ### C44: construction -/

theorem stamped_last (dg q lv nm c) (data : List E) (e : E) :
    stamped dg q lv nm c (data ++ [e]) = stamped dg q lv nm c data ++ (.elem e :: if (c + data.length + 1) % dg = 0 then
      [.pend (lv ((c + data.length + 1) / dg))
        (if (c + data.length + 1) % q = 0 then some (nm ((c + data.length + 1) / q)) else none)] else []) := by
  rw [stamped_append, stamped_cons]
  simp [stamped]

theorem dropEnd_sublist (l : List (Item E)) : List.Sublist (dropEnd l) l := by
  unfold dropEnd
  split
  · rename_i i r h
    split
    · rw [show l = (i :: r).reverse by rw [← h, List.reverse_reverse]]
      simp
    · exact List.Sublist.refl _
  · exact List.Sublist.refl _

theorem dropEnd_append {a b : List (Item E)} (hb : b ≠ []) : dropEnd (a ++ b) = a ++ dropEnd b := by
  obtain ⟨b, i, rfl⟩ := (List.eq_nil_or_concat b).resolve_left hb
  rw [List.concat_eq_append]
  cases i <;> simp [dropEnd, Item.isMark]

theorem stamped_ne_nil (dg q lv nm c) {data : List E} (h : data ≠ []) : stamped dg q lv nm c data ≠ [] := by
  rcases data with _ | ⟨e, es⟩
  · exact absurd rfl h
  · rw [stamped_cons]; simp

/-- Gluing with nothing on the right loses only a final archive point. -/
theorem glue_dropEnd (l : List (Item E)) : glue l [] = dropEnd l.reverse := by
  rcases l with _ | ⟨i, l⟩
  · rfl
  · simp [glue, dropEnd]

/-- **C44.** Building an initial sequence succeeds for all sizes, gauges of at least 1 and random streams; the sequence
has exactly the generated elements, in order. There is an archive point after every `datagauge` elements, with the
generated levels in order, and every `namegauge`-th archive point is named, with increasing numbers; an archive point
at the very end is dropped. -/
theorem C44_init [RazMeta E M] {u : Usage} (C : Coord G E) (word : R → BitVec 64 × R) (size dg ng : Nat) (coord : G) (rng : R)
    (hd : dg ≠ 0) (hn : ng ≠ 0) (hq : ng * dg ≤ usizeMax) (hs : size ≤ usizeMax) :
    ∃ (s : EvalRaz E M G) (t : RazTree E M),
      EvalRaz.incInit C word size dg ng coord rng = .ok (s, after word rng (size / dg)) ∧ s.raztree = some t ∧
      t.Reachable u ∧ t.elems = draws C.elem coord size ∧
      t.items = (dropEnd (stamped dg (ng * dg) (fun i => genBranchLevel (draw word rng (i - 1))) (fun i => .usize (i - 1)) 0
        (draws C.elem coord size))).map Item.settle ∧
      s.names = size / (ng * dg) ∧ s.coord = after C.elem coord size ∧ s.counter = 0 ∧ s.datagauge = dg ∧ s.namegauge = ng := by
  obtain ⟨s, z, t, h1, h2, h3, h4, h5, h6, h7, h8, h9⟩ := incInit_spec (u := u) (M := M) C word size dg ng coord rng hd hn hq hs
  obtain ⟨t', e1, -, e3⟩ := unfocus_inv (Reach.z h4.reach).inv
  rw [h3] at e1
  cases e1
  have el : (Raz.new : Raz E M).left = [] := rfl
  have er : (Raz.new : Raz E M).right = [] := rfl
  have e4 := e3
  rw [h4.left, h4.right, el, er, List.append_nil, glue_dropEnd, List.reverse_reverse] at e4
  refine ⟨s, t, h1, h2, .unfocus h4.reach h3, ?_, e4, h5, h7, h6, h8, h9⟩
  rw [RazTree.elems, e3, elemsOf_settle, glue_elems, h4.left, h4.right, el, er]
  simp [elemsOf]
  rw [← elemsOf, elemsOf_stamped]

/-- **C44.** Zero gauges and gauges whose product overflows are the only causes of failure. -/
theorem C44_init_iff [RazMeta E M] (C : Coord G E) (word : R → BitVec 64 × R) (size dg ng : Nat) (coord : G) (rng : R)
    (hs : size ≤ usizeMax) :
    (∃ r, (EvalRaz.incInit C word size dg ng coord rng : P (EvalRaz E M G × R)) = .ok r) ↔ dg ≠ 0 ∧ ng ≠ 0 ∧ ng * dg ≤ usizeMax := by
  constructor
  · rintro ⟨r, hr⟩
    simp only [EvalRaz.incInit, EvalRaz.new] at hr
    by_cases hq : ng * dg ≤ usizeMax
    · simp only [mulU, if_pos hq, bind, Except.bind] at hr
      by_cases h0 : ng * dg = 0
      · simp [divU, h0] at hr
      · exact ⟨fun h => h0 (by rw [h, Nat.mul_zero]), fun h => h0 (by rw [h, Nat.zero_mul]), hq⟩
    · simp only [mulU, if_neg hq, bind, Except.bind] at hr
      cases hr
  · rintro ⟨hd, hn, hq⟩
    obtain ⟨s, t, h, -⟩ := C44_init (M := M) (u := .edit) C word size dg ng coord rng hd hn hq hs
    exact ⟨_, h⟩

example : ∃ (s : EvalRaz Nat Count Nat) (t : RazTree Nat Count),
    EvalRaz.incInit exCoord exWord 7 2 2 5 0 = .ok (s, 3) ∧ s.raztree = some t ∧ t.elems = [5, 6, 7, 8, 9, 10, 11] ∧
    t.items = [.elem 5, .elem 6, .mark 64 none, .elem 7, .elem 8, .mark 1 (some (.pair (.usize 0) (.str "tree"))), .elem 9, .elem 10,
      .mark 2 none, .elem 11] := by
  obtain ⟨s, t, h1, h2, -, h4, h5, -⟩ := C44_init (M := Count) (u := .edit) exCoord exWord 7 2 2 5 0 (by decide) (by decide)
    (by decide) (by decide)
  refine ⟨s, t, h1, h2, h4, ?_⟩
  rw [h5]
  decide +kernel

/-! ### C45: batches by index -/

/-- What a batch edit does to the two sides of the cursor it starts from. -/
theorem editAt_result [RazMeta E M] {u : Usage} (C : Coord G E) (word : R → BitVec 64 × R) (s : EvalRaz E M G) {z : Raz E M}
    (hz : z.Reachable u) (batch : Nat) (rng : R) (hf : Fits s batch) :
    ∃ s' t, EvalRaz.editAt C word s z batch rng = .ok (s', after word rng (batch / s.datagauge + 1)) ∧ s'.raztree = some t ∧
      t.Reachable u ∧ t.elems = z.leftElems.reverse ++ draws C.elem s.coord batch ++ z.rightElems ∧
      t.items = (glue ((stamped s.datagauge (s.namegauge * s.datagauge)
        (fun i => genBranchLevel (draw word rng (i - (s.counter / s.datagauge + 1))))
        (fun i => .usize (s.names + (i - (s.counter / (s.namegauge * s.datagauge) + 1)))) s.counter
        (draws C.elem s.coord batch)).reverse ++ z.left) z.right).map Item.settle ∧
      s'.names = s.names + (batch / (s.namegauge * s.datagauge) + 1) ∧ s'.counter = s.counter + batch ∧
      s'.coord = after C.elem s.coord batch ∧ s'.datagauge = s.datagauge ∧ s'.namegauge = s.namegauge := by
  obtain ⟨s', z', t, h1, h2, h3, h4, h5⟩ := editAt_spec C word s hz batch rng hf.datagauge hf.namegauge hf.gauges hf.counter
    hf.small hf.names
  obtain ⟨t', e1, -, e3⟩ := unfocus_inv (Reach.z h4.reach).inv
  rw [h3] at e1
  cases e1
  refine ⟨s', t, h1, h2, .unfocus h4.reach h3, ?_, ?_, h5⟩
  · rw [RazTree.elems, e3, elemsOf_settle, glue_elems, h4.left, h4.right, Raz.leftElems, Raz.rightElems]
    simp only [elemsOf, List.filterMap_append, List.reverse_append, List.filterMap_reverse, List.reverse_reverse]
    congr 2
    exact elemsOf_stamped ..
  · rw [e3, h4.left, h4.right]

/-- **C45.** Inserting a batch of any size at the drawn position gives the old sequence with the generated elements
inserted there, in generation order. -/
theorem C45_insert {u : Usage} (C : Coord G E) (word : R → BitVec 64 × R) {s : EvalRaz E Count G} {t : RazTree E Count}
    (ht : s.raztree = some t) (hr : t.Reachable u) (hne : t.elems ≠ []) (hlen : t.elems.length ≤ usizeMax) (batch : Nat) (rng : R)
    (hf : Fits s batch) :
    ∃ s' t', EvalIRaz.insert C word s batch rng = .ok (s', after word rng (batch / s.datagauge + 1)) ∧ s'.raztree = some t' ∧
      t'.Reachable u ∧
      (t'.elems, s'.coord) = (Edit.insert batch).spec C (t.elems, s.coord) ∧
      s'.names = s.names + (batch / (s.namegauge * s.datagauge) + 1) ∧ s'.counter = s.counter + batch ∧
      s'.datagauge = s.datagauge ∧ s'.namegauge = s.namegauge := by
  have hl : t.elems.length ≠ 0 := fun h => hne (List.length_eq_zero_iff.1 h)
  have hlt := Nat.mod_lt (C.pos s.coord).1 (Nat.pos_of_ne_zero hl)
  have cnt := C07_count hr.any
  obtain ⟨z, f1, f2, f3⟩ := C03_focus_index hr.any (i := (C.pos s.coord).1 % t.elems.length) (by omega) (by omega)
  have hz : z.Reachable u := .focus hr f1
  obtain ⟨s', t', h1, h2, h3, h4, -, h6, h7, h8, h9, h10⟩ := editAt_result C word
    { s with coord := (C.pos s.coord).2, raztree := none } hz batch rng ⟨hf.1, hf.2, hf.3, hf.4, hf.5, hf.6⟩
  refine ⟨s', t', ?_, h2, h3, ?_, h6, h7, h9, h10⟩
  · rw [← h1]
    simp only [EvalIRaz.insert, ht, remU, cnt, if_neg hl, bind, Except.bind, f1]
  · rw [h4, h8, f2, f3]
    simp [Edit.spec]

/-- **C45.** Appending a batch of any size. -/
theorem C45_append {u : Usage} (C : Coord G E) (word : R → BitVec 64 × R) {s : EvalRaz E Count G} {t : RazTree E Count}
    (ht : s.raztree = some t) (hr : t.Reachable u) (hlen : t.elems.length < usizeMax) (batch : Nat) (rng : R) (hf : Fits s batch) :
    ∃ s' t', EvalIRaz.append C word s batch rng = .ok (s', after word rng (batch / s.datagauge + 1)) ∧ s'.raztree = some t' ∧
      t'.Reachable u ∧
      (t'.elems, s'.coord) = (Edit.append batch).spec C (t.elems, s.coord) ∧
      s'.names = s.names + (batch / (s.namegauge * s.datagauge) + 1) ∧ s'.counter = s.counter + batch ∧
      s'.datagauge = s.datagauge ∧ s'.namegauge = s.namegauge := by
  have cnt := C07_count hr.any
  obtain ⟨z, f1, f2, f3⟩ := C03_focus_index hr.any (i := t.elems.length) (Nat.le_refl _) hlen
  have hz : z.Reachable u := .focus hr f1
  obtain ⟨s', t', h1, h2, h3, h4, -, h6, h7, h8, h9, h10⟩ := editAt_result C word
    { s with raztree := none } hz batch rng ⟨hf.1, hf.2, hf.3, hf.4, hf.5, hf.6⟩
  refine ⟨s', t', ?_, h2, h3, ?_, h6, h7, h9, h10⟩
  · rw [← h1]
    simp only [EvalIRaz.append, ht, cnt, bind, Except.bind, f1]
  · rw [h4, h8, f2, f3]
    simp [Edit.spec]

/-- **C45.** Inserting into an empty sequence panics (remainder by zero). -/
theorem C45_insert_empty {u : Usage} (C : Coord G E) (word : R → BitVec 64 × R) {s : EvalRaz E Count G} {t : RazTree E Count}
    (ht : s.raztree = some t) (hr : t.Reachable u) (hne : t.elems = []) (batch : Nat) (rng : R) :
    EvalIRaz.insert C word s batch rng = .error .overflow := by
  have cnt := C07_count hr.any
  rw [hne] at cnt
  simp only [EvalIRaz.insert, ht, remU, cnt, List.length_nil, if_true, bind, Except.bind]

example : EvalIRaz.insert exCoord exWord (EvalRaz.incFromTree (RazTree.empty : RazTree Nat Count) 2 2 10) 3 0 = .error .overflow :=
  C45_insert_empty (u := .any) exCoord exWord rfl .empty rfl 3 0

/-- **C45.** Whole histories of insertions and appends agree with the edits on a plain list. -/
theorem C45_histories {u : Usage} (C : Coord G E) (word : R → BitVec 64 × R) (ops : List Edit) {s : EvalRaz E Count G}
    {t : RazTree E Count} (ht : s.raztree = some t) (hr : t.Reachable u) (hne : t.elems ≠ []) (rng : R)
    (hd : s.datagauge ≠ 0) (hn : s.namegauge ≠ 0) (hq : s.namegauge * s.datagauge ≤ usizeMax)
    (hlen : t.elems.length + (ops.map Edit.size).sum < usizeMax) (hc : s.counter + (ops.map Edit.size).sum ≤ usizeMax)
    (hnm : s.names + (ops.map Edit.size).sum + ops.length ≤ usizeMax) :
    ∃ s' t' rng', runEdits C word ops s rng = .ok (s', rng') ∧ s'.raztree = some t' ∧ t'.Reachable u ∧
      (t'.elems, s'.coord) = specEdits C ops (t.elems, s.coord) := by
  induction ops generalizing s t rng with
  | nil => exact ⟨s, t, rng, rfl, ht, hr, rfl⟩
  | cons o os ih =>
    simp only [List.map_cons, List.sum_cons, List.length_cons] at hlen hc hnm
    have hdv := Nat.div_le_self o.size (s.namegauge * s.datagauge)
    have hf : Fits s o.size := ⟨hd, hn, hq, by omega, by omega, by omega⟩
    have step : ∃ s1 t1, o.run C word s rng = .ok (s1, after word rng (o.size / s.datagauge + 1)) ∧ s1.raztree = some t1 ∧
      t1.Reachable u ∧ (t1.elems, s1.coord) = o.spec C (t.elems, s.coord) ∧
      s1.names = s.names + (o.size / (s.namegauge * s.datagauge) + 1) ∧ s1.counter = s.counter + o.size ∧
      s1.datagauge = s.datagauge ∧ s1.namegauge = s.namegauge := by
      cases o with
      | insert n => exact C45_insert C word ht hr hne (by omega) n rng hf
      | append n => exact C45_append C word ht hr (by omega) n rng hf
    obtain ⟨s1, t1, h1, h2, h3, h4, h5, h6, h7, h8⟩ := step
    have hl1 : t1.elems.length = t.elems.length + o.size := by
      have : t1.elems = (o.spec C (t.elems, s.coord)).1 := by rw [← h4]
      rw [this]
      cases o with
      | insert n =>
        simp only [Edit.spec, List.length_append, draws, List.length_map, List.length_range, List.length_take, List.length_drop, Edit.size]
        omega
      | append n => simp [Edit.spec, draws, Edit.size]
    have hne1 : t1.elems ≠ [] := by
      intro h
      rw [h] at hl1
      have := List.length_pos_iff.2 hne
      simp at hl1
      omega
    obtain ⟨s', t', rng', g1, g2, g3, g4⟩ := ih (s := s1) (t := t1) h2 h3 hne1 (after word rng (o.size / s.datagauge + 1)) (by rw [h7]; exact hd)
      (by rw [h8]; exact hn) (by rw [h7, h8]; exact hq) (by omega) (by omega) (by omega)
    refine ⟨s', t', rng', ?_, g2, g3, ?_⟩
    · simp only [runEdits, h1, bind, Except.bind, g1]
    · rw [g4, h4, specEdits]

/-- The tree `exTree` as initial state of the harness. -/
def exEval (M : Type) [RazMeta Nat M] : EvalRaz Nat M Nat := EvalRaz.incFromTree (exTree M) 2 2 10

example : Fits (exEval Count) 3 := ⟨by decide, by decide, by decide, by decide, by decide, by decide⟩

example : ∃ s t rng, runEdits exCoord exWord [.insert 3, .append 2, .insert 1] (exEval Count) 0 = .ok (s, rng) ∧ s.raztree = some t ∧
    t.elems = [1, 2, 17, 3, 4, 11, 12, 13, 5, 6, 14, 15] := by
  obtain ⟨s, t, rng, h1, h2, -, h4⟩ := C45_histories (u := .any) exCoord exWord [.insert 3, .append 2, .insert 1] (s := exEval Count)
    (t := exTree Count) rfl (exTree_reach Count .any) (by decide) 0 (by decide) (by decide) (by decide) (by decide) (by decide) (by decide)
  refine ⟨s, t, rng, h1, h2, ?_⟩
  have : t.elems = (specEdits exCoord [.insert 3, .append 2, .insert 1] ((exTree Count).elems, 10)).1 := by
    rw [show (10 : Nat) = (exEval Count).coord from rfl, ← h4]
  rw [this]
  decide +kernel

/-! ### C50: the vector harness -/

theorem foldl_push (l v : List E) : l.foldl (fun v e => v ++ [e]) v = v ++ l := by
  induction l generalizing v with
  | nil => simp
  | cons e l ih => rw [List.foldl_cons, ih]; simp

/-- **C50 (partial).** Building an initial sequence and then appending any batches, the vector harness and the
incremental harness hold the same elements and the same generator state when given the same generator. Missing:
insertion (`C50_insert_differs`). -/
theorem C50_append_partial {u : Usage} (C : Coord G E) (word : R → BitVec 64 × R) (size dg ng : Nat) (coord : G) (rng : R)
    (hd : dg ≠ 0) (hn : ng ≠ 0) (hq : ng * dg ≤ usizeMax) (batches : List Nat)
    (hs : size + batches.sum + batches.length < usizeMax) :
    ∃ s rng1 s' t' rng', EvalRaz.incInit C word size dg ng coord rng = .ok (s, rng1) ∧
      batches.foldlM (fun p b => EvalIRaz.append C word p.1 b p.2) (s, rng1) = .ok (s', rng') ∧
      s'.raztree = some t' ∧ t'.Reachable u ∧
      (⟨t'.elems, s'.coord⟩ : EvalVec E G) = batches.foldl (EvalVec.append C) (EvalVec.incInit C size coord) := by
  obtain ⟨s, t, h1, h2, h3, h4, -, h6, h7, h8, h9, h10⟩ := C44_init (M := Count) (u := u) C word size dg ng coord rng hd hn hq (by omega)
  have hv : EvalVec.incInit C size coord = ⟨t.elems, s.coord⟩ := by
    simp only [EvalVec.incInit, genData_eq, foldl_push, h4, h7, List.nil_append]
  have hnames : s.names ≤ size := by rw [h6]; exact Nat.div_le_self _ _
  have hlen : t.elems.length = size := by rw [h4]; simp [draws]
  suffices key : ∀ (bs : List Nat) (s : EvalRaz E Count G) (t : RazTree E Count) (rng : R), s.raztree = some t → t.Reachable u →
      s.datagauge = dg → s.namegauge = ng → t.elems.length + bs.sum < usizeMax → s.counter + bs.sum ≤ usizeMax →
      s.names + bs.sum + bs.length ≤ usizeMax →
      ∃ s' t' rng', bs.foldlM (fun p b => EvalIRaz.append C word p.1 b p.2) (s, rng) = .ok (s', rng') ∧
        s'.raztree = some t' ∧ t'.Reachable u ∧
        (⟨t'.elems, s'.coord⟩ : EvalVec E G) = bs.foldl (EvalVec.append C) ⟨t.elems, s.coord⟩ by
    obtain ⟨s', t', rng', g⟩ := key batches s t (after word rng (size / dg)) h2 h3 h9 h10 (by omega) (by omega) (by omega)
    exact ⟨s, _, s', t', rng', h1, g.1, g.2.1, g.2.2.1, by rw [hv]; exact g.2.2.2⟩
  intro bs
  induction bs with
  | nil => exact fun s t rng ht hr _ _ _ _ _ => ⟨s, t, rng, rfl, ht, hr, rfl⟩
  | cons b bs ih =>
    intro s t rng ht hr h9 h10 hl hc hnm
    simp only [List.sum_cons, List.length_cons] at hl hc hnm
    have hdv := Nat.div_le_self b (s.namegauge * s.datagauge)
    obtain ⟨s1, t1, g1, g2, g3, g4, g5, g6, g7, g8⟩ := C45_append C word ht hr (by omega) b rng
      ⟨by rw [h9]; exact hd, by rw [h10]; exact hn, by rw [h9, h10]; exact hq, by omega, by omega, by omega⟩
    have e1 : t1.elems = t.elems ++ draws C.elem s.coord b := by
      have := congrArg Prod.fst g4
      simpa [Edit.spec] using this
    have e2 : s1.coord = after C.elem s.coord b := by
      have := congrArg Prod.snd g4
      simpa [Edit.spec] using this
    have e3 : t1.elems.length = t.elems.length + b := by rw [e1]; simp [draws]
    obtain ⟨s', t', rng', i1, i2, i3, i4⟩ := ih s1 t1 _ g2 g3 (by rw [g7, h9]) (by rw [g8, h10]) (by omega) (by omega) (by omega)
    refine ⟨s', t', rng', ?_, i2, i3, ?_⟩
    · rw [List.foldlM_cons]
      simp only [g1, bind, Except.bind]
      exact i1
    · rw [i4, List.foldl_cons]
      simp only [EvalVec.append, genData_eq, foldl_push, e1, e2]

example : ∃ s rng1 s' t' rng', EvalRaz.incInit exCoord exWord 5 2 1 0 0 = .ok (s, rng1) ∧
    [2, 3].foldlM (fun p b => EvalIRaz.append exCoord exWord p.1 b p.2) (s, rng1) = .ok (s', rng') ∧
    s'.raztree = some t' ∧ t'.elems = [0, 1, 2, 3, 4, 5, 6, 7, 8, 9] := by
  obtain ⟨s, rng1, s', t', rng', h1, h2, h3, -, h5⟩ := C50_append_partial (u := .edit) exCoord exWord 5 2 1 0 0 (by decide) (by decide)
    (by decide) [2, 3] (by decide)
  refine ⟨s, rng1, s', t', rng', h1, h2, h3, ?_⟩
  have := congrArg EvalVec.vec h5
  simp only at this
  rw [this]
  rfl

theorem vecInserts (v w : List E) (loc : Nat) (hl : loc ≤ v.length) :
    w.foldlM (fun v e => EvalVec.vecInsert v loc e) v = .ok (v.take loc ++ w.reverse ++ v.drop loc) := by
  induction w generalizing v with
  | nil => simp [pure, Except.pure]
  | cons e w ih =>
    rw [List.foldlM_cons]
    simp only [EvalVec.vecInsert, if_pos hl, bind, Except.bind]
    have h1 : (v.take loc ++ e :: v.drop loc).take loc = v.take loc := by
      exact List.take_left' (by rw [List.length_take]; omega)
    have h2 : (v.take loc ++ e :: v.drop loc).drop loc = e :: v.drop loc := by
      exact List.drop_left' (by rw [List.length_take]; omega)
    have := ih (v.take loc ++ e :: v.drop loc) (by simp; omega)
    simp only [EvalVec.vecInsert] at this
    rw [this, h1, h2]
    simp

/-- The vector harness generates the batch before the position and inserts the batch in reverse order. -/
theorem C50_vec_insert (C : Coord G E) (s : EvalVec E G) (hne : s.vec ≠ []) (batch : Nat) :
    EvalVec.insert C s batch =
      let g := after C.elem s.coord batch
      let loc := (C.pos g).1 % s.vec.length
      .ok ⟨s.vec.take loc ++ (draws C.elem s.coord batch).reverse ++ s.vec.drop loc, (C.pos g).2⟩ := by
  have hl : s.vec.length ≠ 0 := fun h => hne (List.length_eq_zero_iff.1 h)
  have hlt := Nat.mod_lt (C.pos (after C.elem s.coord batch)).1 (Nat.pos_of_ne_zero hl)
  simp only [EvalVec.insert, genData_eq, remU, if_neg hl, bind, Except.bind]
  rw [vecInserts _ _ _ (Nat.le_of_lt hlt)]
  rfl

example : EvalVec.insert exCoord (⟨[1, 2, 3], 10⟩ : EvalVec Nat Nat) 2 = .ok ⟨[11, 10, 1, 2, 3], 13⟩ :=
  C50_vec_insert exCoord ⟨[1, 2, 3], 10⟩ (by decide) 2

/-- **C50, violated by insertion.** Even when positions do not consume randomness, inserting the same batch at the same
position into the same sequence gives a different order in the two harnesses. -/
theorem C50_insert_differs : ∃ (C : Coord Nat Nat) (s : EvalRaz Nat Count Nat) (t : RazTree Nat Count) (v : EvalVec Nat Nat),
    (∀ g, C.pos g = (0, g)) ∧ s.raztree = some t ∧ t.Reachable .edit ∧ v = ⟨t.elems, s.coord⟩ ∧
    (∃ s' t' rng, EvalIRaz.insert C exWord s 2 0 = .ok (s', rng) ∧ s'.raztree = some t' ∧ t'.elems = [10, 11, 1, 2, 3, 4, 5, 6]) ∧
    (∃ v', EvalVec.insert C v 2 = .ok v' ∧ v'.vec = [11, 10, 1, 2, 3, 4, 5, 6]) := by
  refine ⟨⟨fun g => (g, g + 1), fun g => (0, g)⟩, exEval Count, exTree Count, ⟨(exTree Count).elems, 10⟩, fun _ => rfl, rfl,
    exTree_reach Count .edit, rfl, ?_, ?_⟩
  · obtain ⟨s', t', h1, h2, -, h4, -⟩ := C45_insert (u := .edit) ⟨fun g => (g, g + 1), fun g => (0, g)⟩ exWord (s := exEval Count)
      (t := exTree Count) rfl (exTree_reach Count .edit) (by decide) (by decide) 2 0
      ⟨by decide, by decide, by decide, by decide, by decide, by decide⟩
    refine ⟨s', t', _, h1, h2, ?_⟩
    have := congrArg Prod.fst h4
    simp only at this
    rw [this]
    decide +kernel
  · refine ⟨_, C50_vec_insert _ _ (by decide) 2, ?_⟩
    decide +kernel

/-! ### C51: batches by name -/

/-- The names of a stamped batch: numbers above the counter, each once. -/
theorem stamped_names (dg q lv c) (nm : Nat → Name) (data : List E) (hi : ∀ i j, c / q < i → c / q < j → nm i = nm j → i = j) :
    (∀ p ∈ namesOf ((stamped dg q lv nm c data).map Item.settle), ∃ i, c / q < i ∧ i ≤ (c + data.length) / q ∧
      p = .pair (nm i) (.str "tree")) ∧ (namesOf ((stamped dg q lv nm c data).map Item.settle)).Nodup := by
  induction data generalizing c with
  | nil => exact ⟨fun p hp => by simp [stamped, namesOf] at hp, by simp [stamped, namesOf]⟩
  | cons e es ih =>
    have hmono : c / q ≤ (c + 1) / q := Nat.div_le_div_right (Nat.le_succ c)
    obtain ⟨i1, i2⟩ := ih (c + 1) (fun i j a b => hi i j (by omega) (by omega))
    have up : (c + 1 + es.length) / q = (c + (e :: es).length) / q := by simp only [List.length_cons]; congr 1; omega
    have lo : (c + 1) / q ≤ (c + (e :: es).length) / q := by rw [← up]; exact Nat.div_le_div_right (by omega)
    have tail : ∀ p ∈ namesOf ((stamped dg q lv nm (c+1) es).map Item.settle), ∃ i, c / q < i ∧ i ≤ (c + (e :: es).length) / q ∧
        p = .pair (nm i) (.str "tree") := by
      intro p hp
      obtain ⟨i, a, b, d⟩ := i1 p hp
      exact ⟨i, by omega, by omega, d⟩
    rw [stamped_cons]
    by_cases h1 : (c + 1) % dg = 0
    · by_cases h2 : (c + 1) % q = 0
      · simp only [if_pos h1, if_pos h2, List.map_cons, Item.settle, Option.map, List.cons_append,
          List.nil_append]
        have e0 : ∀ l : List (Item E), namesOf (.elem e :: l) = namesOf l := fun _ => rfl
        rw [e0, namesOf_some]
        have hs : c / q < (c + 1) / q := by
          rcases succ_div_mod (c := c) (dg := q) with ⟨_, a⟩ | ⟨a, _⟩
          · omega
          · exact absurd h2 a
        refine ⟨?_, List.nodup_cons.2 ⟨?_, i2⟩⟩
        · intro p hp
          rcases List.mem_cons.1 hp with rfl | hp
          · exact ⟨_, hs, lo, rfl⟩
          · exact tail p hp
        · intro hp
          obtain ⟨i, a, b, d⟩ := i1 _ hp
          have := hi _ _ hs (by omega) (Name.pair.inj d).1
          omega
      · simp only [if_pos h1, if_neg h2, List.map_cons, Item.settle, Option.map, List.cons_append,
          List.nil_append]
        exact ⟨tail, i2⟩
    · simp only [if_neg h1, List.map_cons, Item.settle, List.cons_append, List.nil_append]
      exact ⟨tail, i2⟩

theorem glue_cases (l r : List (Item E)) : glue l r = l.reverse ++ r ∨
    (∃ m l', l = m :: l' ∧ m.isMark = true ∧ ¬ StartsElem r ∧ glue l r = l'.reverse ++ r) ∨
    (∃ m r', r = m :: r' ∧ m.isMark = true ∧ (l = [] ∨ ∃ lev nm l', l = .mark lev nm :: l') ∧ glue l r = l.reverse ++ r') := by
  rcases l with _ | ⟨i, l⟩ <;> rcases r with _ | ⟨j, r⟩
  · simp [glue]
  · cases j <;> simp [glue, Item.isMark]
  · cases i <;> simp [glue, Item.isMark, StartsElem]
  · cases i <;> cases j <;> simp [glue, Item.isMark, StartsElem]

theorem glue_sublist (l r : List (Item E)) : List.Sublist (glue l r) (l.reverse ++ r) := by
  rcases glue_cases l r with h | ⟨m, l', rfl, -, -, h⟩ | ⟨m, r', rfl, -, -, h⟩
  · rw [h]
  · rw [h]; simp
  · rw [h]; simp

theorem namesOf_sublist {a b : List (Item E)} (h : List.Sublist a b) : List.Sublist (namesOf a) (namesOf b) := h.filterMap _

theorem mem_namesOf {q : Name} {l : List (Item E)} (h : q ∈ namesOf l) : ∃ x lev y, l = x ++ .mark lev (some q) :: y := by
  induction l with
  | nil => simp [namesOf] at h
  | cons i l ih =>
    have next : q ∈ namesOf l → ∃ x lev y, i :: l = x ++ .mark lev (some q) :: y := by
      intro h
      obtain ⟨x, lev, y, rfl⟩ := ih h
      exact ⟨i :: x, lev, y, rfl⟩
    cases i with
    | elem e => exact next h
    | pend lev nm => exact next h
    | mark lev nm =>
      rcases nm with _ | n
      · exact next h
      · rw [namesOf_some] at h
        rcases List.mem_cons.1 h with rfl | h
        · exact ⟨[], lev, l, rfl⟩
        · exact next h

/-- The names of a sequence are distinct and numbered below the harness's counter. -/
structure Fresh (s : EvalRaz E M G) (t : RazTree E M) : Prop where
  nodup : (namesOf t.items).Nodup
  below : ∀ q ∈ namesOf t.items, ∃ k < s.names, q = .pair (.usize k) (.str "tree")

/-- The names stay distinct and below the counter after a batch at any cursor. -/
theorem edit_fresh {s s' : EvalRaz E M G} {t t' : RazTree E M} (hf : Fresh s t) {x y : List (Item E)} (hi : t.items = x ++ y)
    {dg q c : Nat} {lv : Nat → Nat} {data : List E}
    (hi' : t'.items = (glue ((stamped dg q lv (fun i => .usize (s.names + (i - (c / q + 1)))) c data).reverse ++ x.reverse) y).map
      Item.settle) (hn : s'.names = s.names + (data.length / q + 1)) (hset : t.items.map Item.settle = t.items) :
    Fresh s' t' := by
  rw [hi, List.map_append] at hset
  obtain ⟨sx, sy⟩ := List.append_inj hset (by simp)
  obtain ⟨n1, n2⟩ := stamped_names dg q lv c (fun i => .usize (s.names + (i - (c / q + 1)))) data (by
    intro i j a b hh
    simp only [Name.usize.injEq] at hh
    omega)
  have hdiv : (c + data.length) / q ≤ c / q + data.length / q + 1 := by
    rcases Nat.eq_zero_or_pos q with rfl | hq
    · simp
    · rw [Nat.add_div hq]; split <;> omega
  obtain ⟨new, hnew⟩ : ∃ new, stamped dg q lv (fun i => .usize (s.names + (i - (c / q + 1)))) c data = new := ⟨_, rfl⟩
  rw [hnew] at hi' n1 n2
  have n3 : ∀ p ∈ namesOf (new.map Item.settle), ∃ k, s.names ≤ k ∧ k < s'.names ∧ p = .pair (.usize k) (.str "tree") := by
    intro p hp
    obtain ⟨i, a, b, d⟩ := n1 p hp
    exact ⟨s.names + (i - (c / q + 1)), by omega, by omega, d⟩
  have sub := namesOf_sublist ((glue_sublist (new.reverse ++ x.reverse) y).map Item.settle)
  rw [← hi'] at sub
  have all : namesOf (((new.reverse ++ x.reverse).reverse ++ y).map Item.settle) =
      namesOf x ++ namesOf (new.map Item.settle) ++ namesOf y := by
    simp only [List.reverse_append, List.reverse_reverse, List.map_append, namesOf_append, sx, sy]
  rw [all] at sub
  have nd := hf.nodup
  have bl := hf.below
  rw [hi, namesOf_append] at nd bl
  have nd' : (namesOf x ++ namesOf (new.map Item.settle) ++ namesOf y).Nodup := by
    rw [List.append_assoc]
    obtain ⟨a1, a2, a3⟩ := List.nodup_append.1 nd
    have dis : ∀ p ∈ namesOf x ++ namesOf y, p ∉ namesOf (new.map Item.settle) := by
      intro p hp hq
      obtain ⟨k, hk, rfl⟩ := bl p hp
      obtain ⟨k', hk', -, e⟩ := n3 _ hq
      simp only [Name.pair.injEq, Name.usize.injEq, and_true] at e
      omega
    refine List.nodup_append.2 ⟨a1, List.nodup_append.2 ⟨n2, a2, ?_⟩, ?_⟩
    · rintro p hp _ hq rfl
      exact dis p (by simp [hq]) hp
    · rintro p hp _ hq rfl
      rcases List.mem_append.1 hq with hq | hq
      · exact dis p (by simp [hp]) hq
      · exact a3 p hp p hq rfl
  refine ⟨sub.nodup nd', fun p hp => ?_⟩
  · have := sub.subset hp
    rw [List.append_assoc] at this
    have up : p ∈ namesOf x ++ namesOf y → ∃ k < s'.names, p = .pair (.usize k) (.str "tree") := by
      intro hp
      obtain ⟨k, hk, e⟩ := bl p hp
      exact ⟨k, by rw [hn]; exact Nat.lt_of_lt_of_le hk (Nat.le_add_right _ _), e⟩
    rcases List.mem_append.1 this with hp | hp
    · exact up (by simp [hp])
    · rcases List.mem_append.1 hp with hp | hp
      · obtain ⟨k, -, hk, e⟩ := n3 p hp
        exact ⟨k, hk, e⟩
      · exact up (by simp [hp])

/-- What a batch does to the names, for a cursor whose sides are tidy and do not meet at two archive points. -/
theorem edit_names {s s' : EvalRaz E M G} {t t' : RazTree E M} (hf : Fresh s t) {x y : List (Item E)} (hi : t.items = x ++ y)
    (hx : x = [] ∨ StartsElem x.reverse) {dg q c : Nat} {lv : Nat → Nat} {data : List E}
    (hi' : t'.items = (glue ((stamped dg q lv (fun i => .usize (s.names + (i - (c / q + 1)))) c data).reverse ++ x.reverse) y).map
      Item.settle) (hy : x = [] → y = [])
    (hn : s'.names = s.names + (data.length / q + 1)) (hset : t.items.map Item.settle = t.items) :
    Fresh s' t' ∧ ∀ p ∈ namesOf t.items, p ∈ namesOf t'.items := by
  refine ⟨edit_fresh hf hi hi' hn hset, ?_⟩
  rw [hi, List.map_append] at hset
  obtain ⟨sx, sy⟩ := List.append_inj hset (by simp)
  obtain ⟨new, hnew⟩ : ∃ new, stamped dg q lv (fun i => .usize (s.names + (i - (c / q + 1)))) c data = new := ⟨_, rfl⟩
  rw [hnew] at hi'
  · -- nothing of the old sequence is lost
    have keep : ∃ w, t'.items = x ++ w ++ y := by
      rw [hi']
      rcases List.eq_nil_or_concat data with rfl | ⟨d, e, rfl⟩
      · have : new = [] := by rw [← hnew]; rfl
        subst this
        refine ⟨[], ?_⟩
        simp only [List.reverse_nil, List.nil_append, List.append_nil]
        rcases hx with rfl | hx
        · rw [hy rfl]; rfl
        · rw [glue_elem (.inl hx), List.reverse_reverse, List.map_append, sx, sy]
      · rw [List.concat_eq_append, stamped_last] at hnew
        rcases glue_cases (new.reverse ++ x.reverse) y with h | ⟨m, l', h1, h2, -, h3⟩ | ⟨m, r', h1, h2, h3, -⟩
        · rw [h]
          exact ⟨new.map Item.settle, by simp [sx, sy]⟩
        · rw [h3]
          rw [← hnew] at h1
          split at h1
          · simp only [List.reverse_append, List.reverse_cons, List.reverse_nil, List.nil_append, List.cons_append,
              List.cons.injEq] at h1
            rw [← h1.2]
            refine ⟨((stamped dg q lv (fun i => .usize (s.names + (i - (c / q + 1)))) c d ++ [Item.elem e])).map Item.settle, ?_⟩
            simp [sx, sy]
          · simp only [List.reverse_append, List.reverse_cons, List.reverse_nil, List.nil_append, List.cons_append,
              List.cons.injEq] at h1
            rw [← h1.1] at h2
            simp [Item.isMark] at h2
        · exfalso
          rw [← hnew] at h3
          split at h3
          · rcases h3 with h3 | ⟨lev, nm, l', h3⟩ <;> simp at h3
          · rcases h3 with h3 | ⟨lev, nm, l', h3⟩ <;> simp at h3
    obtain ⟨w, hw⟩ := keep
    intro p hp
    rw [hi, namesOf_append] at hp
    rw [hw, namesOf_append, namesOf_append]
    rcases List.mem_append.1 hp with hp | hp <;> simp [hp]

/-- **C51.** In a sequence with at least one named archive point, inserting a batch puts the generated elements, in
order, directly before the archive point whose name was drawn; all old names stay and all names stay distinct, so the
next insertion can be made in the same way. -/
theorem C51_insert {u : Usage} (hu : u.emptyTop = false) (C : Coord G E) (word : R → BitVec 64 × R) (order : List Name → List Name)
    (ho : ∀ l, (order l).Perm l) {s : EvalRaz E Names G} {t : RazTree E Names} (ht : s.raztree = some t) (hr : t.Reachable u)
    (hfr : Fresh s t) (hne : namesOf t.items ≠ []) (batch : Nat) (rng : R) (hf : Fits s batch) :
    ∃ s' t' x q lev y, EvalRazNameIndex.insert C word order s batch rng = .ok (s', after word rng (batch / s.datagauge + 1)) ∧
      s'.raztree = some t' ∧ t'.Reachable u ∧
      (order t.info.names)[(C.pos s.coord).1 % t.info.names.length]? = some q ∧ t.items = x ++ .mark lev (some q) :: y ∧
      t'.elems = elemsOf x ++ draws C.elem (C.pos s.coord).2 batch ++ elemsOf y ∧ s'.coord = after C.elem (C.pos s.coord).2 batch ∧
      Fresh s' t' ∧ (∀ p ∈ namesOf t.items, p ∈ namesOf t'.items) ∧
      s'.names = s.names + (batch / (s.namegauge * s.datagauge) + 1) ∧ s'.counter = s.counter + batch ∧
      s'.datagauge = s.datagauge ∧ s'.namegauge = s.namegauge := by
  have hl : t.info.names.length ≠ 0 := by
    intro h
    obtain ⟨q, hq⟩ := List.exists_mem_of_ne_nil _ hne
    rw [← C08_names hr.any, List.length_eq_zero_iff.1 h] at hq
    simp at hq
  have hlt := Nat.mod_lt (C.pos s.coord).1 (Nat.pos_of_ne_zero hl)
  have hol := (ho t.info.names).length_eq
  obtain ⟨q, hq⟩ : ∃ q, (order t.info.names)[(C.pos s.coord).1 % t.info.names.length]? = some q :=
    ⟨_, List.getElem?_eq_getElem (by omega)⟩
  have hmem : q ∈ namesOf t.items := by
    rw [← C08_names hr.any, ← (ho t.info.names).mem_iff]
    exact List.mem_of_getElem? hq
  obtain ⟨x, lev, y, hi⟩ := mem_namesOf hmem
  obtain ⟨z, f1, f2, f3⟩ := C09_focus_name hr.any hfr.nodup hi
  have hz : z.Reachable u := .focus hr f1
  obtain ⟨s', t', h1, h2, h3, h4, h5, h6, h7, h8, h9, h10⟩ := editAt_result C word
    { s with coord := (C.pos s.coord).2, raztree := none } hz batch rng ⟨hf.1, hf.2, hf.3, hf.4, hf.5, hf.6⟩
  have tidy := ((Reach.t hr).tidy hu).1
  have hx : StartsElem x.reverse := by
    have := tidy.2
    rw [hi, List.reverse_append, List.reverse_cons, List.append_assoc] at this
    exact ((tidy_cons_mark rfl _).1 this.of_append).1
  have hx0 : x ≠ [] := by rintro rfl; obtain ⟨e, r, h⟩ := hx; simp at h
  rw [f2, f3] at h5
  obtain ⟨k1, k2⟩ := edit_names (s := s) (s' := s') hfr hi (.inr hx) h5 (fun h => absurd h hx0) (by rw [h6]; simp [draws])
    (settle_items t.tree)
  refine ⟨s', t', x, q, lev, y, ?_, h2, h3, hq, hi, ?_, h8, k1, k2, h6, h7, h9, h10⟩
  · rw [← h1]
    simp only [EvalRazNameIndex.insert, ht, remU, hol, if_neg hl, bind, Except.bind, hq, unwrap, f1]
  · rw [h4, Raz.leftElems, Raz.rightElems, f2, f3, elemsOf_cons_mark rfl]
    simp [elemsOf, List.filterMap_reverse]

/-- **C51.** Appending a batch, under the same conditions except that no name need exist. -/
theorem C51_append {u : Usage} (hu : u.emptyTop = false) (C : Coord G E) (word : R → BitVec 64 × R) {s : EvalRaz E Names G}
    {t : RazTree E Names} (ht : s.raztree = some t) (hr : t.Reachable u) (hfr : Fresh s t) (batch : Nat) (rng : R) (hf : Fits s batch) :
    ∃ s' t', EvalRazNameIndex.append C word s batch rng = .ok (s', after word rng (batch / s.datagauge + 1)) ∧
      s'.raztree = some t' ∧ t'.Reachable u ∧ t'.elems = t.elems ++ draws C.elem s.coord batch ∧
      s'.coord = after C.elem s.coord batch ∧ Fresh s' t' ∧ (∀ p ∈ namesOf t.items, p ∈ namesOf t'.items) ∧
      s'.names = s.names + (batch / (s.namegauge * s.datagauge) + 1) ∧ s'.counter = s.counter + batch ∧
      s'.datagauge = s.datagauge ∧ s'.namegauge = s.namegauge := by
  obtain ⟨z, f1, f2, f3⟩ := C05_focus_last_names hr.any
  have hz : z.Reachable u := .focus hr f1
  obtain ⟨s', t', h1, h2, h3, h4, h5, h6, h7, h8, h9, h10⟩ := editAt_result C word
    { s with raztree := none } hz batch rng ⟨hf.1, hf.2, hf.3, hf.4, hf.5, hf.6⟩
  have tidy := ((Reach.t hr).tidy hu).1
  have hx : t.items = [] ∨ StartsElem t.items.reverse := by
    rcases List.eq_nil_or_concat t.items with h | ⟨a, i, h⟩
    · exact .inl h
    · right
      rw [List.concat_eq_append] at h
      have := tidy.1
      rw [h] at this ⊢
      rcases isMark_or_elem i with hi | ⟨e, rfl⟩
      · obtain ⟨e, r, he⟩ := ((tidy_cons_mark hi _).1 this.of_append).1
        cases he
      · rw [List.reverse_append]
        exact ⟨e, _, rfl⟩
  rw [f2, f3] at h5
  obtain ⟨k1, k2⟩ := edit_names (s := s) (s' := s') (x := t.items) (y := []) hfr (by simp) hx h5 (fun _ => rfl)
    (by rw [h6]; simp [draws]) (settle_items t.tree)
  refine ⟨s', t', ?_, h2, h3, ?_, h8, k1, k2, h6, h7, h9, h10⟩
  · rw [← h1]
    simp only [EvalRazNameIndex.append, ht, bind, Except.bind]
    have : t.focus (RazMeta.last : RazMeta.Index E Names) = .ok (some z) := f1
    rw [this]
  · rw [h4, Raz.leftElems, Raz.rightElems, f2, f3]
    simp [RazTree.elems, elemsOf, List.filterMap_reverse]

/-- **C51.** Inserting into a sequence without names panics (remainder by zero). -/
theorem C51_insert_no_names {u : Usage} (C : Coord G E) (word : R → BitVec 64 × R) (order : List Name → List Name)
    (ho : ∀ l, (order l).Perm l) {s : EvalRaz E Names G} {t : RazTree E Names} (ht : s.raztree = some t) (hr : t.Reachable u)
    (hne : namesOf t.items = []) (batch : Nat) (rng : R) : EvalRazNameIndex.insert C word order s batch rng = .error .overflow := by
  have hl : t.info.names.length = 0 := by
    rw [List.length_eq_zero_iff, List.eq_nil_iff_forall_not_mem]
    intro q hq
    rw [C08_names hr.any, hne] at hq
    simp at hq
  have hol := (ho t.info.names).length_eq
  rw [hl] at hol
  simp only [EvalRazNameIndex.insert, ht, remU, hol, if_true, bind, Except.bind]

example : EvalRazNameIndex.insert exCoord exWord List.reverse (EvalRaz.incFromTree (RazTree.empty : RazTree Nat Names) 2 2 10) 3 0 =
    .error .overflow :=
  C51_insert_no_names (u := .any) exCoord exWord List.reverse (fun l => List.reverse_perm l) rfl .empty rfl 3 0

/-- **C51.** Once a name exists, no history of insertions and appends panics: the old elements stay in order, the new
ones are added, and all names stay. -/
theorem C51_histories {u : Usage} (hu : u.emptyTop = false) (C : Coord G E) (word : R → BitVec 64 × R)
    (ops : List (Edit × (List Name → List Name))) (ho : ∀ o ∈ ops, ∀ l, (o.2 l).Perm l) {s : EvalRaz E Names G} {t : RazTree E Names}
    (ht : s.raztree = some t) (hr : t.Reachable u) (hfr : Fresh s t) (hne : namesOf t.items ≠ []) (rng : R)
    (hd : s.datagauge ≠ 0) (hn : s.namegauge ≠ 0) (hq : s.namegauge * s.datagauge ≤ usizeMax)
    (hs : (ops.map (fun o => o.1.size)).sum < usizeMax) (hc : s.counter + (ops.map (fun o => o.1.size)).sum ≤ usizeMax)
    (hnm : s.names + (ops.map (fun o => o.1.size)).sum + ops.length ≤ usizeMax) :
    ∃ s' t' rng', runEditsN C word ops s rng = .ok (s', rng') ∧ s'.raztree = some t' ∧ t'.Reachable u ∧ Fresh s' t' ∧
      (∀ p ∈ namesOf t.items, p ∈ namesOf t'.items) ∧ List.Sublist t.elems t'.elems ∧
      t'.elems.length = t.elems.length + (ops.map (fun o => o.1.size)).sum := by
  induction ops generalizing s t rng with
  | nil => exact ⟨s, t, rng, rfl, ht, hr, hfr, fun _ h => h, List.Sublist.refl _, rfl⟩
  | cons o os ih =>
    obtain ⟨o, order⟩ := o
    simp only [List.map_cons, List.sum_cons, List.length_cons] at hs hc hnm ⊢
    have hdv := Nat.div_le_self o.size (s.namegauge * s.datagauge)
    have hf : Fits s o.size := ⟨hd, hn, hq, by omega, by omega, by omega⟩
    have step : ∃ s1 t1, o.runN C word order s rng = .ok (s1, after word rng (o.size / s.datagauge + 1)) ∧ s1.raztree = some t1 ∧
      t1.Reachable u ∧ Fresh s1 t1 ∧ (∀ p ∈ namesOf t.items, p ∈ namesOf t1.items) ∧ List.Sublist t.elems t1.elems ∧
      t1.elems.length = t.elems.length + o.size ∧
      s1.names = s.names + (o.size / (s.namegauge * s.datagauge) + 1) ∧ s1.counter = s.counter + o.size ∧
      s1.datagauge = s.datagauge ∧ s1.namegauge = s.namegauge := by
      cases o with
      | insert n =>
        obtain ⟨s1, t1, x, q, lev, y, h1, h2, h3, -, h5, h6, -, h8, h9, h10⟩ :=
          C51_insert hu C word order (ho _ (List.mem_cons_self ..)) ht hr hfr hne n rng hf
        have ht1 : t.elems = elemsOf x ++ elemsOf y := by
          rw [RazTree.elems, h5, elemsOf, List.filterMap_append, ← elemsOf, ← elemsOf, elemsOf_cons_mark rfl]
        refine ⟨s1, t1, h1, h2, h3, h8, h9, ?_, ?_, h10⟩
        · rw [h6, ht1]
          exact (List.sublist_append_left _ _).append (List.Sublist.refl _)
        · rw [h6, ht1]
          simp only [List.length_append, draws, List.length_map, List.length_range, Edit.size]
          omega
      | append n =>
        obtain ⟨s1, t1, h1, h2, h3, h6, -, h8, h9, h10⟩ := C51_append hu C word ht hr hfr n rng hf
        exact ⟨s1, t1, h1, h2, h3, h8, h9, by rw [h6]; exact List.sublist_append_left _ _, by rw [h6]; simp [draws, Edit.size], h10⟩
    obtain ⟨s1, t1, h1, h2, h3, h4, h5, h6, h7, h8, h9, h10, h11⟩ := step
    have hne1 : namesOf t1.items ≠ [] := by
      obtain ⟨q, hq⟩ := List.exists_mem_of_ne_nil _ hne
      exact List.ne_nil_of_mem (h5 q hq)
    obtain ⟨s', t', rng', g1, g2, g3, g4, g5, g6, g7⟩ := ih (fun o h => ho o (List.mem_cons_of_mem _ h)) (s := s1) (t := t1) h2 h3 h4 hne1
      (after word rng (o.size / s.datagauge + 1)) (by rw [h10]; exact hd) (by rw [h11]; exact hn) (by rw [h10, h11]; exact hq)
      (by omega) (by omega) (by omega)
    refine ⟨s', t', rng', ?_, g2, g3, g4, fun p hp => g5 p (h5 p hp), h6.trans g6, by omega⟩
    simp only [runEditsN, h1, bind, Except.bind, g1]

/-- The names of an initial sequence. -/
theorem init_fresh {s : EvalRaz E M G} {t : RazTree E M} {size dg ng : Nat} {lv : Nat → Nat} {data : List E}
    (hlen : data.length = size) (h5 : t.items = (dropEnd (stamped dg (ng * dg) lv (fun i => .usize (i - 1)) 0 data)).map Item.settle)
    (h6 : s.names = size / (ng * dg)) : Fresh s t := by
  obtain ⟨n1, n2⟩ := stamped_names dg (ng * dg) lv 0 (fun i => .usize (i - 1)) data (by
    intro i j a b hh
    simp only [Name.usize.injEq] at hh
    rw [Nat.zero_div] at a b
    omega)
  have sub := namesOf_sublist ((dropEnd_sublist (stamped dg (ng * dg) lv (fun i => .usize (i - 1)) 0 data)).map Item.settle)
  rw [← h5] at sub
  refine ⟨sub.nodup n2, fun p hp => ?_⟩
  obtain ⟨i, a, b, e⟩ := n1 p (sub.subset hp)
  rw [Nat.zero_div] at a
  rw [Nat.zero_add, hlen, ← h6] at b
  exact ⟨i - 1, by omega, e⟩

/-- **C51.** The initial sequence meets the conditions as soon as it has more elements than the product of the gauges. -/
theorem C51_init {u : Usage} (C : Coord G E) (word : R → BitVec 64 × R) (size dg ng : Nat) (coord : G) (rng : R)
    (hd : dg ≠ 0) (hn : ng ≠ 0) (hq : ng * dg ≤ usizeMax) (hs : size ≤ usizeMax) :
    ∃ (s : EvalRaz E Names G) (t : RazTree E Names),
      EvalRaz.incInit C word size dg ng coord rng = .ok (s, after word rng (size / dg)) ∧ s.raztree = some t ∧
      t.Reachable u ∧ t.elems = draws C.elem coord size ∧ Fresh s t ∧ (ng * dg < size → namesOf t.items ≠ []) := by
  obtain ⟨s, t, h1, h2, h3, h4, h5, h6, -⟩ := C44_init (M := Names) (u := u) C word size dg ng coord rng hd hn hq hs
  have hlen : (draws C.elem coord size).length = size := by simp [draws]
  obtain ⟨data, hdata⟩ : ∃ d, draws C.elem coord size = d := ⟨_, rfl⟩
  rw [hdata] at h5 hlen
  obtain ⟨lv, hlv⟩ : ∃ lv, (fun i => genBranchLevel (draw word rng (i - 1))) = lv := ⟨_, rfl⟩
  rw [hlv] at h5
  refine ⟨s, t, h1, h2, h3, h4, ?_, ?_⟩
  · exact init_fresh hlen h5 h6
  · intro hlt
    have hq0 : ng * dg ≠ 0 := Nat.mul_ne_zero hn hd
    obtain ⟨a, e, ha⟩ : ∃ a e, data.take (ng * dg) = a ++ [e] := by
      rcases List.eq_nil_or_concat (data.take (ng * dg)) with h | ⟨a, e, h⟩
      · have := congrArg List.length h
        simp only [List.length_take, List.length_nil] at this
        omega
      · exact ⟨a, e, by rw [h, List.concat_eq_append]⟩
    have hal : a.length + 1 = ng * dg := by
      have := congrArg List.length ha
      simp only [List.length_take, List.length_append, List.length_cons, List.length_nil] at this
      omega
    have hb : data.drop (ng * dg) ≠ [] := by
      intro h
      have := congrArg List.length h
      simp only [List.length_drop, List.length_nil] at this
      omega
    rw [← List.take_append_drop (ng * dg) data, stamped_append, ha, stamped_last, Nat.zero_add, hal, Nat.mul_mod_left,
      Nat.mod_self, if_pos rfl, if_pos rfl, dropEnd_append (stamped_ne_nil _ _ _ _ _ hb)] at h5
    rw [h5]
    simp [Item.settle, namesOf]

example : ∃ (s : EvalRaz Nat Names Nat) (t : RazTree Nat Names), s.raztree = some t ∧ t.Reachable .edit ∧ Fresh s t ∧
    namesOf t.items ≠ [] ∧ (∃ s' t' x q lev y, EvalRazNameIndex.insert exCoord exWord List.reverse s 4 3 = .ok (s', 6) ∧
      s'.raztree = some t' ∧ t.items = x ++ .mark lev (some q) :: y ∧ t'.elems = elemsOf x ++ [8, 9, 10, 11] ++ elemsOf y) ∧
    ∃ s' t' rng', runEditsN exCoord exWord [(.insert 4, List.reverse), (.append 3, id), (.insert 1, id)] s 3 = .ok (s', rng') ∧
      s'.raztree = some t' ∧ List.Sublist [0, 1, 2, 3, 4, 5, 6] t'.elems ∧ t'.elems.length = 15 := by
  have hrev : ∀ l : List Name, (List.reverse l).Perm l := fun l => List.reverse_perm l
  obtain ⟨s, t, h1, h2, h3, h4, h6, h7⟩ := C51_init (u := .edit) exCoord exWord 7 2 1 0 0 (by decide) (by decide) (by decide) (by decide)
  obtain ⟨s0, t0, g1, g2, g3, g4, g5, g6, g7, g8, g9, g10⟩ := C44_init (M := Names) (u := .edit) exCoord exWord 7 2 1 0 0 (by decide)
    (by decide) (by decide) (by decide)
  rw [h1] at g1
  cases g1
  have e : t.elems = [0, 1, 2, 3, 4, 5, 6] := by rw [h4]; rfl
  have e7 : after exCoord.elem 0 7 = 7 := rfl
  refine ⟨s, t, h2, h3, h6, h7 (by decide), ?_, ?_⟩
  · obtain ⟨s', t', x, q, lev, y, i1, i2, -, -, i5, i6, -⟩ := C51_insert (u := .edit) rfl exCoord exWord List.reverse hrev h2 h3 h6
      (h7 (by decide)) 4 3 ⟨by rw [g9]; decide, by rw [g10]; decide, by rw [g9, g10]; decide, by rw [g8]; decide, by decide,
        by rw [g9, g10, g6]; decide⟩
    rw [g9] at i1
    rw [g7, e7] at i6
    exact ⟨s', t', x, q, lev, y, i1, i2, i5, i6⟩
  · obtain ⟨s', t', rng', i1, i2, -, -, -, i6, i7⟩ := C51_histories (u := .edit) rfl exCoord exWord
      [(.insert 4, List.reverse), (.append 3, id), (.insert 1, id)] (by
        intro o ho
        simp only [List.mem_cons, List.not_mem_nil, or_false] at ho
        rcases ho with rfl | rfl | rfl
        · exact hrev
        · exact fun l => List.Perm.refl l
        · exact fun l => List.Perm.refl l) h2 h3 h6 (h7 (by decide)) 3 (by rw [g9]; decide) (by rw [g10]; decide)
        (by rw [g9, g10]; decide) (by decide) (by rw [g8]; decide) (by rw [g6]; decide)
    exact ⟨s', t', rng', i1, i2, by rw [← e]; exact i6, by rw [i7, e]; rfl⟩

/-- **C51, limit.** A harness made from an existing tree starts numbering its names at 0 again: appending to a sequence
that already has such a name makes a second archive point with the same name. -/
theorem C51_inc_from_duplicates : ∃ (t : RazTree Nat Names), t.Reachable .edit ∧ (namesOf t.items).Nodup ∧
    ∃ s' t' rng, EvalRazNameIndex.append exCoord exWord (EvalRaz.incFromTree t 1 1 0) 2 0 = .ok (s', rng) ∧ s'.raztree = some t' ∧
      namesOf t'.items = [.pair (.usize 0) (.str "tree"), .pair (.usize 0) (.str "tree")] := by
  let z : Raz Nat Names := ((((Raz.new : Raz Nat Names).pushLeft 1).1.archiveLeft 1 (some (.usize 0))).pushLeft 2).1
  have hz : z.Reachable .edit := .pushL _ (.archL _ (by decide) (.pushL _ .new))
  obtain ⟨t, h1, -, h3⟩ := unfocus_inv (Reach.z hz).inv
  have hi : t.items = [.elem 1, .mark 1 (some (.pair (.usize 0) (.str "tree"))), .elem 2] := by rw [h3]; rfl
  have hr : t.Reachable .edit := .unfocus hz h1
  obtain ⟨z', f1, f2, f3⟩ := C05_focus_last_names hr.any
  obtain ⟨s', t', g1, g2, -, -, g5, -⟩ := editAt_result (u := .edit) exCoord exWord
    (⟨none, 0, 0, 0, 1, 1⟩ : EvalRaz Nat Names Nat) (.focus hr f1) 2 0
    ⟨by decide, by decide, by decide, by decide, by decide, by decide⟩
  refine ⟨t, hr, by rw [hi]; decide, s', t', 3, ?_, g2, ?_⟩
  · refine Eq.trans ?_ g1
    simp only [EvalRazNameIndex.append, EvalRaz.incFromTree, EvalRaz.new, bind, Except.bind]
    have : t.focus (RazMeta.last : RazMeta.Index Nat Names) = .ok (some z') := f1
    rw [this]
  · rw [g5, f2, f3, hi]
    decide +kernel

/-! ### C52: computations -/

theorem cmpMax_assoc {le : E → E → Bool} (tot : ∀ a b, le a b = true ∨ le b a = true)
    (tr : ∀ a b c, le a b = true → le b c = true → le a c = true) (a b c : E) :
    EvalRaz.cmpMax le (EvalRaz.cmpMax le a b) c = EvalRaz.cmpMax le a (EvalRaz.cmpMax le b c) := by
  unfold EvalRaz.cmpMax
  by_cases h1 : le a b = true <;> by_cases h2 : le b c = true
  · have := tr a b c h1 h2; simp [h1, h2, this]
  · simp [h1, h2]
  · simp [h1, h2]
  · have : ¬ le a c = true := fun h => by
      rcases tot b c with h' | h'
      · exact h2 h'
      · exact h1 (tr _ _ _ h h')
    simp [h1, h2, this]

theorem fold_lastMax {le : E → E → Bool} (tot : ∀ a b, le a b = true ∨ le b a = true)
    (tr : ∀ a b c, le a b = true → le b c = true → le a c = true) (a : E) (l : List E) :
    LastMax le (a :: l) (l.foldl (fun x y => if le x y then y else x) a) := by
  have gen : ∀ (l done : List E) (m : E), LastMax le done m →
      LastMax le (done ++ l) (l.foldl (fun x y => if le x y then y else x) m) := by
    intro l
    induction l with
    | nil => intro done m h; simpa using h
    | cons y l ih =>
      intro done m h
      obtain ⟨p, q, rfl, h1, h2⟩ := h
      rw [List.foldl_cons, show p ++ m :: q ++ y :: l = (p ++ m :: q ++ [y]) ++ l by simp]
      refine ih _ _ ?_
      split
      · rename_i hle
        refine ⟨p ++ m :: q, [], by simp, ?_, by simp⟩
        intro x hx
        rcases List.mem_append.1 hx with hx | hx
        · exact tr _ _ _ (h1 x hx) hle
        · rcases List.mem_cons.1 hx with rfl | hx
          · exact hle
          · rcases tot x m with h' | h'
            · exact tr _ _ _ h' hle
            · rw [h2 x hx] at h'; cases h'
      · rename_i hle
        refine ⟨p, q ++ [y], by simp, h1, ?_⟩
        intro x hx
        rcases List.mem_append.1 hx with hx | hx
        · exact h2 x hx
        · rw [List.mem_singleton.1 hx]; simpa using hle
  simpa using gen l [a] a ⟨[], [], rfl, by simp, by simp⟩

/-- **C52, partial.** Maximum: for every total order given by a comparison, with ties between different elements, the incremental
harness returns the last greatest element of its sequence, or `None` if it is empty, as the vector harness does.
Missing: trees with an empty subsequence, on which it panics, see `C52_max_tfold_panics`. -/
theorem C52_max_partial [RazMeta E M] {le : E → E → Bool} (tot : ∀ a b, le a b = true ∨ le b a = true)
    (tr : ∀ a b c, le a b = true → le b c = true → le a c = true) {s : EvalRaz E M G} {t : RazTree E M} (ht : s.raztree = some t)
    (hr : t.Reachable .any) (hne : t.isEmpty = true ∨ NoEmptySub t.items) {g : G} :
    s.compMax le = .ok ((⟨t.elems, g⟩ : EvalVec E G).compMax le) ∧
    (t.elems = [] → s.compMax le = .ok none) ∧ (t.elems ≠ [] → ∃ m, s.compMax le = .ok (some m) ∧ LastMax le t.elems m) := by
  have h1 : s.compMax le = .ok (fold1 (EvalRaz.cmpMax le) t.elems) := by
    simp only [EvalRaz.compMax, ht, unwrap, bind, Except.bind]
    have := C10_fold_up_partial hr hne (fun e => e) (EvalRaz.cmpMax le)
      (cmpMax_assoc tot tr)
    rw [this, List.map_id']
  rw [h1]
  obtain ⟨l, hl⟩ : ∃ l, t.elems = l := ⟨_, rfl⟩
  rw [hl]
  rcases l with _ | ⟨a, l⟩
  · exact ⟨rfl, fun _ => rfl, fun h => absurd rfl h⟩
  · exact ⟨rfl, (fun h => by cases h), fun _ => ⟨_, rfl, fold_lastMax tot tr a l⟩⟩

example : ∃ m, (exEval Count).compMax (fun a b => decide (a % 4 ≤ b % 4)) = .ok (some m) ∧
    LastMax (fun a b => decide (a % 4 ≤ b % 4)) [1, 2, 3, 4, 5, 6] m :=
  (C52_max_partial (g := ()) (le := fun a b => decide (a % 4 ≤ b % 4)) (by intro a b; simp; omega) (by intro a b c; simp; omega)
    (s := { (EvalRaz.incFromTree (exTree Count) 2 2 () : EvalRaz Nat Count Unit) with counter := 0 }) rfl
    (exTree_reach Count .any) (full_noEmptySub (exTree_reach Count .full))).2.2 (by decide)

/-- **C52.** Mapping gives a sequence with the mapped elements, as in the vector harness. -/
theorem C52_map {F N : Type} [RazMeta E M] [RazMeta F N] {u : Usage} {s : EvalRaz E M G} {t : RazTree E M} (ht : s.raztree = some t)
    (hr : t.Reachable u) (f : E → F) {g : G} :
    ∃ t' : RazTree F N, s.compMap f = .ok t' ∧ t'.elems = (⟨t.elems, g⟩ : EvalVec E G).compMap f ∧ t'.elems = t.elems.map f ∧
      t'.Reachable u := by
  obtain ⟨t', h1, -, h3, -, h5⟩ := C15_map (N := N) hr f
  refine ⟨t', ?_, h3, h3, h5⟩
  simp only [EvalRaz.compMap, ht, unwrap, bind, Except.bind, h1]

example : ∃ t' : RazTree Nat Names, (exEval Count).compMap (· * 2) = .ok t' ∧ t'.elems = [2, 4, 6, 8, 10, 12] := by
  obtain ⟨t', h1, -, h3, -⟩ := C52_map (N := Names) (u := .any) (g := 0) (s := exEval Count) rfl (exTree_reach Count .any) (· * 2)
  exact ⟨t', h1, by rw [h3]; rfl⟩

/-- **C52.** Left folds: `comp_fold` is the fold over the elements, as in the vector harness; with a function for archive
points it is that fold too if this function returns its argument. -/
theorem C52_fold [RazMeta E M] {O : Type} {s : EvalRaz E M G} {t : RazTree E M} (ht : s.raztree = some t)
    (hr : t.Reachable .any) (accum : O) (f : O → E → O) {g : G} :
    s.compFold accum f = .ok ((⟨t.elems, g⟩ : EvalVec E G).compFold accum f) ∧ s.compFold accum f = .ok (t.elems.foldl f accum) ∧
    s.compFoldMeta accum f (fun a _ => a) = .ok (t.elems.foldl f accum) := by
  have : t.foldLrMeta accum f (fun a _ => a) = t.elems.foldl f accum := C12_fold_lr hr accum f
  simp only [EvalRaz.compFold, EvalRaz.compFoldMeta, ht, unwrap, bind, Except.bind, this, pure, Except.pure, EvalVec.compFold,
    and_self]

example : (exEval Count).compFold 0 (fun a e => 10 * a + e) = .ok 123456 :=
  (C52_fold (g := 0) (s := exEval Count) rfl (exTree_reach Count .any) 0 (fun a e => 10 * a + e)).2.1

/-- **C52, partial.** Tree folds with an associative operation do not depend on the archive points. Missing as above. -/
theorem C52_tfold_partial [RazMeta E M] {O : Type} {s : EvalRaz E M G} {t : RazTree E M}
    (ht : s.raztree = some t) (hr : t.Reachable .any) (hne : t.isEmpty = true ∨ NoEmptySub t.items) (init : E → O) (bin : O → O → O)
    (hassoc : ∀ a b c, bin (bin a b) c = bin a (bin b c)) :
    s.compTfold init bin = .ok (fold1 bin (t.elems.map init)) := by
  simp only [EvalRaz.compTfold, ht, unwrap, bind, Except.bind]
  exact C10_fold_up_partial hr hne init bin hassoc

example : (exEval Count).compTfold (fun e => [e]) (· ++ ·) = .ok (some [1, 2, 3, 4, 5, 6]) :=
  C52_tfold_partial (s := exEval Count) rfl (exTree_reach Count .any) (full_noEmptySub (exTree_reach Count .full)) (fun e => [e]) (· ++ ·) (by intros; simp)

/-- **C52**, the remaining trees: with an empty subsequence the maximum and the tree fold of the incremental harness
panic. The vector harness never does. -/
theorem C52_max_tfold_panics [RazMeta E M] {O : Type} {s : EvalRaz E M G} {t : RazTree E M} (ht : s.raztree = some t)
    (hr : t.Reachable .any) (he : t.isEmpty = false) (hn : ¬ NoEmptySub t.items) (le : E → E → Bool) (init : E → O)
    (bin : O → O → O) : s.compMax le = .error .expect ∧ s.compTfold init bin = .error .expect := by
  simp only [EvalRaz.compMax, EvalRaz.compTfold, ht, unwrap, bind, Except.bind]
  exact ⟨C10_fold_up_panics hr he hn _ _, C10_fold_up_panics hr he hn _ _⟩

/-- Such a tree: `memo_from` of a stack with one element that was archived last. -/
theorem C52_counterexample [RazMeta E M] (le : E → E → Bool) (e : E) (g : G) : ∃ t : RazTree E M, t.Reachable .any ∧ t.elems = [e] ∧
    (EvalRaz.incFromTree t 1 1 g : EvalRaz E M G).compMax le = .error .expect ∧ (⟨t.elems, g⟩ : EvalVec E G).compMax le = some e := by
  obtain ⟨t, ht⟩ : ∃ t : RazTree E M, memoFromHead ((AStack.new.push e : AStack E Nat).archive none 1).1 = .ok t := ⟨_, rfl⟩
  refine ⟨t, .memoHead (.archive none 1 (by decide) (.push e .new)) (.inl rfl) ht, ?_⟩
  cases ht
  exact ⟨rfl, rfl, rfl⟩

end Iodyn.Eval
