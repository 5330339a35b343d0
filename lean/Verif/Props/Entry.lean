import Verif.Props.Eval
import Verif.Props.Stack
import Verif.Props.Tree
import Verif.Props.Canon
/-
C25, C31, C44, C45, C50, C52: the remaining entry points: stacks from vectors, cursors over data without updates,
harnesses from nothing, from a cursor and from a stack, `extend`, reversal and the tree fold with levels.
-/
namespace Iodyn

/-! ### C25: stacks made from vectors -/

/-- **C25.** A stack made from a vector answers every history of calls as the list specification does when it starts with the
elements of the vector, the last one on top; so it cannot be told from a new stack on which they were pushed in order. -/
theorem C25_of_vec {E : Type} (v : List E) (ops : List (SOp E Unit)) :
    (AStack.ofVec v).answers ops = .ok (specAnswers (v.reverse.map .elem) ops) ∧
    (AStack.ofVec v).answers ops = (v.foldl AStack.push AStack.new).answers ops ∧
    (AStack.ofVec v).drain (v.length + 1) = .ok v.reverse := by
  have hs : StackP (fun _ => True) (AStack.ofVec v) := by intro p hp; simp [AStack.ofVec] at hp
  have key : ∀ (ops : List (SOp E Unit)) {s : AStack E Unit}, StackP (fun _ => True) s → s.answers ops = .ok (specAnswers (sItems s) ops) := by
    intro ops
    induction ops with
    | nil => intro s _; rfl
    | cons op ops ih =>
      intro s h
      obtain ⟨s', h1, h2, h3⟩ := step_spec h op
      unfold AStack.answers specAnswers
      rw [h1]
      simp only [bind, Except.bind, ih h3, h2, pure, Except.pure]
  have hf : ∀ (w : List E) (s : AStack E Unit), w.foldl AStack.push s = { s with current := s.current ++ w } := by
    intro w
    induction w with
    | nil => intro s; simp
    | cons e w ih => intro s; rw [List.foldl_cons, ih]; simp [AStack.push]
  refine ⟨?_, ?_, ?_⟩
  · rw [key ops hs]
    simp [sItems, AStack.ofVec]
  · rw [hf]; rfl
  · have he : (AStack.ofVec v).elems = v.reverse := by simp [AStack.ofVec, AStack.elems]
    rw [← he]
    exact drain_spec _ hs (by rw [he]; simp)

example : (AStack.ofVec [1, 2, 3]).answers [.pop, .archive none (), .push 7, .pop, .pop, .pop, .pop] =
    .ok (specAnswers [.elem 3, .elem 2, .elem 1] [.pop, .archive none (), .push 7, .pop, .pop, .pop, .pop]) :=
  (C25_of_vec [1, 2, 3] _).1

/-! ### C31: data without updates -/

theorem derive_keeps (D : Type) : @KeepsUnder D D (deriveTreeUpdate D) id := by
  intro a d lv nm b d' h
  simpa [TreeUpdate.rebuild] using h.symm

theorem derive_total (D : Type) (a : Option D) (d : D) (lv nm b) : ∃ d', @TreeUpdate.rebuild D (deriveTreeUpdate D) a d lv nm b = .ok d' :=
  ⟨d, rfl⟩

/-- **C31.** For every type with the derived update, splitting at a node and joining again with that node's data gives back the
tree, with all data. -/
theorem C31_derived {D : Type} {c : Cursor D} (hc : @Cursor.Made D (deriveTreeUpdate D) c) {lv nm d l r}
    (hn : c.atTree = .node lv nm d l r) :
    ∃ c' t, @Cursor.join D (deriveTreeUpdate D) c.split.1 lv nm d c.split.2.2 = .ok c' ∧
      @Cursor.whole D (deriveTreeUpdate D) c' = .ok t ∧ @Cursor.whole D (deriveTreeUpdate D) c = .ok t :=
  @C31_split_join D (deriveTreeUpdate D) (derive_keeps D) (derive_total D) c hc _ _ _ _ _ hn

example : ∃ c' t, @Cursor.join Nat (deriveTreeUpdate Nat) exC.split.1 3 (some (.usize 3)) 31 exC.split.2.2 = .ok c' ∧
    @Cursor.whole Nat (deriveTreeUpdate Nat) c' = .ok t ∧ @Cursor.whole Nat (deriveTreeUpdate Nat) exC = .ok t :=
  C31_derived exC_made rfl

end Iodyn

namespace Iodyn.Eval
variable {E M G R : Type}

/-! ### C44: the other constructions of the incremental harness -/

/-- **C44.** An empty harness always succeeds, holds no elements and starts both counters at zero. -/
theorem C44_empty [RazMeta E M] {u : Usage} (dg ng : Nat) (coord : G) :
    ∃ (s : EvalRaz E M G) (t : RazTree E M), EvalRaz.incEmpty dg ng coord = .ok s ∧ s.raztree = some t ∧ t.Reachable u ∧
      t.elems = [] ∧ t.isEmpty = true ∧ s.datagauge = dg ∧ s.namegauge = ng ∧ s.names = 0 ∧ s.counter = 0 ∧ s.coord = coord := by
  obtain ⟨t, ht⟩ : ∃ t : RazTree E M, (Raz.new : Raz E M).unfocus = .ok t := ⟨_, rfl⟩
  refine ⟨_, t, by simp only [EvalRaz.incEmpty, ht, bind, Except.bind, pure, Except.pure]; rfl, rfl, .unfocus .new ht, ?_, ?_, rfl, rfl, rfl, rfl, rfl⟩
  all_goals
    cases ht
    rfl

/-- **C44.** A harness from any reachable cursor succeeds and holds the elements left and right of the cursor, in order. -/
theorem C44_from_raz [RazMeta E M] {u : Usage} {z : Raz E M} (hz : z.Reachable u) (dg ng : Nat) (coord : G) :
    ∃ (s : EvalRaz E M G) (t : RazTree E M), EvalRaz.incFromRaz z dg ng coord = .ok s ∧ s.raztree = some t ∧ t.Reachable u ∧
      z.unfocus = .ok t ∧ t.elems = z.leftElems.reverse ++ z.rightElems ∧
      s.datagauge = dg ∧ s.namegauge = ng ∧ s.names = 0 ∧ s.counter = 0 ∧ s.coord = coord := by
  obtain ⟨t, h1, h2⟩ := C02_unfocus_elements (Reach.any hz)
  exact ⟨_, t, by simp only [EvalRaz.incFromRaz, h1, bind, Except.bind, pure, Except.pure]; rfl, rfl, .unfocus hz h1, h1, h2, rfl, rfl, rfl, rfl, rfl⟩

/-- **C44.** A harness from any archive stack with levels of at least 1 and below the greatest `u32` succeeds and holds the elements of the stack from bottom
to top. -/
theorem C44_from_tail [RazMeta E M] {d : AStack E Nat} (h : d.Built (fun n => 1 ≤ n ∧ n < u32Max)) (dg ng : Nat) (coord : G) :
    ∃ (s : EvalRaz E M G) (t : RazTree E M), EvalRaz.incFromTail d dg ng coord = .ok s ∧ s.raztree = some t ∧ t.Reachable .any ∧
      t.elems = d.elems.reverse ∧ s.datagauge = dg ∧ s.namegauge = ng ∧ s.names = 0 ∧ s.counter = 0 ∧ s.coord = coord := by
  obtain ⟨t, h1, h2⟩ := C17_memo_from_tail (M := M) h
  exact ⟨_, t, by simp only [EvalRaz.incFromTail, h1, bind, Except.bind, pure, Except.pure]; rfl, rfl, .memoTail h (.inl rfl) h1, h2.2, rfl, rfl, rfl, rfl, rfl⟩

example : ∃ (s : EvalRaz Nat Count Nat) (t : RazTree Nat Count), EvalRaz.incEmpty 2 3 10 = .ok s ∧ s.raztree = some t ∧ t.elems = [] := by
  obtain ⟨s, t, h1, h2, -, h4, -⟩ := C44_empty (M := Count) (u := .edit) (E := Nat) 2 3 10
  exact ⟨s, t, h1, h2, h4⟩
example : ∃ (s : EvalRaz Nat Count Nat) (t : RazTree Nat Count),
    EvalRaz.incFromRaz ((((Raz.new : Raz Nat Count).pushLeft 1).1.pushLeft 2).1.pushRight 3).1 2 3 10 = .ok s ∧ s.raztree = some t ∧
    t.elems = [1, 2, 3] := by
  obtain ⟨s, t, h1, h2, -, -, h5, -⟩ := C44_from_raz (M := Count) (u := .edit) (.pushR 3 (.pushL 2 (.pushL 1 .new))) 2 3 10
  exact ⟨s, t, h1, h2, h5⟩
example : ∃ (s : EvalRaz Nat Count Nat) (t : RazTree Nat Count),
    EvalRaz.incFromTail ((((AStack.new : AStack Nat Nat).push 1).archive none 1).1.push 2) 2 3 10 = .ok s ∧ s.raztree = some t ∧
    t.elems = [1, 2] := by
  obtain ⟨s, t, h1, h2, -, h4, -⟩ := C44_from_tail (M := Count) (.push 2 (.archive none 1 (by decide) (.push 1 .new))) 2 3 10
  exact ⟨s, t, h1, h2, h4⟩

/-! ### C45: histories from nothing -/

/-- **C45.** A harness that starts empty, appends a batch first and then goes through any history of insertions and appends
holds what these edits make of the empty list. -/
theorem C45_from_empty {u : Usage} (C : Coord G E) (word : R → BitVec 64 × R) (dg ng : Nat) (coord : G) (n : Nat) (ops : List Edit) (rng : R)
    (hd : dg ≠ 0) (hn : ng ≠ 0) (hq : ng * dg ≤ usizeMax) (h0 : n ≠ 0)
    (hlen : n + (ops.map Edit.size).sum + ops.length + 1 ≤ usizeMax) :
    ∃ (s s' : EvalRaz E Count G) (t' : RazTree E Count) (rng' : R), EvalRaz.incEmpty dg ng coord = .ok s ∧
      runEdits C word (.append n :: ops) s rng = .ok (s', rng') ∧ s'.raztree = some t' ∧ t'.Reachable u ∧
      (t'.elems, s'.coord) = specEdits C (.append n :: ops) ([], coord) := by
  obtain ⟨s, t, e1, e2, e3, e4, -, e6, e7, e8, e9, e10⟩ := C44_empty (E := E) (M := Count) (u := u) dg ng coord
  have hdv := Nat.div_le_self n (ng * dg)
  obtain ⟨s1, t1, h1, h2, h3, h4, h5, h6, h7, h8⟩ := C45_append (u := u) C word e2 e3 (by rw [e4]; simp [usizeMax]) n rng
    ⟨by rw [e6]; exact hd, by rw [e7]; exact hn, by rw [e6, e7]; exact hq, by omega, by omega, by rw [e8, e6, e7]; omega⟩
  have hl : t1.elems = draws C.elem coord n := by
    have : t1.elems = (Edit.spec C (.append n) (t.elems, s.coord)).1 := by rw [← h4]
    rw [this, e4, e10]
    simp [Edit.spec]
  have hl' : t1.elems.length = n := by rw [hl]; simp [draws]
  obtain ⟨s', t', rng', g1, g2, g3, g4⟩ := C45_histories C word ops h2 h3 (by intro h; rw [h] at hl'; exact h0 hl'.symm)
    (after word rng (n / s.datagauge + 1)) (by rw [h7, e6]; exact hd) (by rw [h8, e7]; exact hn) (by rw [h7, h8, e6, e7]; exact hq)
    (by omega) (by omega) (by rw [h5, e8, e6, e7]; omega)
  refine ⟨s, s', t', rng', e1, ?_, g2, g3, ?_⟩
  · simp only [runEdits, Edit.run, h1, bind, Except.bind, g1]
  · rw [g4, h4, specEdits, e4, e10]

/-- **C45.** If it inserts first, it panics. -/
theorem C45_from_empty_insert (C : Coord G E) (word : R → BitVec 64 × R) (dg ng : Nat) (coord : G) (n : Nat) (ops : List Edit) (rng : R) :
    ∃ s : EvalRaz E Count G, EvalRaz.incEmpty dg ng coord = .ok s ∧ runEdits C word (.insert n :: ops) s rng = .error .overflow := by
  obtain ⟨s, t, e1, e2, e3, e4, -⟩ := C44_empty (E := E) (M := Count) (u := .any) dg ng coord
  refine ⟨s, e1, ?_⟩
  simp only [runEdits, Edit.run, C45_insert_empty C word e2 e3 e4 n rng, bind, Except.bind]

example : ∃ (s s' : EvalRaz Nat Count Nat) (t' : RazTree Nat Count) (rng' : Nat), EvalRaz.incEmpty 2 2 5 = .ok s ∧
    runEdits exCoord exWord [.append 3, .insert 2, .append 1] s 0 = .ok (s', rng') ∧ s'.raztree = some t' ∧
    (t'.elems, s'.coord) = specEdits exCoord [.append 3, .insert 2, .append 1] ([], 5) := by
  obtain ⟨s, s', t', r, h1, h2, h3, -, h5⟩ := C45_from_empty (u := .edit) exCoord exWord 2 2 5 3 [.insert 2, .append 1] 0
    (by decide) (by decide) (by decide) (by decide) (by decide)
  exact ⟨s, s', t', r, h1, h2, h3, h5⟩

/-! ### C50: extending vectors, empty harnesses -/

/-- **C50.** `extend` of the vector harness adds exactly the generated elements at the end, as `append` does. -/
theorem C50_extend (C : Coord G E) (s : EvalVec E G) (batch : Nat) :
    (s.extend C batch).vec = s.vec ++ draws C.elem s.coord batch ∧ (s.extend C batch).coord = after C.elem s.coord batch ∧
    s.extend C batch = s.append C batch := by
  simp only [EvalVec.extend, EvalVec.append, genData_eq, foldl_push, and_self]

example : (EvalVec.extend exCoord ⟨[1, 2], 5⟩ 3).vec = [1, 2, 5, 6, 7] := (C50_extend exCoord ⟨[1, 2], 5⟩ 3).1

/-- **C50.** Harnesses created empty hold the same elements, namely none, and the same generator; after one append they
still do. -/
theorem C50_empty (C : Coord G E) (word : R → BitVec 64 × R) (dg ng : Nat) (coord : G) (n : Nat) (rng : R)
    (hd : dg ≠ 0) (hn : ng ≠ 0) (hq : ng * dg ≤ usizeMax) (hlen : n + 1 ≤ usizeMax) :
    ∃ (s s' : EvalRaz E Count G) (t t' : RazTree E Count) (rng' : R), EvalRaz.incEmpty dg ng coord = .ok s ∧ s.raztree = some t ∧
      t.elems = (EvalVec.incEmpty coord : EvalVec E G).vec ∧ s.coord = (EvalVec.incEmpty coord : EvalVec E G).coord ∧
      EvalIRaz.append C word s n rng = .ok (s', rng') ∧ s'.raztree = some t' ∧
      t'.elems = ((EvalVec.incEmpty coord : EvalVec E G).append C n).vec ∧
      t'.elems = ((EvalVec.incEmpty coord : EvalVec E G).extend C n).vec := by
  obtain ⟨s, t, e1, e2, e3, e4, -, e6, e7, e8, e9, e10⟩ := C44_empty (E := E) (M := Count) (u := .any) dg ng coord
  have hdv := Nat.div_le_self n (ng * dg)
  obtain ⟨s1, t1, h1, h2, h3, h4, -⟩ := C45_append (u := .any) C word e2 e3 (by rw [e4]; simp [usizeMax]) n rng
    ⟨by rw [e6]; exact hd, by rw [e7]; exact hn, by rw [e6, e7]; exact hq, by omega, by omega, by rw [e8, e6, e7]; omega⟩
  have hl : t1.elems = draws C.elem coord n := by
    have : t1.elems = (Edit.spec C (.append n) (t.elems, s.coord)).1 := by rw [← h4]
    rw [this, e4, e10]
    simp [Edit.spec]
  refine ⟨s, s1, t, t1, _, e1, e2, e4, e10, h1, h2, ?_, ?_⟩
  · rw [hl, ← (C50_extend C _ n).2.2, (C50_extend C _ n).1]
    simp [EvalVec.incEmpty]
  · rw [hl, (C50_extend C _ n).1]
    simp [EvalVec.incEmpty]

example : ∃ (s s' : EvalRaz Nat Count Nat) (t' : RazTree Nat Count) (rng' : Nat), EvalRaz.incEmpty 2 2 5 = .ok s ∧
    EvalIRaz.append exCoord exWord s 3 0 = .ok (s', rng') ∧ s'.raztree = some t' ∧
    t'.elems = ((EvalVec.incEmpty 5 : EvalVec Nat Nat).append exCoord 3).vec := by
  obtain ⟨s, s', t, t', r, h1, -, -, -, h5, h6, h7, -⟩ := C50_empty exCoord exWord 2 2 5 3 0 (by decide) (by decide) (by decide) (by decide)
  exact ⟨s, s', t', r, h1, h5, h6, h7⟩

/-! ### C52: reversal, tree folds with levels and names -/

/-- **C52.** Reversal of the vector harness: position `i` from the front holds what was at position `i` from the back. -/
theorem C52_rev (s : EvalVec E G) : s.compRev.length = s.vec.length ∧
    ∀ i j, i + j + 1 = s.vec.length → s.compRev[i]? = s.vec[j]? := by
  refine ⟨by simp [EvalVec.compRev], fun i j h => ?_⟩
  rw [EvalVec.compRev, List.getElem?_reverse (by omega)]
  congr 1
  omega

example : (⟨[4, 5, 6], ()⟩ : EvalVec Nat Unit).compRev[0]? = some 6 := (C52_rev ⟨[4, 5, 6], ()⟩).2 0 2 rfl

/-- **C52, partial.** Tree fold with levels and names: elements between archive points are combined by `bin`, the results
across archive points by `binnl`. If `binnl` ignores level and name and is `bin`, the result is that of `comp_tfold`.
Missing: trees with an empty subsequence, see `C52_tfoldnl_panics`. -/
theorem C52_tfoldnl_partial [RazMeta E M] {O : Type} {s : EvalRaz E M G} {t : RazTree E M}
    (ht : s.raztree = some t) (hr : t.Reachable .any) (hne : t.isEmpty = true ∨ NoEmptySub t.items) (init : E → O) (bin : O → O → O)
    (binnl : O → Nat → Option Name → O → O)
    (hassoc : ∀ a l n b l' n' c, binnl (binnl a l n b) l' n' c = binnl a l n (binnl b l' n' c)) (d : O) :
    s.compTfoldNl init bin binnl = .ok (if t.elems = [] then none
      else some (foldChunks (fun v => (fold1 bin (v.map init)).getD d) binnl (chunks t.items))) ∧
    ((∀ a b c, bin (bin a b) c = bin a (bin b c)) →
      s.compTfoldNl init bin (fun a _ _ b => bin a b) = .ok (fold1 bin (t.elems.map init))) := by
  simp only [EvalRaz.compTfoldNl, ht, unwrap, bind, Except.bind]
  exact ⟨C11_fold_up_nl_partial hr hne init bin binnl hassoc d, fun h => C10_fold_up_partial hr hne init bin h⟩

example : (exEval Count).compTfoldNl (fun n => n) (· + ·) (fun a l _ b => a + 100 * l + b) = .ok (some 721) :=
  (C52_tfoldnl_partial (s := exEval Count) rfl (exTree_reach Count .any) (full_noEmptySub (exTree_reach Count .full)) (fun n => n) (· + ·)
    (fun a l _ b => a + 100 * l + b) (by intros; omega) 0).1

/-- **C52**, the remaining trees: this fold panics too. -/
theorem C52_tfoldnl_panics [RazMeta E M] {O : Type} {s : EvalRaz E M G} {t : RazTree E M} (ht : s.raztree = some t)
    (hr : t.Reachable .any) (he : t.isEmpty = false) (hn : ¬ NoEmptySub t.items) (init : E → O) (bin : O → O → O)
    (binnl : O → Nat → Option Name → O → O) : s.compTfoldNl init bin binnl = .error .expect := by
  simp only [EvalRaz.compTfoldNl, ht, unwrap, bind, Except.bind]
  exact C11_fold_up_nl_panics hr he hn init bin binnl

/-- There are such harnesses. -/
example (e : E) (g : G) [RazMeta E M] : ∃ s : EvalRaz E M G, EvalRaz.incFromTail (((AStack.new : AStack E Nat).push e).archive none 1).1 1 1 g = .ok s ∧
    s.compTfoldNl (fun e => [e]) (· ++ ·) (fun a _ _ b => a ++ b) = .error .expect := ⟨_, rfl, rfl⟩

end Iodyn.Eval
