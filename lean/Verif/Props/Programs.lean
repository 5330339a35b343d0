import Verif.Proof.Programs
import Verif.Props.Eval
/-
C46, C54: the example programs reverse, filter and max.
-/
namespace Iodyn.Eval
variable {E M N G : Type}

/-! ### C46 -/

/-- **C46.** The incremental reverse does not panic; it gives `None` for an empty tree and otherwise a sequence with the
reversed elements, as the native program does. Archive points keep level and name and are reversed as well; empty
subsequences (which only `memo_from` can make) disappear, each with one archive point. -/
theorem C46_reverse [RazMeta E M] [RazMeta E N] {s : EvalRaz E M G} {t : RazTree E M} (ht : s.raztree = some t)
    (hr : t.Reachable .any) {g : G} :
    (t.isEmpty = true ∧ (Reverse.inc s : P (Option (RazTree E N))) = .ok none ∧ t.elems = []) ∨
    (t.isEmpty = false ∧ ∃ t' : RazTree E N, Reverse.inc s = .ok (some t') ∧
      Reverse.native (⟨t.elems, g⟩ : EvalVec E G) = .ok t'.elems ∧ t'.elems = t.elems.reverse ∧
      t'.items.Sublist t.items.reverse ∧ (t.Reachable .full → t'.items = t.items.reverse) ∧ t'.Reachable .full) := by
  obtain ⟨m, tr⟩ := t
  rcases tree_cases (Reach.t hr).inv.wf with ⟨hn, he⟩ | ⟨hw, he⟩
  · refine .inl ⟨he, ?_, ?_⟩
    · simp only at hn
      subst hn
      simp only [Reverse.inc, EvalRaz.compTfoldG, ht, unwrap, bind, Except.bind]
      rfl
    · simp only at hn; subst hn; rfl
  · obtain ⟨t', h1, h2, h3, h4, h5⟩ := reverse_wf (N := N) hw m
    refine .inr ⟨he, t', ?_, ?_, h2, h3, fun hf => ?_, h5⟩
    · simp only [Reverse.inc, EvalRaz.compTfoldG, ht, unwrap, bind, Except.bind]
      exact h1
    · rw [h2]; rfl
    · have := (Reach.t hf).tidy rfl
      refine h4 this.1 (fun hi => ?_)
      have := this.2 hi
      rw [show tr = .nil from this] at hw
      cases hw

example : ∃ t' : RazTree Nat Count, Reverse.inc (exEval Count) = .ok (some t') ∧ t'.elems = [6, 5, 4, 3, 2, 1] ∧
    t'.items = [.elem 6, .mark 4 (some (.str "b")), .elem 5, .elem 4, .mark 1 none, .elem 3, .mark 2 (some (.str "a")), .elem 2, .elem 1] := by
  rcases C46_reverse (N := Count) (g := 0) (s := exEval Count) rfl (exTree_reach Count .any) with ⟨h, -⟩ | ⟨-, t', h1, -, h2, -, h3, -⟩
  · cases h
  · exact ⟨t', h1, h2, h3 (exTree_reach Count .full)⟩

/-- **C46.** The incremental filter does not panic; it gives `None` for an empty tree and otherwise a sequence with the
filtered elements, as the native program does; it is the empty sequence if nothing matches. It is part of the given
sequence and has no empty subsequences (`Reachable .full`, with C11_no_empty_chunk). -/
theorem C46_filter [RazMeta E M] [RazMeta E N] (p : E → Bool) {s : EvalRaz E M G} {t : RazTree E M} (ht : s.raztree = some t)
    (hr : t.Reachable .any) {g : G} :
    (t.isEmpty = true ∧ (Filter.inc p s : P (Option (RazTree E N))) = .ok none ∧ t.elems = []) ∨
    (t.isEmpty = false ∧ ∃ t' : RazTree E N, Filter.inc p s = .ok (some t') ∧
      Filter.native p (⟨t.elems, g⟩ : EvalVec E G) = .ok t'.elems ∧ t'.elems = t.elems.filter p ∧
      t'.items.Sublist t.items ∧ t'.Reachable .full ∧ (t'.isEmpty = true ↔ ∀ e ∈ t.elems, p e = false)) := by
  obtain ⟨m, tr⟩ := t
  rcases tree_cases (Reach.t hr).inv.wf with ⟨hn, he⟩ | ⟨hw, he⟩
  · refine .inl ⟨he, ?_, ?_⟩
    · simp only at hn
      subst hn
      simp only [Filter.inc, EvalRaz.compTfoldG, ht, unwrap, bind, Except.bind]
      rfl
    · simp only at hn; subst hn; rfl
  · obtain ⟨t', h1, h2, h3, -⟩ := filter_wf (N := N) p hw m
    have h4 : t'.elems = (RazTree.mk m tr).elems.filter p := by rw [RazTree.elems, h2, thinTree_elems p hw]; rfl
    refine .inr ⟨he, t', ?_, ?_, h4, ?_, h3, ?_⟩
    · simp only [Filter.inc, EvalRaz.compTfoldG, ht, unwrap, bind, Except.bind]
      exact h1
    · rw [h4]; rfl
    · rw [h2]; exact thinTree_sublist p hw
    · rw [C16_is_empty_partial h3, h4, List.filter_eq_nil_iff]
      simp

/-- **C46.** Which archive points the filter keeps, for trees that were not made with `RazTree::join`: of the archive
points between two elements that are kept, the first one of the highest level. The result is heap ordered again. -/
theorem C46_filter_archives [RazMeta E M] [RazMeta E N] (p : E → Bool) {s : EvalRaz E M G} {t : RazTree E M}
    (ht : s.raztree = some t) (hr : t.Reachable .edit) (hne : t.isEmpty = false) :
    ∃ t' : RazTree E N, Filter.inc p s = .ok (some t') ∧ t'.items = thin p t.items ∧ HeapOrdered t'.tree := by
  obtain ⟨m, tr⟩ := t
  rcases tree_cases (Reach.t hr).inv.wf with ⟨hn, he⟩ | ⟨hw, he⟩
  · rw [hne] at he; cases he
  · obtain ⟨t', h1, h2, -, h4⟩ := filter_wf (N := N) p hw m
    have hc : Canon tr := (Reach.t hr).canon rfl
    refine ⟨t', ?_, ?_, (h4 hc).1.heap⟩
    · simp only [Filter.inc, EvalRaz.compTfoldG, ht, unwrap, bind, Except.bind]
      exact h1
    · rw [h2, thinTree_canon p hw hc]; rfl

example : ∃ t' : RazTree Nat Count, Filter.inc (fun e => e % 2 == 0) (exEval Count) = .ok (some t') ∧ t'.elems = [2, 4, 6] ∧
    t'.items = [.elem 2, .mark 2 (some (.str "a")), .elem 4, .mark 4 (some (.str "b")), .elem 6] := by
  obtain ⟨t', h1, h2, -⟩ := C46_filter_archives (N := Count) (fun e => e % 2 == 0) (s := exEval Count) rfl (exTree_reach Count .edit) rfl
  exact ⟨t', h1, by rw [RazTree.elems, h2]; rfl, h2⟩
example : ∃ t' : RazTree Nat Count, Filter.inc (fun e => decide (6 < e)) (exEval Count) = .ok (some t') ∧ t'.isEmpty = true := by
  rcases C46_filter (N := Count) (fun e => decide (6 < e)) (g := 0) (s := exEval Count) rfl (exTree_reach Count .any) with
    ⟨h, -⟩ | ⟨-, t', h1, -, -, -, -, h2⟩
  · cases h
  · refine ⟨t', h1, h2.2 (fun e he => ?_)⟩
    have : e ∈ [1, 2, 3, 4, 5, 6] := he
    simp at this ⊢
    omega

/-- With a tree made by `RazTree::join` at a low level the filter may keep a lower archive point instead. -/
theorem C46_filter_join : ∃ (t : RazTree Nat Count) (t' : RazTree Nat Count), t.Reachable .full ∧
    t.items = [.elem 1, .mark 1 none, .elem 2, .mark 5 none, .elem 3] ∧
    Filter.inc (fun e => decide (e ≠ 2)) (EvalRaz.incFromTree t 1 1 () : EvalRaz Nat Count Unit) = .ok (some t') ∧
    t'.items = [.elem 1, .mark 1 none, .elem 3] ∧
    thin (fun e => decide (e ≠ 2)) t.items = [.elem 1, .mark 5 none, .elem 3] := by
  have r : ∀ v : List Nat, v ≠ [] → ∃ t : RazTree Nat Count, RazTree.fromVec v = .ok (some t) ∧ t.Reachable .full ∧ t.tree = leaf v none := by
    intro v hv
    have e : RazTree.fromVec v = .ok (some ⟨metaOf 0 none (leaf v none), leaf v none⟩ : Option (RazTree Nat Count)) := by
      simp [RazTree.fromVec, hv, mkRazTree, leaf, treetopMeta, bind, Except.bind, pure, Except.pure, metaOf]
    exact ⟨_, e, .fromVec e, rfl⟩
  obtain ⟨a, -, ha, ea⟩ := r [1] (by simp)
  obtain ⟨b, -, hb, eb⟩ := r [2] (by simp)
  obtain ⟨c, -, hc, ec⟩ := r [3] (by simp)
  obtain ⟨ia, ta⟩ := a
  obtain ⟨ib, tb⟩ := b
  obtain ⟨ic, tc⟩ := c
  simp only at ea eb ec
  subst ea eb ec
  refine ⟨_, _, .join (nm := none) (lev := 1) rfl ha (.join (nm := none) (lev := 5) rfl hb hc (by decide) rfl) (by decide) rfl, rfl, rfl, rfl, rfl⟩

/-! ### C54 -/

theorem maxInc_wf [RazMeta E M] {le : E → E → Bool} (tot : ∀ a b, le a b = true ∨ le b a = true)
    (tr : ∀ a b c, le a b = true → le b c = true → le a c = true)
    {t : Tree (TreeData E M)} (h : WF t) (ht : NoEmptySub t.items) (m : M) :
    ∃ x, (RazTree.mk m t).foldUpGauged (Max.init le) (Max.bin le) = .ok (some x) ∧
      fold1 (EvalRaz.cmpMax le) (elemsOf t.items) = some x := by
  induction h with
  | leaf v =>
    cases v with
    | nil => exact absurd rfl ((noEmptySub_leaf _).1 (by simpa using ht))
    | cons e v =>
      refine ⟨v.foldl (EvalRaz.cmpMax le) e, ?_, ?_⟩
      · simp [RazTree.foldUpGauged, Tree.foldUpMeta, Max.init, Max.vecMax, unwrap, bind, Except.bind, pure, Except.pure]
        rfl
      · rw [items_leaf, elemsOf_map_elem]; rfl
  | branch hlv hl hr ihl ihr =>
    rw [items_branch] at ht
    obtain ⟨t1, t2⟩ := (noEmptySub_branch _ _ _ _).1 ht
    obtain ⟨x, hx, fx⟩ := ihl t1
    obtain ⟨y, hy, fy⟩ := ihr t2
    refine ⟨EvalRaz.cmpMax le x y, ?_, ?_⟩
    · simp only [RazTree.foldUpGauged] at hx hy ⊢
      simp only [Tree.foldUpMeta, hx, hy, bind, Except.bind, pure, Except.pure]
      rfl
    · rw [items_branch, elemsOf_append, elemsOf_cons_mark rfl]
      exact fold1_append _ (cmpMax_assoc tot tr) fx fy

/-- **C54, partial.** The incremental maximum program returns the last greatest element, and the native program returns the same;
on the empty sequence the first returns `None` and the second panics. Missing: trees with an empty subsequence, on which
the first panics, see `C54_max_panics` and `C54_max_empty`. -/
theorem C54_max_partial [RazMeta E M] {le : E → E → Bool}
    (tot : ∀ a b, le a b = true ∨ le b a = true)
    (tr : ∀ a b c, le a b = true → le b c = true → le a c = true) {s : EvalRaz E M G} {t : RazTree E M} (ht : s.raztree = some t)
    (hr : t.Reachable .any) (hne : t.isEmpty = true ∨ NoEmptySub t.items) {g : G} :
    (t.elems = [] → Max.inc le s = .ok none ∧ Max.native le (⟨t.elems, g⟩ : EvalVec E G) = .error .unwrapNone) ∧
    (t.elems ≠ [] → ∃ m, LastMax le t.elems m ∧ Max.inc le s = .ok (some m) ∧
      Max.native le (⟨t.elems, g⟩ : EvalVec E G) = .ok m) := by
  obtain ⟨mt, t⟩ := t
  have hT := Reach.t hr
  simp only [Max.inc, EvalRaz.compTfoldG, ht, unwrap, bind, Except.bind]
  rcases hT.inv.wf with hn | hw
  · simp only at hn
    subst hn
    exact ⟨fun _ => ⟨rfl, rfl⟩, fun h => absurd rfl h⟩
  · have hN : NoEmptySub t.items := by
      rcases hne with h | h
      · cases hw <;> simp [RazTree.isEmpty, leaf, Tree.isSome] at h
      · exact h
    obtain ⟨x, h1, h2⟩ := maxInc_wf tot tr hw hN mt
    have he : (RazTree.mk mt t).elems = elemsOf t.items := rfl
    obtain ⟨l, hl⟩ : ∃ l, elemsOf t.items = l := ⟨_, rfl⟩
    rw [he, hl]
    rw [hl] at h2
    rcases l with _ | ⟨a, l⟩
    · cases h2
    · refine ⟨fun h => (by cases h), fun _ => ⟨x, ?_, h1, ?_⟩⟩
      · simp only [fold1, Option.some.injEq] at h2
        subst h2
        exact fold_lastMax tot tr a l
      · simp only [fold1, Option.some.injEq] at h2
        subst h2
        rfl

example : ∃ m, LastMax (fun a b => decide (a % 4 ≤ b % 4)) [1, 2, 3, 4, 5, 6] m ∧
    Max.inc (fun a b => decide (a % 4 ≤ b % 4)) (exEval Count) = .ok (some m) ∧
    Max.native (fun a b => decide (a % 4 ≤ b % 4)) (⟨[1, 2, 3, 4, 5, 6], 7⟩ : EvalVec Nat Nat) = .ok m :=
  (C54_max_partial (g := 7) (le := fun a b => decide (a % 4 ≤ b % 4)) (by intro a b; simp; omega) (by intro a b c; simp; omega)
    (s := exEval Count) rfl (exTree_reach Count .any) (full_noEmptySub (exTree_reach Count .full))).2 (by decide)

/-- **C54**, the remaining trees: with an empty subsequence the incremental program panics. -/
theorem C54_max_panics [RazMeta E M] {le : E → E → Bool} {s : EvalRaz E M G} {t : RazTree E M} (ht : s.raztree = some t)
    (hr : t.Reachable .any) (he : t.isEmpty = false) (hn : ¬ NoEmptySub t.items) : Max.inc le s = .error .unwrapNone := by
  obtain ⟨mt, t⟩ := t
  simp only [Max.inc, EvalRaz.compTfoldG, ht, unwrap, bind, Except.bind]
  have step : ∀ {t : Tree (TreeData E M)}, WF t →
      (RazTree.mk mt t).foldUpGauged (Max.init le) (Max.bin le) = .error .unwrapNone ∨
        ∃ x, (RazTree.mk mt t).foldUpGauged (Max.init le) (Max.bin le) = .ok (some x) := by
    intro t h
    induction h with
    | leaf v =>
      cases v with
      | nil => exact .inl rfl
      | cons e v => exact .inr ⟨_, rfl⟩
    | branch hlv hl hr ihl ihr =>
      simp only [RazTree.foldUpGauged] at ihl ihr ⊢
      rcases ihl with ihl | ⟨x, ihl⟩
      · exact .inl (by simp only [Tree.foldUpMeta, ihl, bind, Except.bind])
      · rcases ihr with ihr | ⟨y, ihr⟩
        · exact .inl (by simp only [Tree.foldUpMeta, ihl, ihr, bind, Except.bind])
        · exact .inr ⟨_, by simp only [Tree.foldUpMeta, ihl, ihr, bind, Except.bind]; rfl⟩
  have key : ∀ {t : Tree (TreeData E M)}, WF t → ¬ NoEmptySub t.items →
      (RazTree.mk mt t).foldUpGauged (Max.init le) (Max.bin le) = .error .unwrapNone := by
    intro t h
    induction h with
    | leaf v =>
      intro hn
      rw [items_leaf, noEmptySub_leaf, not_not] at hn
      subst hn
      rfl
    | @branch lv nm l r hlv hl hr ihl ihr =>
      intro hn
      rw [items_branch, noEmptySub_branch] at hn
      have sl := step hl
      simp only [RazTree.foldUpGauged] at ihl ihr sl ⊢
      rcases sl with sl | ⟨x, sl⟩
      · simp only [Tree.foldUpMeta, sl, bind, Except.bind]
      · by_cases h1 : NoEmptySub l.items
        · simp only [Tree.foldUpMeta, sl, ihr (fun h2 => hn ⟨h1, h2⟩), bind, Except.bind]
        · simp only [Tree.foldUpMeta, ihl h1, bind, Except.bind]
  rcases (Reach.t hr).inv.wf with hn' | hw
  · simp only at hn'
    subst hn'
    simp [RazTree.isEmpty, Tree.isSome] at he
  · exact key hw hn

/-- **C54 is false** with the empty top that `memo_from` makes of a stack archived last: the incremental program panics,
the native program on the same elements does not. -/
theorem C54_max_empty (le : E → E → Bool) [RazMeta E M] (e : E) (g : G) : ∃ t : RazTree E M,
    memoFromHead ((AStack.new.push e : AStack E Nat).archive none 1).1 = .ok t ∧ t.Reachable .any ∧ t.elems = [e] ∧
    Max.inc le (EvalRaz.incFromTree t 1 1 g : EvalRaz E M G) = .error .unwrapNone ∧
    Max.native le (⟨t.elems, g⟩ : EvalVec E G) = .ok e := by
  obtain ⟨t, ht⟩ : ∃ t : RazTree E M, memoFromHead ((AStack.new.push e : AStack E Nat).archive none 1).1 = .ok t := ⟨_, rfl⟩
  refine ⟨t, ht, .memoHead (.archive none 1 (by decide) (.push e .new)) (.inl rfl) ht, ?_⟩
  cases ht
  exact ⟨rfl, rfl, rfl⟩

end Iodyn.Eval
