import Verif.Props.Meta
import Verif.Proof.Fold
/-
C10–C16: folds, map, join, from_vec, empty.
-/
namespace Iodyn
variable {E M R A F N : Type}

/-! ### emptiness (C16) -/

/-- **C16, partial.** `is_empty` tells whether there are no elements. Missing: trees made by `memo_from` of a stack that was
archived last, where it is false (`C16_is_empty_counterexample`). -/
theorem C16_is_empty_partial [RazMeta E M] {t : RazTree E M} (h : t.Reachable .full) : t.isEmpty = true ↔ t.elems = [] := by
  have ht := Reach.t h
  have h1 : t.isEmpty = true ↔ t.tree = .nil := by
    unfold RazTree.isEmpty
    cases t.tree <;> simp [Tree.isSome]
  rw [h1]
  constructor
  · intro hn; simp [RazTree.elems, RazTree.items, hn, elemsOf]
  · intro he
    exact (ht.tidy rfl).2 (tidy_nil_of_elems (ht.tidy rfl).1.1 he)

example : (exTree Count).isEmpty = false ∧ (RazTree.empty : RazTree Nat Count).isEmpty = true := ⟨rfl, rfl⟩

/-- **C16**: an empty tree has no elements. -/
theorem C16_is_empty_sound [RazMeta E M] {t : RazTree E M} (h : t.isEmpty = true) : t.elems = [] := by
  obtain ⟨i, tr⟩ := t
  cases tr with
  | nil => rfl
  | node => simp [RazTree.isEmpty, Tree.isSome] at h

/-- **C16 is false** for `is_empty`: `memo_from` of a stack with one archived element, then popping that element, gives a
sequence without elements that is not empty for `is_empty` (it has an empty leaf). -/
theorem C16_is_empty_counterexample : ∃ t : RazTree Nat Count, t.Reachable .any ∧ t.elems = [] ∧ t.isEmpty = false := by
  have h : (do
      let t : RazTree Nat Count ← memoFromTail (((AStack.new : AStack Nat Nat).push 7).archive none 1).1
      let z ← t.focusLeft
      let (z', _) ← z.popRight
      let t' ← z'.unfocus
      return (t'.elems, t'.isEmpty)) = (.ok ([], false) : P (List Nat × Bool)) := by decide +kernel
  obtain ⟨t, h1, h⟩ := bind_ok.1 h
  obtain ⟨z, h2, h⟩ := bind_ok.1 h
  obtain ⟨⟨z', o⟩, h3, h⟩ := bind_ok.1 h
  obtain ⟨t', h4, h⟩ := bind_ok.1 h
  simp only [pure, Except.pure, Except.ok.injEq, Prod.mk.injEq] at h
  exact ⟨t', .unfocus (.popR (.focusLeft (.memoTail (.archive _ _ (by decide) (.push _ .new)) (.inl rfl) h1) h2) h3) h4, h.1, h.2⟩

theorem tree_cases [RazMeta E M] {t : RazTree E M} (h : WFo t.tree) :
    (t.tree = .nil ∧ t.isEmpty = true) ∨ (WF t.tree ∧ t.isEmpty = false) := by
  rcases h with h | h
  · exact .inl ⟨h, by simp [RazTree.isEmpty, h, Tree.isSome]⟩
  · exact .inr ⟨h, by simp [RazTree.isEmpty, h.isSome]⟩

/-! ### C10 -/

/-- Edited trees have no empty subsequences. -/
theorem full_noEmptySub [RazMeta E M] {t : RazTree E M} (h : t.Reachable .full) : t.isEmpty = true ∨ NoEmptySub t.items := by
  have ht := Reach.t h
  rcases tree_cases ht.inv.wf with ⟨-, he⟩ | ⟨hw, -⟩
  · exact .inl he
  · refine .inr ((ht.tidy rfl).1.noEmptySub fun hi => ?_)
    rw [(ht.tidy rfl).2 hi] at hw; cases hw

/-- **C10, partial.** `fold_up` with an associative operation is the fold of the mapped elements, `None` exactly for
the empty sequence; it does not panic. Missing: sequences with an empty subsequence, where it always panics
(`C10_fold_up_panics`). -/
theorem C10_fold_up_partial [RazMeta E M] {t : RazTree E M} (h : t.Reachable .any) (hne : t.isEmpty = true ∨ NoEmptySub t.items)
    (init : E → R) (bin : R → R → R) (hassoc : ∀ a b c, bin (bin a b) c = bin a (bin b c)) :
    t.foldUp init bin = .ok (fold1 bin (t.elems.map init)) := by
  have ht := Reach.t h
  rcases tree_cases ht.inv.wf with ⟨hn, -⟩ | ⟨hw, he⟩
  · obtain ⟨i, tr⟩ := t
    simp only at hn
    subst hn
    rfl
  · obtain ⟨x, h1, h2⟩ := foldUp_wf init bin hassoc hw (hne.resolve_left (by simp [he])) t.info
    rw [RazTree.elems, RazTree.items, h2]
    exact h1

/-- **C10, partial**: the same for every tree from editing, `join`, `map`, and `memo_from` of a stack that was not archived
last. -/
theorem C10_fold_up_edited_partial [RazMeta E M] {t : RazTree E M} (h : t.Reachable .full) (init : E → R) (bin : R → R → R)
    (hassoc : ∀ a b c, bin (bin a b) c = bin a (bin b c)) :
    t.foldUp init bin = .ok (fold1 bin (t.elems.map init)) :=
  C10_fold_up_partial (Reach.any h) (full_noEmptySub h) init bin hassoc

/-- **C10**, the remaining trees: with an empty subsequence `fold_up` panics. -/
theorem C10_fold_up_panics [RazMeta E M] {t : RazTree E M} (h : t.Reachable .any) (he : t.isEmpty = false)
    (hn : ¬ NoEmptySub t.items) (init : E → R) (bin : R → R → R) : t.foldUp init bin = .error .expect := by
  rcases tree_cases (Reach.t h).inv.wf with ⟨-, he'⟩ | ⟨hw, -⟩
  · rw [he] at he'; cases he'
  · exact foldUpNl_panics init bin (fun a _ _ b => bin a b) hw hn t.info

example : (exTree Count).foldUp (fun n => n) (fun a b : Nat => a + b) = .ok (some 21) :=
  C10_fold_up_edited_partial (exTree_reach Count .full) _ _ (fun a b c => Nat.add_assoc a b c)
/-- Not just for commutative operations. -/
example : (exTree Count).foldUp (fun n => [n]) (fun a b : List Nat => a ++ b) = .ok (some [1, 2, 3, 4, 5, 6]) :=
  C10_fold_up_edited_partial (exTree_reach Count .full) _ _ (fun a b c => List.append_assoc a b c)

/-- **C10 is false** with empty leaves, which `memo_from` makes from a stack that was just archived: `fold_up`
panics ("leaf with empty vec", src/raz.rs:160), though the sequence has one element. -/
theorem C10_counterexample_empty_leaf [RazMeta E M] (e : E) (init : E → R) (bin : R → R → R) :
    ∃ t : RazTree E M, t.Reachable .any ∧ t.elems = [e] ∧ t.foldUp init bin = .error .expect := by
  let s : AStack E Nat := ((AStack.new.push e).archive none 1).1
  have hb : s.Built (fun n => 1 ≤ n ∧ n < u32Max) := .archive _ _ (by decide) (.push _ .new)
  obtain ⟨t, h1, -⟩ := memoFromTail_ok (M := M) hb.inv
  refine ⟨_, .memoTail hb (.inl rfl) h1, ?_⟩
  have he : memoFromTail s = .ok (⟨metaOf 0 none (.node 1 none (.branch (metaOf 1 none (leaf [e] none)) (metaOf 1 none (leaf [] none))) (leaf [e] none) (leaf [] none)),
     .node 1 none (.branch (metaOf 1 none (leaf [e] none)) (metaOf 1 none (leaf [] none))) (leaf [e] none) (leaf [] none)⟩ : RazTree E M) := rfl
  rw [he] at h1
  simp only [Except.ok.injEq, RazTree.mk.injEq] at h1
  rw [← h1.2]
  exact ⟨rfl, rfl⟩

/-! ### C11 -/

/-- **C11.** `fold_up_gauged`, with an operation that is associative across archive points. -/
theorem C11_fold_up_gauged [RazMeta E M] {t : RazTree E M} (h : t.Reachable .any) (init : List E → R)
    (bin : R → Nat → Option Name → R → R)
    (hassoc : ∀ a l n b l' n' c, bin (bin a l n b) l' n' c = bin a l n (bin b l' n' c)) :
    t.foldUpGauged (fun v => .ok (init v)) (fun a l n b => .ok (bin a l n b)) =
      .ok (if t.isEmpty then none else some (foldChunks init bin (chunks t.items))) := by
  obtain ⟨m, tr⟩ := t
  rcases tree_cases (Reach.t h).inv.wf with ⟨hn, he⟩ | ⟨hw, he⟩
  · rw [he]
    simp only at hn
    subst hn
    rfl
  · rw [he, if_neg (by simp)]
    exact foldUpGauged_wf init bin hassoc hw m

/-- **C11.** The free instance: `fold_up_gauged` sees every element, subsequence boundary, level and name
exactly once and in order. -/
theorem C11_gauged_free [RazMeta E M] {t : RazTree E M} (h : t.Reachable .any) :
    t.foldUpGauged (fun v => .ok (v, [])) (fun a l n b => .ok (a.1, a.2 ++ ((l, n), b.1) :: b.2)) =
      .ok (if t.isEmpty then none else some (chunks t.items)) := by
  rw [C11_fold_up_gauged h (fun v => (v, ([] : List ((Nat × Option Name) × List E))))
    (fun a l n b => (a.1, a.2 ++ ((l, n), b.1) :: b.2)) (by intros; simp)]
  split
  · rfl
  · congr 2
    unfold foldChunks
    generalize chunks t.items = c
    obtain ⟨v, l⟩ := c
    simp only
    suffices ∀ acc : List ((Nat × Option Name) × List E),
        l.foldl (fun a p => (a.1, a.2 ++ [((p.1.1, p.1.2), p.2)])) (v, acc) = (v, acc ++ l) by simpa using this []
    intro acc
    induction l generalizing acc with
    | nil => simp
    | cons p l ih => simp [ih]

/-- **C11, partial.** `fold_up_nl`: elements within a subsequence are combined by `bin` from left to right, the results
of the subsequences by `binnl` across the archive points. `d` is a default that is not used, as no subsequence
is empty. Missing: sequences with an empty subsequence, where it always panics (`C11_fold_up_nl_panics`). -/
theorem C11_fold_up_nl_partial [RazMeta E M] {t : RazTree E M} (h : t.Reachable .any) (hne : t.isEmpty = true ∨ NoEmptySub t.items)
    (init : E → R) (bin : R → R → R) (binnl : R → Nat → Option Name → R → R)
    (hassoc : ∀ a l n b l' n' c, binnl (binnl a l n b) l' n' c = binnl a l n (binnl b l' n' c)) (d : R) :
    t.foldUpNl init bin binnl =
      .ok (if t.elems = [] then none
        else some (foldChunks (fun v => (fold1 bin (v.map init)).getD d) binnl (chunks t.items))) := by
  have ht := Reach.t h
  rcases tree_cases ht.inv.wf with ⟨hn, he⟩ | ⟨hw, he⟩
  · rw [if_pos (C16_is_empty_sound he)]
    obtain ⟨m, tr⟩ := t
    simp only at hn
    subst hn
    rfl
  · have hs := hne.resolve_left (by simp [he])
    rw [if_neg]
    · exact foldUpNl_wf init bin binnl d hassoc hw hs t.info
    · rw [RazTree.elems, ← chunks_join]
      intro hc
      exact hs.1 (List.append_eq_nil_iff.1 hc).1

/-- **C11, partial**: the same for every tree from editing, `join`, `map`, and `memo_from` of a stack that was not archived
last. -/
theorem C11_fold_up_nl_edited_partial [RazMeta E M] {t : RazTree E M} (h : t.Reachable .full) (init : E → R) (bin : R → R → R)
    (binnl : R → Nat → Option Name → R → R)
    (hassoc : ∀ a l n b l' n' c, binnl (binnl a l n b) l' n' c = binnl a l n (binnl b l' n' c)) (d : R) :
    t.foldUpNl init bin binnl =
      .ok (if t.elems = [] then none
        else some (foldChunks (fun v => (fold1 bin (v.map init)).getD d) binnl (chunks t.items))) :=
  C11_fold_up_nl_partial (Reach.any h) (full_noEmptySub h) init bin binnl hassoc d

/-- **C11**, the remaining trees: with an empty subsequence `fold_up_nl` panics. -/
theorem C11_fold_up_nl_panics [RazMeta E M] {t : RazTree E M} (h : t.Reachable .any) (he : t.isEmpty = false)
    (hn : ¬ NoEmptySub t.items) (init : E → R) (bin : R → R → R) (binnl : R → Nat → Option Name → R → R) :
    t.foldUpNl init bin binnl = .error .expect := by
  rcases tree_cases (Reach.t h).inv.wf with ⟨-, he'⟩ | ⟨hw, -⟩
  · rw [he] at he'; cases he'
  · exact foldUpNl_panics init bin binnl hw hn t.info

/-- There are such trees. -/
example (e : E) [RazMeta E M] : ∃ t : RazTree E M, t.Reachable .any ∧ t.isEmpty = false ∧ ¬ NoEmptySub t.items ∧ t.elems = [e] := by
  obtain ⟨t, ht⟩ : ∃ t : RazTree E M, memoFromTail (((AStack.new : AStack E Nat).push e).archive none 1).1 = .ok t := ⟨_, rfl⟩
  have hr : t.Reachable .any := .memoTail (.archive _ _ (by decide) (.push _ .new)) (.inl rfl) ht
  cases ht
  exact ⟨_, hr, rfl, fun h => h.2 _ (List.mem_singleton.2 rfl) rfl, rfl⟩

/-- **C11.** No subsequence is empty unless the sequence is, for every tree from editing, `join`, `map`, and `memo_from` of a
stack that was not archived last. -/
theorem C11_no_empty_chunk [RazMeta E M] {t : RazTree E M} (h : t.Reachable .full) (hne : t.elems ≠ []) : NoEmptySub t.items :=
  (full_noEmptySub h).resolve_left fun he => hne (C16_is_empty_sound he)

example : (exTree Unit).foldUpGauged (fun v => .ok (v, [])) (fun a l n b => .ok (a.1, a.2 ++ ((l, n), b.1) :: b.2)) =
    .ok (some ([1, 2], [((2, some (.str "a")), [3]), ((1, none), [4, 5]), ((4, some (.str "b")), [6])])) :=
  C11_gauged_free (exTree_reach Unit .any)
/-- A lawful operation for `fold_up_nl`: levels summed up, elements added. -/
example : (exTree Unit).foldUpNl (fun n => n) (· + ·) (fun a l _ b => a + 100 * l + b) = .ok (some 721) :=
  C11_fold_up_nl_edited_partial (exTree_reach Unit .full) _ _ _ (by intros; omega) 0

/-! ### C12, C13, C14 -/

/-- **C12.** `fold_lr` is the left fold of the elements. -/
theorem C12_fold_lr [RazMeta E M] {t : RazTree E M} (h : t.Reachable .any) (init : A) (bin : A → E → A) :
    t.foldLr init bin = t.elems.foldl bin init := by
  have key : ∀ (l : List (Item E)) (a : A), foldItems bin (fun a _ => a) a l = (elemsOf l).foldl bin a := by
    intro l
    induction l with
    | nil => intro a; rfl
    | cons i l ih =>
      intro a
      cases i with
      | elem e => exact ih _
      | mark => rw [elemsOf_cons_mark rfl]; exact ih _
      | pend => rw [elemsOf_cons_mark rfl]; exact ih _
  obtain ⟨m, tr⟩ := t
  rcases (Reach.t h).inv.wf with hn | hw
  · simp only at hn
    subst hn
    rfl
  · rw [RazTree.elems, RazTree.items, ← key]
    exact foldLrMeta_wf bin (fun a _ => a) hw _ init

/-- **C13.** `fold_lr_meta` is the left fold of elements and archive points. -/
theorem C13_fold_lr_meta [RazMeta E M] {t : RazTree E M} (h : t.Reachable .any) (init : A) (bin : A → E → A)
    (mt : A → Nat × Option Name → A) : t.foldLrMeta init bin mt = foldItems bin mt init t.items := by
  obtain ⟨m, tr⟩ := t
  rcases (Reach.t h).inv.wf with hn | hw
  · simp only at hn
    subst hn
    rfl
  · exact foldLrMeta_wf bin mt hw _ init

/-- **C14.** `fold_lr_archive` closes every subsequence with the name of the archive point before it. -/
theorem C14_fold_lr_archive [RazMeta E M] {t : RazTree E M} (h : t.Reachable .any) (init : A) (bin : A → E → A)
    (finbin : A → Option Name → A) (mt : A → Nat → A) :
    t.foldLrArchive init bin finbin mt =
      if t.isEmpty then init
      else (chunks t.items).2.foldl (fun a p => finbin (p.2.foldl bin (mt a p.1.1)) p.1.2)
        (finbin ((chunks t.items).1.foldl bin init) (some (.str "start"))) := by
  obtain ⟨m, tr⟩ := t
  rcases tree_cases (Reach.t h).inv.wf with ⟨hn, he⟩ | ⟨hw, he⟩
  · rw [he]
    simp only at hn
    subst hn
    rfl
  · rw [he, if_neg (by simp)]
    exact foldLrArchive_wf bin finbin mt hw _ init

example : (exTree Unit).foldLr 0 (fun a n => 10 * a + n) = 123456 := C12_fold_lr (exTree_reach Unit .any) ..
example : (exTree Unit).foldLrMeta [] (fun a n => a ++ [n]) (fun a m => a ++ [100 * m.1]) = [1, 2, 200, 3, 100, 4, 5, 400, 6] :=
  C13_fold_lr_meta (exTree_reach Unit .any) ..
example : (exTree Unit).foldLrArchive [] (fun a _ => a) (fun a n => a ++ [n]) (fun a _ => a) =
    [some (.str "start"), some (.str "a"), none, some (.str "b")] :=
  C14_fold_lr_archive (exTree_reach Unit .any) ..

/-! ### C15 -/

/-- **C15.** `map` applies the function to every element and keeps archive points and shape. The result is a
reachable tree of the target type, so that its metadata is right (C07, C08). -/
theorem C15_map {u : Usage} [RazMeta E M] [RazMeta F N] {t : RazTree E M} (h : t.Reachable u) (f : E → F) :
    ∃ t' : RazTree F N, t.map f = .ok t' ∧ t'.items = t.items.map (Item.map f) ∧ t'.elems = t.elems.map f ∧
      t'.tree.shape = t.tree.shape ∧ t'.Reachable u := by
  obtain ⟨t', h1, h2, h3, -⟩ := razMap_ok (N := N) f (Reach.t h).inv.wf
  refine ⟨t', h1, h3, ?_, ?_, .map f h h1⟩
  · rw [RazTree.elems, h3, RazTree.elems]
    induction t.items with
    | nil => rfl
    | cons i l ih =>
      cases i with
      | elem e => simpa [elemsOf, Item.elem?, Item.map] using ih
      | mark => rw [List.map_cons, elemsOf_cons_mark rfl, elemsOf_cons_mark rfl, ih]
      | pend => rw [List.map_cons, elemsOf_cons_mark rfl, elemsOf_cons_mark rfl, ih]
  · unfold RazTree.map at h1
    obtain ⟨tr, a, b⟩ := bind_ok.1 h1
    have : t'.tree = tr := by
      unfold mkRazTree at b
      obtain ⟨m, b1, b2⟩ := bind_ok.1 b
      simp [pure, Except.pure] at b2
      rw [← b2]
    rw [this]
    exact map_shape a

/-- **C15**, counting the mapped tree. -/
theorem C15_map_count [RazMeta E M] {t : RazTree E M} (h : t.Reachable .any) (f : E → F)
    {t' : RazTree F Count} (hm : t.map f = .ok t') : t'.info.n = t.elems.length := by
  obtain ⟨t'', h1, -, h3, -, h5⟩ := C15_map (N := Count) h f
  rw [h1] at hm
  simp at hm
  subst hm
  rw [C07_count h5, h3, List.length_map]

/-- **C15**: mapping twice is mapping the composition. -/
theorem C15_map_map {G O : Type} [RazMeta E M] [RazMeta F N] [RazMeta G O] {t : RazTree E M} (h : t.Reachable .edit)
    (f : E → F) (g : F → G) {t1 : RazTree F N} {t2 : RazTree G O} (h1 : t.map f = .ok t1) (h2 : t1.map g = .ok t2) :
    t.map (g ∘ f) = .ok t2 := by
  have mm : ∀ i : Item E, Item.map g (Item.map f i) = Item.map (g ∘ f) i := by intro i; cases i <;> rfl
  have r1 : t1.Reachable .edit := .map f h h1
  obtain ⟨a1, b1, c1, -, -, d1⟩ := C15_map (N := N) h f
  obtain ⟨a2, b2, c2, -, -, d2⟩ := C15_map (N := O) r1 g
  obtain ⟨a3, b3, c3, -, -, d3⟩ := C15_map (N := O) h (g ∘ f)
  rw [b1] at h1; simp at h1; subst h1
  rw [b2] at h2; simp at h2; subst h2
  rw [b3]
  congr 1
  have hi : a3.items = a2.items := by rw [c3, c2, c1, List.map_map]; congr 1; funext i; exact (mm i).symm
  have w2 := Reach.t d2
  have w3 := Reach.t d3
  have ht : a3.tree = a2.tree := by
    rcases w3.inv.wf with n3 | w3'
    · rw [n3]
      exact ((w2.tidy rfl).2 (by rw [← hi]; simp [RazTree.items, n3])).symm
    · rcases w2.inv.wf with n2 | w2'
      · rw [n2]
        exact (w3.tidy rfl).2 (by rw [hi]; simp [RazTree.items, n2])
      · exact canon_unique w3' w2' (w3.canon rfl) (w2.canon rfl) hi
  obtain ⟨i3, t3⟩ := a3
  obtain ⟨i2, t2⟩ := a2
  have e3 := w3.inv.info
  have e2 := w2.inv.info
  simp only at e3 e2 ht
  subst ht
  rw [e3, e2]

example : ∃ t' : RazTree Nat Count, (exTree Unit).map (· * 10) = .ok t' ∧ t'.elems = [10, 20, 30, 40, 50, 60] ∧ t'.info.n = 6 := by
  obtain ⟨t', h1, -, h3, -⟩ := C15_map (N := Count) (exTree_reach Unit .any) (· * 10)
  exact ⟨t', h1, h3, C15_map_count (exTree_reach Unit .any) _ h1⟩
example : ∃ t1 t2 : RazTree Nat Unit, (exTree Unit).map (· * 10) = .ok t1 ∧ t1.map (· + 1) = .ok t2 := by
  obtain ⟨t1, h1, -, -, -, r⟩ := C15_map (N := Unit) (exTree_reach Unit .any) (· * 10)
  obtain ⟨t2, h2, -⟩ := C15_map (N := Unit) r (· + 1)
  exact ⟨t1, t2, h1, h2⟩

/-! ### C16 -/

/-- **C16.** `join` of two non-empty trees. -/
theorem C16_join [RazMeta E M] {a b : RazTree E M} (ha : a.Reachable .any) (hb : b.Reachable .any) (ha0 : a.isEmpty = false)
    (hb0 : b.isEmpty = false) {lev : Nat} (hlev : 1 ≤ lev) (nm : Option Name) :
    ∃ t, a.join lev nm b = .ok (some t) ∧ t.items = a.items ++ .mark lev nm :: b.items ∧
      t.elems = a.elems ++ b.elems ∧ t.Reachable .any := by
  have n1 : a.tree ≠ .nil := by rintro h; simp [RazTree.isEmpty, h, Tree.isSome] at ha0
  have n2 : b.tree ≠ .nil := by rintro h; simp [RazTree.isEmpty, h, Tree.isSome] at hb0
  obtain ⟨t, h1, -, h3⟩ := (razJoin_ok (Reach.t ha).inv.wf (Reach.t hb).inv.wf hlev nm).1 ⟨n1, n2⟩
  refine ⟨t, h1, h3, ?_, .join rfl ha hb hlev h1⟩
  rw [RazTree.elems, h3, elemsOf_append, elemsOf_cons_mark rfl]; rfl

/-- **C16.** `join` with an empty tree is `None`. -/
theorem C16_join_empty [RazMeta E M] (a b : RazTree E M) (h : a.isEmpty = true ∨ b.isEmpty = true) (lev : Nat) (nm : Option Name) :
    a.join lev nm b = .ok none := by
  obtain ⟨i, ta⟩ := a
  obtain ⟨j, tb⟩ := b
  cases ta with
  | nil => rfl
  | node =>
    cases tb with
    | nil => rfl
    | node => simp [RazTree.isEmpty, Tree.isSome] at h

example : (RazTree.empty : RazTree Nat Count).join 3 none (exTree Count) = .ok none := C16_join_empty _ _ (.inl rfl) _ _

/-- **C16.** `from_vec`. -/
theorem C16_from_vec [RazMeta E M] (v : List E) :
    (v = [] → RazTree.fromVec (M := M) v = .ok none) ∧
    (v ≠ [] → ∃ t : RazTree E M, RazTree.fromVec v = .ok (some t) ∧ t.items = v.map .elem ∧ t.elems = v ∧ t.isEmpty = false) := by
  constructor
  · intro h; unfold RazTree.fromVec; rw [if_pos h]
  · intro h
    obtain ⟨t, h1, h2, h3, -⟩ := fromVec_ok (M := M) h
    have he : t.elems = v := by rw [RazTree.elems, h3]; simp
    refine ⟨t, h1, h3, he, ?_⟩
    have := C16_is_empty_partial (t := t) (.fromVec h1)
    rw [he] at this
    cases hb : t.isEmpty
    · rfl
    · exact absurd (this.1 hb) h

/-- **C16.** `empty`. -/
theorem C16_empty [RazMeta E M] : (RazTree.empty : RazTree E M).items = [] ∧ (RazTree.empty : RazTree E M).isEmpty = true := ⟨rfl, rfl⟩

example : ∃ t, (exTree Count).join 7 none (exTree Count) = .ok (some t) ∧ t.elems = [1, 2, 3, 4, 5, 6, 1, 2, 3, 4, 5, 6] := by
  obtain ⟨t, h1, -, h3, -⟩ := C16_join (exTree_reach Count .any) (exTree_reach Count .any) rfl rfl (lev := 7) (by decide) none
  exact ⟨t, h1, h3⟩

end Iodyn
