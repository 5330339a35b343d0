import Verif.Proof.Session
import Verif.Props.Eval
import Verif.Props.Programs
import Verif.Props.SeqApi
/-
C65, C66, C67: the example programs that build a structure from a sequence, and whole sessions of the test driver.
-/
namespace Iodyn.Eval
open Iodyn.Skip
variable {E M G R T S O D : Type}

/-! ### C65: gathering the elements in a skip list -/

/-- **C65.** Filling a skip list from a sequence does not panic, whatever is in the store already; afterwards the skip list
finds exactly the elements of the sequence, for every hash function. With the incremental engine the names of the archive
points must differ from each other and from the two names the program uses itself. -/
theorem C65_unique_skiplist [DecidableEq E] [RazMeta E M] (e : Engine) (hash : E → Word) {L : Nat} (hL : 1 ≤ L) (hL' : L ≤ 63)
    (σ : Store (Path E Unit)) {s : EvalRaz E M G} {t : RazTree E M} (ht : s.raztree = some t) (hr : t.Reachable .any)
    (hn : e = .dcg → (namesOf t.items).Nodup ∧ .unit ∉ namesOf t.items ∧ .str "start" ∉ namesOf t.items) :
    ∃ σ' sk, UniqueElms.inc e hash L σ s = .ok (σ', sk) ∧ ∀ k, sk.get hash σ' k = .ok (setOf t.elems k) := by
  have h0 := Holds.start (V := Unit) e hash σ hL hL'
  have e0 : (fun _ => none : FMap E Unit) = setOf [] := by funext k; simp [setOf]
  rw [e0] at h0
  simp only [UniqueElms.inc, EvalRaz.compFoldArchive, ht, unwrap, bind, Except.bind, pure, Except.pure]
  rw [C14_fold_lr_archive hr]
  by_cases he : t.isEmpty = true
  · rw [if_pos he]
    refine ⟨σ, UniqueElms.start L, rfl, fun k => ?_⟩
    rw [C16_is_empty_sound he]
    exact h0.get k
  · rw [if_neg he]
    obtain ⟨σ1, s1, h1, h2⟩ := unique_elems (chunks t.items).1 h0
    obtain ⟨s2, h3, h4⟩ := unique_fin h2 (some (.str "start")) (by
      rintro - n hn
      cases hn
      simp)
    rw [h1, h3]
    have hc := chunks_names (settle_items t.tree)
    obtain ⟨σ', s', U', h5, h6⟩ := unique_chunks (chunks t.items).2 h4 (by
      intro hd
      rw [show (chunks t.items).2.filterMap (fun p => p.1.2) = namesOf t.items from hc]
      obtain ⟨n1, n2, n3⟩ := hn hd
      refine ⟨n1, fun n hm => ?_⟩
      simp only [Option.toList, List.cons_append, List.nil_append, List.mem_cons, List.not_mem_nil, or_false, not_or]
      exact ⟨fun h => n3 (h ▸ hm), fun h => n2 (h ▸ hm)⟩)
    refine ⟨σ', s', h5, fun k => ?_⟩
    rw [h6.get k, List.nil_append, chunks_join]
    rfl

/-- **C65.** With the incremental engine, each element has a cell of its own, named after an archive point before it and
numbered from there, and no other cell changes; so an edit between two archive points changes the names of no cells outside
that part. -/
theorem C65_cells [DecidableEq E] [RazMeta E M] (hash : E → Word) {L : Nat} {σ σ' : Store (Path E Unit)} {s : EvalRaz E M G}
    {t : RazTree E M} {sk : Skiplist} (ht : s.raztree = some t) (hr : t.Reachable .any) (he : t.isEmpty = false)
    (hn : (namesOf t.items).Nodup ∧ .unit ∉ namesOf t.items ∧ .str "start" ∉ namesOf t.items)
    (h : UniqueElms.inc .dcg hash L σ s = .ok (σ', sk)) :
    StoredAt (stamps .unit 0 ((some (.str "start"), (chunks t.items).1) :: (chunks t.items).2.map (fun p => (p.1.2, p.2)))) σ σ' := by
  simp only [UniqueElms.inc, EvalRaz.compFoldArchive, ht, unwrap, bind, Except.bind, pure, Except.pure] at h
  rw [C14_fold_lr_archive hr, if_neg (by simp [he])] at h
  have hc : (chunks t.items).2.filterMap (fun p => p.1.2) = namesOf t.items := chunks_names (settle_items t.tree)
  have hm : ((chunks t.items).2.map (fun p => (p.1.2, p.2))).filterMap (·.1) = namesOf t.items := by
    rw [List.filterMap_map, ← hc]; rfl
  refine unique_cells (s := UniqueElms.start L) _ ?_ ?_ (by
    rw [List.foldl_cons, List.foldl_map]
    exact h)
  · simp only [List.filterMap_cons, hm, List.nodup_cons]
    exact ⟨hn.2.2, hn.1⟩
  · simp only [List.filterMap_cons, hm, UniqueElms.start, Skiplist.archive, List.mem_cons, not_or]
    exact ⟨by simp, hn.2.1⟩

/-- **C65.** The hash map of the second experiment has the same content. -/
theorem C65_unique_native [DecidableEq E] (s : EvalVec E G) : UniqueElms.native s = setOf s.vec := by
  have : ∀ (xs l : List E), xs.foldl (fun (m : E → Option Unit) e k => if k = e then some () else m k) (setOf l) = setOf (l ++ xs) := by
    intro xs
    induction xs with
    | nil => intro l; simp
    | cons x xs ih =>
      intro l
      rw [List.foldl_cons, List.append_cons, ← ih]
      congr 1
      funext k
      by_cases hk : k = x <;> simp [setOf, hk]
  have h := this s.vec []
  rw [List.nil_append] at h
  rw [← h]
  rfl

/-- With one bit of hash nearly all elements collide. -/
example : ∃ σ' sk, UniqueElms.inc .dcg (fun n : Nat => BitVec.ofNat 64 n) 1 Store.empty (exEval Count) = .ok (σ', sk) ∧
    sk.get (fun n : Nat => BitVec.ofNat 64 n) σ' 5 = .ok (some ()) ∧ sk.get (fun n : Nat => BitVec.ofNat 64 n) σ' 7 = .ok none := by
  obtain ⟨σ', sk, h1, h2⟩ := C65_unique_skiplist .dcg (fun n : Nat => BitVec.ofNat 64 n) (L := 1) (by decide) (by decide) Store.empty
    (s := exEval Count) rfl (exTree_reach Count .any) (by decide)
  exact ⟨σ', sk, h1, by rw [h2]; rfl, by rw [h2]; rfl⟩

/-- The names and numbers for the example sequence: the second part is put under "start". -/
example : stamps .unit 0 ((some (.str "start"), (chunks (exTree Count).items).1) ::
      (chunks (exTree Count).items).2.map (fun p => (p.1.2, p.2))) =
    [(.unit, 0, 1), (.unit, 1, 2), (.str "start", 0, 3), (.str "a", 0, 4), (.str "a", 1, 5), (.str "a", 2, 6)] := by decide +kernel

example : ∃ σ' sk, UniqueElms.inc .dcg (fun n : Nat => BitVec.ofNat 64 n) 1 Store.empty (exEval Count) = .ok (σ', sk) ∧
    ∃ p, σ'.cells (.named (.pair (.str "a") (.usize 2))) = some p ∧ (6, some ()) ∈ p.kvs := by
  obtain ⟨σ', sk, h1, -⟩ := C65_unique_skiplist .dcg (fun n : Nat => BitVec.ofNat 64 n) (L := 1) (by decide) (by decide) Store.empty
    (s := exEval Count) rfl (exTree_reach Count .any) (by decide)
  exact ⟨σ', sk, h1, (C65_cells _ rfl (exTree_reach Count .any) (by decide) (by decide) h1).named (.str "a", 2, 6) (by decide +kernel)⟩

example : UniqueElms.native (⟨[3, 1, 3], 0⟩ : EvalVec Nat Nat) 3 = some () ∧ UniqueElms.native (⟨[3, 1, 3], 0⟩ : EvalVec Nat Nat) 2 = none := by
  rw [C65_unique_native]; decide

/-! ### C66: copying into a list -/

/-- Copying with any implementation of a sequence that behaves like a stack. -/
theorem toList_spec {I : SeqImpl T S E} {Sub : T → T → Prop} {Inv : T → Prop} {R : T → S → List E → Prop} {Free : T → Option Name → Prop}
    (hg : Grows I Sub) (hrf : Refines I Inv R Free) [RazMeta E M] {s : EvalRaz E M G} {t : RazTree E M} (ht : s.raztree = some t)
    (hr : t.Reachable .any) (σ : T)
    (h0 : ∃ σ0, Sub σ0 σ ∧ Inv σ0 ∧ ((∀ σ nm, Free σ nm) ∨ (namesOf t.items).Nodup ∧ (∀ n ∈ namesOf t.items, Free σ0 (some n)) ∧
      ∀ σ, Free σ none)) :
    ∃ σ' l, TreeToList.inc I σ s = .ok (σ', l) ∧ ∀ n, ∃ f0, ∀ f, f0 ≤ f → drain I f σ' n l = .ok (popped n t.elems.reverse) := by
  obtain ⟨σ0, h1, h2, h3⟩ := h0
  have hi : ∀ i ∈ t.items, (∃ e, i = .elem e) ∨ ∃ lev nm, 1 ≤ lev ∧ i = .mark lev nm := by
    rcases (Reach.t hr).inv.wf with h | h
    · intro i hi
      rw [RazTree.items, h] at hi
      cases hi
    · exact items_elem_or_mark h
  obtain ⟨σ', l, h4, h5⟩ := toList_items hg hrf t.items hi (σ := σ) (s := I.new) (xs := []) ⟨σ0, h1, h2, hrf.new _, h3⟩
  refine ⟨σ', l, ?_, fun n => ?_⟩
  · simp only [TreeToList.inc, EvalRaz.compFoldMeta, ht, unwrap, bind, Except.bind, pure, Except.pure]
    rw [C13_fold_lr_meta hr, h4]
  · have := h5.drain hg hrf n
    rwa [List.append_nil] at this

/-- **C66.** Copying a sequence into a list (`List`, `RcList`) or a list of vectors (`VecList`, `RcVecList`) does not panic,
whatever is in the store already; popping the copy gives the elements from the last to the first and then nothing. With the
incremental engine the names of the archive points must differ from each other. -/
theorem C66_tree_to_list [RazMeta E M] (e : Engine) (σ : Store (AList E)) (τ : Store (VList E)) {s : EvalRaz E M G} {t : RazTree E M}
    (ht : s.raztree = some t) (hr : t.Reachable .any) (hn : e = .dcg → (namesOf t.items).Nodup) :
    (∃ σ' l, TreeToList.inc (listImpl e) σ s = .ok (σ', l) ∧
      ∀ n, ∃ f0, ∀ f, f0 ≤ f → drain (listImpl e) f σ' n l = .ok (popped n t.elems.reverse)) ∧
    ∃ τ' l, TreeToList.inc (vecListImpl e) τ s = .ok (τ', l) ∧
      ∀ n, ∃ f0, ∀ f, f0 ≤ f → drain (vecListImpl e) f τ' n l = .ok (popped n t.elems.reverse) := by
  have free : ∀ {V : Type} (σ : Store V), (∀ σ nm, FreeName (V := V) e σ nm) ∨ (namesOf t.items).Nodup ∧
      (∀ n ∈ namesOf t.items, FreeName e σ.blank (some n)) ∧ ∀ σ, FreeName (V := V) e σ none := by
    intro V σ
    cases e with
    | naive => exact .inl fun _ _ => .inl rfl
    | dcg => exact .inr ⟨hn rfl, fun n _ => .inr fun _ _ => rfl, fun _ => .inr fun _ h => by cases h⟩
  exact ⟨toList_spec (list_grows e) (list_refines e) ht hr σ ⟨σ.blank, σ.sub_blank, fun _ _ => rfl, free σ⟩,
    toList_spec (vecList_grows e) (vecList_refines e) ht hr τ ⟨τ.blank, τ.sub_blank, fun _ _ => rfl, free τ⟩⟩

/-- **C66.** With the incremental engine the copy has the named archive points of the sequence: the list itself has the
elements since the last of them, and the cell with the name of an archive point has the copy of what is before it. So the
content of a cell depends on the part between two archive points only. All other cells are as they were. -/
theorem C66_cells [RazMeta E M] (σ : Store (AList E)) (τ : Store (VList E)) {s : EvalRaz E M G} {t : RazTree E M}
    (ht : s.raztree = some t) (hr : t.Reachable .any) (hn : (namesOf t.items).Nodup) :
    (∃ σ', TreeToList.inc (listImpl .dcg) σ s = .ok (σ', listSince σ.path t.items) ∧ Stored (listSince σ.path) t.items σ σ') ∧
    ∃ τ', TreeToList.inc (vecListImpl .dcg) τ s = .ok (τ', vecListSince τ.path t.items) ∧ Stored (vecListSince τ.path) t.items τ τ' := by
  have hi : ∀ i ∈ t.items.reverse.reverse, (∃ e, i = .elem e) ∨ ∃ lev nm, 1 ≤ lev ∧ i = .mark lev nm := by
    rw [List.reverse_reverse]
    rcases (Reach.t hr).inv.wf with h | h
    · intro i hi
      rw [RazTree.items, h] at hi
      cases hi
    · exact items_elem_or_mark h
  simp only [TreeToList.inc, EvalRaz.compFoldMeta, ht, unwrap, bind, Except.bind, pure, Except.pure]
  rw [C13_fold_lr_meta hr, C13_fold_lr_meta hr]
  constructor
  · have := stored_items (I := listImpl .dcg) (f := listSince σ.path) σ rfl (by intro x e; simp [listImpl, AList.push, listSince, sinceName])
      (by intro σ x lev; simp [listImpl, AList.archive, listSince, sinceName])
      (by intro τ x lev n h; simp [listImpl, AList.archive, listSince, sinceName, Store.cell, h]) t.items.reverse hi
      (by rw [List.reverse_reverse]; exact hn)
    rwa [List.reverse_reverse] at this
  · have := stored_items (I := vecListImpl .dcg) (f := vecListSince τ.path) τ rfl (by
        intro x e
        simp only [vecListImpl, vecListSince, List.reverse_append, List.reverse_cons, List.reverse_nil, List.nil_append,
          List.singleton_append, sinceName]
        by_cases hx : (sinceName x.reverse).1 = []
        · rw [if_pos hx, hx]
          cases (sinceName x.reverse).2 <;> simp [VList.push]
        · rw [if_neg hx]
          simp [VList.push])
      (by intro σ x lev; simp [vecListImpl, VList.archive, vecListSince, sinceName])
      (by intro τ x lev n h; simp [vecListImpl, VList.archive, vecListSince, sinceName, Store.cell, h]) t.items.reverse hi
      (by rw [List.reverse_reverse]; exact hn)
    rwa [List.reverse_reverse] at this

/-- **C66.** Copying into a stack (`IAStack`) and, from a vector, into a vector. -/
theorem C66_tree_to_stack [RazMeta E M] {s : EvalRaz E M G} {t : RazTree E M} (ht : s.raztree = some t) (hr : t.Reachable .any) (g : G) :
    (∃ l, TreeToList.inc iastackUnitImpl () s = .ok ((), l) ∧
      ∀ n, ∃ f0, ∀ f, f0 ≤ f → drain iastackUnitImpl f () n l = .ok (popped n t.elems.reverse)) ∧
    (∃ l, TreeToList.inc iastackImpl () s = .ok ((), l) ∧
      ∀ n, ∃ f0, ∀ f, f0 ≤ f → drain iastackImpl f () n l = .ok (popped n t.elems.reverse)) ∧
    (∃ l, TreeToList.inc irazImpl () s = .ok ((), l) ∧
      ∀ n, ∃ f0, ∀ f, f0 ≤ f → drain irazImpl f () n l = .ok (popped n t.elems.reverse)) ∧
    TreeToList.native vecImpl () (⟨t.elems, g⟩ : EvalVec E G) = .ok ((), t.elems) := by
  refine ⟨?_, ?_, ?_, ?_⟩
  · obtain ⟨σ', l, h⟩ := toList_spec (unit_grows _) iastackUnit_refines ht hr () ⟨(), trivial, trivial, .inl fun _ _ => trivial⟩
    exact ⟨l, h⟩
  · obtain ⟨σ', l, h⟩ := toList_spec (unit_grows _) iastack_refines ht hr () ⟨(), trivial, trivial, .inl fun _ _ => trivial⟩
    exact ⟨l, h⟩
  · obtain ⟨σ', l, h⟩ := toList_spec (unit_grows _) iraz_refines ht hr () ⟨(), trivial, trivial, .inl fun _ _ => trivial⟩
    exact ⟨l, h⟩
  · have : ∀ (xs l : List E), xs.foldl (TreeToList.step vecImpl) (.ok ((), l)) = .ok ((), l ++ xs) := by
      intro xs
      induction xs with
      | nil => intro l; simp
      | cons x xs ih =>
        intro l
        rw [List.foldl_cons, List.append_cons]
        exact ih _
    exact this t.elems []

example : ∃ σ' l, TreeToList.inc (listImpl .dcg) Store.empty (exEval Count) = .ok (σ', l) ∧
    ∃ f0, ∀ f, f0 ≤ f → drain (listImpl .dcg) f σ' 7 l = .ok [some 6, some 5, some 4, some 3, some 2, some 1, none] := by
  obtain ⟨⟨σ', l, h1, h2⟩, -⟩ := C66_tree_to_list .dcg Store.empty Store.empty (s := exEval Count) rfl (exTree_reach Count .any) (by decide)
  exact ⟨σ', l, h1, h2 7⟩

example : ∃ σ', TreeToList.inc (listImpl .dcg) Store.empty (exEval Count) = .ok (σ', .cons 6 (.name (.str "b") (.art (.named (.str "b"))))) ∧
    σ'.cells (.named (.str "b")) = some (.cons 5 (.cons 4 (.cons 3 (.name (.str "a") (.art (.named (.str "a"))))))) ∧
    σ'.cells (.named (.str "a")) = some (.cons 2 (.cons 1 .nil)) := by
  obtain ⟨⟨σ', h1, h2⟩, -⟩ := C66_cells Store.empty Store.empty (s := exEval Count) rfl (exTree_reach Count .any) (by decide)
  refine ⟨σ', h1, ?_, ?_⟩
  · exact h2.named [.elem 1, .elem 2, .mark 2 (some (.str "a")), .elem 3, .mark 1 none, .elem 4, .elem 5] 4 _ [.elem 6] rfl
  · exact h2.named [.elem 1, .elem 2] 2 _ [.elem 3, .mark 1 none, .elem 4, .elem 5, .mark 4 (some (.str "b")), .elem 6] rfl

example : ∃ l, TreeToList.inc irazImpl () (exEval Count) = .ok ((), l) ∧
    ∃ f0, ∀ f, f0 ≤ f → drain irazImpl f () 7 l = .ok [some 6, some 5, some 4, some 3, some 2, some 1, none] := by
  obtain ⟨-, -, ⟨l, h1, h2⟩, -⟩ := C66_tree_to_stack (s := exEval Count) rfl (exTree_reach Count .any) 0
  exact ⟨l, h1, h2 7⟩

/-! ### C67: sessions -/

/-- A batch edit as a step of a session: it does not panic, does what it should to the elements, and keeps the names
distinct and numbered. -/
theorem edit_step (C : Coord G E) (word : R → BitVec 64 × R) (o : Edit) {s : EvalRaz E Count G} {t : RazTree E Count}
    (ht : s.raztree = some t) (hr : t.Reachable .edit) (hfr : Fresh s t) (hne : (∃ b, o = .insert b) → t.elems ≠ [])
    (hlen : t.elems.length < usizeMax) (rng : R) (hf : Fits s o.size) :
    ∃ s' t' rng', o.run C word s rng = .ok (s', rng') ∧ s'.raztree = some t' ∧ t'.Reachable .edit ∧ Fresh s' t' ∧
      (t'.elems, s'.coord) = o.spec C (t.elems, s.coord) ∧ t'.elems.length = t.elems.length + o.size ∧
      s'.names = s.names + (o.size / (s.namegauge * s.datagauge) + 1) ∧ s'.counter = s.counter + o.size ∧
      s'.datagauge = s.datagauge ∧ s'.namegauge = s.namegauge := by
  have cnt := C07_count hr.any
  obtain ⟨i, s0, hi, hrun, hspec⟩ : ∃ i s0, i ≤ t.elems.length ∧
      (∀ z : Raz E Count, t.focus (i : RazMeta.Index E Count) = .ok (some z) →
        o.run C word s rng = EvalRaz.editAt C word { s with coord := s0, raztree := none } z o.size rng) ∧
      o.spec C (t.elems, s.coord) = (t.elems.take i ++ draws C.elem s0 o.size ++ t.elems.drop i, after C.elem s0 o.size) := by
    cases o with
    | insert b =>
      have hl : t.elems.length ≠ 0 := fun h => hne ⟨b, rfl⟩ (List.length_eq_zero_iff.1 h)
      have hlt := Nat.mod_lt (C.pos s.coord).1 (Nat.pos_of_ne_zero hl)
      refine ⟨(C.pos s.coord).1 % t.elems.length, (C.pos s.coord).2, Nat.le_of_lt hlt, fun z hz => ?_, rfl⟩
      simp only [Edit.run, EvalIRaz.insert, ht, remU, cnt, if_neg hl, bind, Except.bind, hz, Edit.size]
    | append b =>
      refine ⟨t.elems.length, s.coord, Nat.le_refl _, fun z hz => ?_, by simp [Edit.spec, Edit.size]⟩
      simp only [Edit.run, EvalIRaz.append, ht, cnt, bind, Except.bind, hz, Edit.size]
  obtain ⟨z, f1, f2, f3⟩ := C03_focus_index hr.any (i := i) hi (by omega)
  have hz : z.Reachable .edit := .focus hr f1
  obtain ⟨s', t', h1, h2, h3, h4, h5, h6, h7, h8, h9, h10⟩ := editAt_result C word
    { s with coord := s0, raztree := none } hz o.size rng ⟨hf.1, hf.2, hf.3, hf.4, hf.5, hf.6⟩
  have hzi := (focus_ok (Reach.t hr).inv.wf f1).2.1
  refine ⟨s', t', _, (hrun z f1).trans h1, h2, h3, ?_, ?_, ?_, h6, h7, h9, h10⟩
  · refine edit_fresh hfr (x := z.left.reverse) (y := z.right) hzi.symm ?_ (by rw [h6]; simp [draws]) (settle_items t.tree)
      (dg := s.datagauge) (q := s.namegauge * s.datagauge) (c := s.counter) (data := draws C.elem s0 o.size)
      (lv := fun i => genBranchLevel (draw word rng (i - (s.counter / s.datagauge + 1))))
    rw [List.reverse_reverse]
    exact h5
  · rw [h4, h8, f2, f3, hspec]
    simp
  · rw [h4, f2, f3]
    simp [draws]
    omega

/-- **C67.** Sessions of the test driver with the incremental sequence: for all sizes, gauges of at least 1, batch sizes,
numbers of changes and random streams that stay within the number types, a session with batch insertions or batch appends
does not panic, and each computation is given the sequence that the edits so far make on a plain list, with distinct names.
So if a computation is right on such sequences, whatever is in the store, then all answers of the session are right. Each
computation starts from the store that the previous one has left (`τ`). For
insertions the sequence must not be empty, see `C67_session_empty`. -/
theorem C67_session {T O : Type} (C : Coord G E) (word : R → BitVec 64 × R) (p : Params) (coord : G) (σ : T) (rng : R)
    (hd : p.datagauge ≠ 0) (hn : p.namegauge ≠ 0) (hq : p.namegauge * p.datagauge ≤ usizeMax)
    (hs : p.size + p.changes * (p.batch + 1) < usizeMax) (compute : T → EvalRaz E Count G → P (T × O)) (Ans : T → T × O → List E → Prop)
    (hp : ∀ σ s t, s.raztree = some t → t.Reachable .edit → (namesOf t.items).Nodup →
      (∀ q ∈ namesOf t.items, ∃ k, q = .pair (.usize k) (.str "tree")) → ∃ a, compute σ s = .ok a ∧ Ans σ a t.elems) :
    (p.size ≠ 0 ∨ p.changes = 0 → ∃ as rng', test (createRaz C word p coord) (insertRaz C word p) compute p.changes σ rng = .ok (as, rng') ∧
      as.length = p.changes + 1 ∧
      ∀ (i : Nat) τ a, (σ :: as.map (·.1))[i]? = some τ → as[i]? = some a → Ans τ a (sessionAt ((Edit.insert p.batch).spec C) C p.size coord i).1) ∧
    ∃ as rng', test (createRaz C word p coord) (appendRaz C word p) compute p.changes σ rng = .ok (as, rng') ∧
      as.length = p.changes + 1 ∧
      ∀ (i : Nat) τ a, (σ :: as.map (·.1))[i]? = some τ → as[i]? = some a → Ans τ a (sessionAt ((Edit.append p.batch).spec C) C p.size coord i).1 := by
  have main : ∀ o : Edit, o.size = p.batch → ((∃ b, o = .insert b) → p.size ≠ 0 ∨ p.changes = 0) →
      ∃ as rng', test (createRaz C word p coord) (fun s rng => o.run C word s rng) compute p.changes σ rng = .ok (as, rng') ∧
        as.length = p.changes + 1 ∧ ∀ (i : Nat) τ a, (σ :: as.map (·.1))[i]? = some τ → as[i]? = some a → Ans τ a (sessionAt (o.spec C) C p.size coord i).1 := by
    intro o ho hne
    refine test_spec (Y := List E × G) (fun n s x => ∃ t, s.raztree = some t ∧ t.Reachable .edit ∧ Fresh s t ∧ (t.elems, s.coord) = x ∧
      ((∃ b, o = .insert b) → t.elems ≠ [] ∨ n = 0) ∧ s.datagauge ≠ 0 ∧ s.namegauge ≠ 0 ∧ s.namegauge * s.datagauge ≤ usizeMax ∧
      t.elems.length + n * (p.batch + 1) < usizeMax ∧ s.counter + n * (p.batch + 1) < usizeMax ∧
      s.names + n * (p.batch + 1) < usizeMax) (o.spec C) (fun τ a x => Ans τ a x.1) ?_ ?_ p.changes σ rng ?_
    · rintro n s x rng ⟨t, h1, h2, h3, rfl, h5, h6, h7, h8, h9, h10, h11⟩
      have hdv := Nat.div_le_self o.size (s.namegauge * s.datagauge)
      rw [Nat.succ_mul] at h9 h10 h11
      obtain ⟨s', t', rng', g1, g2, g3, g4, g5, g6, g7, g8, g9, g10⟩ := edit_step C word o h1 h2 h3
        (fun hb => (h5 hb).resolve_right (by omega)) (by omega) rng ⟨h6, h7, h8, by omega, by omega, by omega⟩
      refine ⟨s', rng', g1, t', g2, g3, g4, g5, ?_, by rw [g9]; exact h6, by rw [g10]; exact h7, by rw [g9, g10]; exact h8,
        by omega, by omega, by omega⟩
      intro hb
      have := (h5 hb).resolve_right (by omega)
      left
      intro h
      apply this
      apply List.length_eq_zero_iff.1
      rw [h, List.length_nil] at g6
      omega
    · rintro n σ s x ⟨t, h1, h2, h3, rfl, -⟩
      exact hp σ s t h1 h2 h3.nodup (fun q hq => by obtain ⟨k, -, h⟩ := h3.below q hq; exact ⟨k, h⟩)
    · obtain ⟨s, t, h1, h2, h3, h4, h5, h6, h7, h8, h9, h10⟩ := C44_init (M := Count) (u := .edit) C word p.size p.datagauge
        p.namegauge coord rng hd hn hq (by omega)
      have hl : (draws C.elem coord p.size).length = p.size := by simp [draws]
      have hdv := Nat.div_le_self p.size (p.namegauge * p.datagauge)
      refine ⟨s, _, h1, t, h2, h3, init_fresh hl h5 h6, ?_, ?_, by rw [h9]; exact hd, by rw [h10]; exact hn,
        by rw [h9, h10]; exact hq, by rw [h4, hl]; exact hs, by omega, by omega⟩
      · rw [h4, h7]
      · intro hb
        refine (hne hb).imp (fun h h' => h ?_) id
        rw [← hl, ← h4, h', List.length_nil]
  exact ⟨fun h => main (.insert p.batch) rfl (fun _ => h), main (.append p.batch) rfl (fun ⟨b, hb⟩ => by cases hb)⟩

/-- **C67.** Sessions with the vector, likewise. -/
theorem C67_session_vec {T O : Type} (C : Coord G E) (p : Params) (coord : G) (σ : T) (rng : R)
    (compute : T → EvalVec E G → P (T × O)) (Ans : T → T × O → List E → Prop)
    (hp : ∀ σ s, ∃ a, compute σ s = .ok a ∧ Ans σ a s.vec) :
    (p.size ≠ 0 ∨ p.changes = 0 → ∃ as rng', test (createVec C p coord) (insertVec C p) compute p.changes σ rng = .ok (as, rng') ∧
      as.length = p.changes + 1 ∧
      ∀ (i : Nat) τ a, (σ :: as.map (·.1))[i]? = some τ → as[i]? = some a → Ans τ a (sessionAt (vecInsertSpec C p.batch) C p.size coord i).1) ∧
    ∃ as rng', test (createVec C p coord) (appendVec C p) compute p.changes σ rng = .ok (as, rng') ∧
      as.length = p.changes + 1 ∧
      ∀ (i : Nat) τ a, (σ :: as.map (·.1))[i]? = some τ → as[i]? = some a → Ans τ a (sessionAt ((Edit.append p.batch).spec C) C p.size coord i).1 := by
  have hv : EvalVec.incInit C p.size coord = ⟨draws C.elem coord p.size, after C.elem coord p.size⟩ := by
    simp only [EvalVec.incInit, genData_eq, foldl_push, List.nil_append]
  constructor
  · intro hne
    refine test_spec (Y := List E × G) (fun n s x => (s.vec, s.coord) = x ∧ (s.vec ≠ [] ∨ n = 0)) (vecInsertSpec C p.batch)
      (fun τ a x => Ans τ a x.1) ?_ ?_ p.changes σ rng ?_
    · rintro n s x rng ⟨rfl, h⟩
      have h := h.resolve_right (by omega)
      have he := C50_vec_insert C s h p.batch
      simp only at he
      refine ⟨_, rng, by simp only [insertVec, he, bind, Except.bind, pure, Except.pure]; rfl, rfl, ?_⟩
      · left
        intro h'
        simp only [List.append_eq_nil_iff] at h'
        exact h (by rw [← List.take_append_drop ((C.pos (after C.elem s.coord p.batch)).1 % s.vec.length) s.vec, h'.1.1, h'.2]; rfl)
    · rintro n σ s x ⟨rfl, -⟩
      exact hp σ s
    · refine ⟨_, rng, rfl, ?_, ?_⟩
      · rw [hv]
      · rw [hv]
        refine hne.imp (fun h h' => h ?_) id
        have := congrArg List.length h'
        simpa [draws] using this
  · refine test_spec (Y := List E × G) (fun n s x => (s.vec, s.coord) = x) ((Edit.append p.batch).spec C)
      (fun τ a x => Ans τ a x.1) ?_ ?_ p.changes σ rng ?_
    · rintro n s x rng rfl
      refine ⟨_, rng, rfl, ?_⟩
      simp only [EvalVec.append, genData_eq, foldl_push, Edit.spec]
    · rintro n σ s x rfl
      exact hp σ s
    · exact ⟨_, rng, rfl, by rw [hv]⟩

/-- **C67.** A session with insertions into an empty sequence panics at the first change, with both. -/
theorem C67_session_empty {T O : Type} (C : Coord G E) (word : R → BitVec 64 × R) (p : Params) (coord : G) (σ : T) (rng : R)
    (hd : p.datagauge ≠ 0) (hn : p.namegauge ≠ 0) (hq : p.namegauge * p.datagauge ≤ usizeMax)
    (h0 : p.size = 0) (hc : p.changes ≠ 0) (compute : T → EvalRaz E Count G → P (T × O)) (compute' : T → EvalVec E G → P (T × O))
    (hp : ∀ σ s, ∃ a, compute σ s = .ok a) (hp' : ∀ σ s, ∃ a, compute' σ s = .ok a) :
    test (createRaz C word p coord) (insertRaz C word p) compute p.changes σ rng = .error .overflow ∧
    test (createVec C p coord) (insertVec C p) compute' p.changes σ rng = .error .overflow := by
  obtain ⟨n, hn'⟩ := Nat.exists_eq_succ_of_ne_zero hc
  rw [hn']
  constructor
  · obtain ⟨s, t, h1, h2, h3, h4, -⟩ := C44_init (M := Count) (u := .edit) C word p.size p.datagauge
        p.namegauge coord rng hd hn hq (by omega)
    obtain ⟨a, ha⟩ := hp σ s
    have he : t.elems = [] := by rw [h4, h0]; rfl
    simp only [test, createRaz, h1, bind, Except.bind, ha, testLoop, insertRaz, C45_insert_empty C word h2 h3 he]
  · obtain ⟨a, ha⟩ := hp' σ (EvalVec.incInit C p.size coord)
    have he : (EvalVec.incInit C p.size coord).vec = [] := by
      simp only [EvalVec.incInit, genData_eq, foldl_push, List.nil_append, h0]; rfl
    simp only [test, createVec, bind, Except.bind, ha, testLoop, insertVec, EvalVec.insert, he, List.length_nil, remU, if_true]

/-! The sessions of the example programs -/

/-- **C67.** The sessions of eval/examples/unique_elms.rs: in the store of its time, every skip list finds exactly the elements
of the sequence of its time. -/
theorem C67_unique_session [DecidableEq E] (e : Engine) (hash : E → Word) {L : Nat} (hL : 1 ≤ L) (hL' : L ≤ 63)
    (C : Coord G E) (word : R → BitVec 64 × R) (p : Params) (coord : G) (σ : Store (Path E Unit)) (rng : R)
    (hd : p.datagauge ≠ 0) (hn : p.namegauge ≠ 0) (hq : p.namegauge * p.datagauge ≤ usizeMax)
    (hs : p.size + p.changes * (p.batch + 1) < usizeMax) (h0 : p.size ≠ 0 ∨ p.changes = 0) :
    ∃ as rng', test (createRaz C word p coord) (insertRaz C word p) (UniqueElms.inc e hash L) p.changes σ rng = .ok (as, rng') ∧
      as.length = p.changes + 1 ∧ ∀ (i : Nat) τ sk, as[i]? = some (τ, sk) →
        ∀ k, sk.get hash τ k = .ok (setOf (sessionAt ((Edit.insert p.batch).spec C) C p.size coord i).1 k) := by
  obtain ⟨as, rng', h1, h2, h3⟩ := (C67_session C word p coord σ rng hd hn hq hs (UniqueElms.inc e hash L)
    (fun _ a xs => ∀ k, a.2.get hash a.1 k = .ok (setOf xs k)) (by
      intro σ s t ht hr nd nm
      obtain ⟨σ', sk, g1, g2⟩ := C65_unique_skiplist e hash hL hL' σ ht hr.any (fun _ => ⟨nd,
        (fun h => by obtain ⟨k, hk⟩ := nm _ h; cases hk), (fun h => by obtain ⟨k, hk⟩ := nm _ h; cases hk)⟩)
      exact ⟨_, g1, g2⟩)).1 h0
  exact ⟨as, rng', h1, h2, fun i τ sk h => by obtain ⟨ρ, hρ⟩ := store_before h σ; exact h3 i ρ _ hρ h⟩

/-- **C67.** The sessions of eval/examples/tree_to_list.rs: in the store of its time, popping each list gives the elements of
the sequence of its time from the last to the first. -/
theorem C67_list_session (e : Engine) (C : Coord G E) (word : R → BitVec 64 × R) (p : Params) (coord : G) (σ : Store (AList E))
    (τ : Store (VList E)) (rng : R) (hd : p.datagauge ≠ 0) (hn : p.namegauge ≠ 0) (hq : p.namegauge * p.datagauge ≤ usizeMax)
    (hs : p.size + p.changes * (p.batch + 1) < usizeMax) (h0 : p.size ≠ 0 ∨ p.changes = 0) :
    (∃ as rng', test (createRaz C word p coord) (insertRaz C word p) (TreeToList.inc (listImpl e)) p.changes σ rng = .ok (as, rng') ∧
      as.length = p.changes + 1 ∧ ∀ (i : Nat) σ' l, as[i]? = some (σ', l) → ∀ n, ∃ f0, ∀ f, f0 ≤ f →
        drain (listImpl e) f σ' n l = .ok (popped n (sessionAt ((Edit.insert p.batch).spec C) C p.size coord i).1.reverse)) ∧
    ∃ as rng', test (createRaz C word p coord) (insertRaz C word p) (TreeToList.inc (vecListImpl e)) p.changes τ rng = .ok (as, rng') ∧
      as.length = p.changes + 1 ∧ ∀ (i : Nat) τ' l, as[i]? = some (τ', l) → ∀ n, ∃ f0, ∀ f, f0 ≤ f →
        drain (vecListImpl e) f τ' n l = .ok (popped n (sessionAt ((Edit.insert p.batch).spec C) C p.size coord i).1.reverse) := by
  constructor
  · obtain ⟨as, rng', h1, h2, h3⟩ := (C67_session C word p coord σ rng hd hn hq hs (TreeToList.inc (listImpl e))
      (fun _ a xs => ∀ n, ∃ f0, ∀ f, f0 ≤ f → drain (listImpl e) f a.1 n a.2 = .ok (popped n xs.reverse)) (by
        intro σ s t ht hr nd _
        obtain ⟨⟨σ', l, g1, g2⟩, -⟩ := C66_tree_to_list e σ τ ht hr.any (fun _ => nd)
        exact ⟨_, g1, g2⟩)).1 h0
    exact ⟨as, rng', h1, h2, fun i _ l h => by obtain ⟨ρ, hρ⟩ := store_before h σ; exact h3 i ρ _ hρ h⟩
  · obtain ⟨as, rng', h1, h2, h3⟩ := (C67_session C word p coord τ rng hd hn hq hs (TreeToList.inc (vecListImpl e))
      (fun _ a xs => ∀ n, ∃ f0, ∀ f, f0 ≤ f → drain (vecListImpl e) f a.1 n a.2 = .ok (popped n xs.reverse)) (by
        intro τ s t ht hr nd _
        obtain ⟨-, σ', l, g1, g2⟩ := C66_tree_to_list e σ τ ht hr.any (fun _ => nd)
        exact ⟨_, g1, g2⟩)).1 h0
    exact ⟨as, rng', h1, h2, fun i _ l h => by obtain ⟨ρ, hρ⟩ := store_before h τ; exact h3 i ρ _ hρ h⟩

/-- **C67.** The sessions of eval/examples/crossover.rs (`FindMax`) and eval/examples/to_string.rs (`Mapper`). -/
theorem C67_max_map_session {F N : Type} [RazMeta F N] {le : E → E → Bool} (tot : ∀ a b, le a b = true ∨ le b a = true)
    (tr : ∀ a b c, le a b = true → le b c = true → le a c = true) (f : E → F)
    (C : Coord G E) (word : R → BitVec 64 × R) (p : Params) (coord : G) (rng : R)
    (hd : p.datagauge ≠ 0) (hn : p.namegauge ≠ 0) (hq : p.namegauge * p.datagauge ≤ usizeMax)
    (hs : p.size + p.changes * (p.batch + 1) < usizeMax) (h0 : p.size ≠ 0 ∨ p.changes = 0) :
    (∃ as rng', test (createRaz C word p coord) (insertRaz C word p) (plainly (fun s => s.compMax le)) p.changes () rng = .ok (as, rng') ∧
      as.length = p.changes + 1 ∧ ∀ (i : Nat) a, as[i]? = some a →
        maxSpec le (sessionAt ((Edit.insert p.batch).spec C) C p.size coord i).1 a.2) ∧
    (∃ as rng', test (createRaz C word p coord) (insertRaz C word p) (plainly (fun s => (s.compMap f : P (RazTree F N)))) p.changes () rng
        = .ok (as, rng') ∧
      as.length = p.changes + 1 ∧ ∀ (i : Nat) a, as[i]? = some a →
        a.2.Reachable .edit ∧ a.2.elems = (sessionAt ((Edit.insert p.batch).spec C) C p.size coord i).1.map f) ∧
    (∃ as rng', test (createVec C p coord) (insertVec C p) (plainly (fun s => .ok (s.compMax le))) p.changes () rng = .ok (as, rng') ∧
      as.length = p.changes + 1 ∧ ∀ (i : Nat) a, as[i]? = some a →
        maxSpec le (sessionAt (vecInsertSpec C p.batch) C p.size coord i).1 a.2) ∧
    ∃ as rng', test (createVec C p coord) (insertVec C p) (plainly (fun s => .ok (s.compMap f))) p.changes () rng = .ok (as, rng') ∧
      as.length = p.changes + 1 ∧ ∀ (i : Nat) a, as[i]? = some a →
        a.2 = (sessionAt (vecInsertSpec C p.batch) C p.size coord i).1.map f := by
  have vmax : ∀ (s : EvalVec E G), maxSpec le s.vec (s.compMax le) := by
    rintro ⟨l, g⟩
    cases l with
    | nil => exact .inl ⟨rfl, rfl⟩
    | cons a l =>
      obtain ⟨m, h1, h2⟩ : ∃ m, (EvalVec.mk (a :: l) g).compMax le = some m ∧ LastMax le (a :: l) m := ⟨_, rfl, fold_lastMax tot tr a l⟩
      exact .inr ⟨m, h1, h2⟩
  refine ⟨drop_store ((C67_session C word p coord () rng hd hn hq hs _ (fun _ a xs => maxSpec le xs a.2) ?_).1 h0),
    drop_store ((C67_session C word p coord () rng hd hn hq hs
      (plainly (fun s => (s.compMap f : P (RazTree F N)))) (fun _ a xs => a.2.Reachable .edit ∧ a.2.elems = xs.map f) ?_).1 h0),
    drop_store ((C67_session_vec C p coord () rng _ (fun _ a xs => maxSpec le xs a.2) ?_).1 h0),
    drop_store ((C67_session_vec C p coord () rng _ (fun _ a xs => a.2 = xs.map f) ?_).1 h0)⟩
  · intro σ s t ht hr _ _
    obtain ⟨h1, -⟩ := C52_max_partial tot tr ht hr.any (full_noEmptySub (Reach.mono (by simp [Usage.edit]) (by simp [Usage.edit]) hr)) (g := s.coord)
    exact ⟨((), _), by simp only [plainly, h1, bind, Except.bind, pure, Except.pure]; rfl, vmax ⟨t.elems, s.coord⟩⟩
  · intro σ s t ht hr _ _
    obtain ⟨t', h1, -, h2, h3⟩ := C52_map (N := N) ht hr f (g := s.coord)
    exact ⟨((), t'), by simp only [plainly, h1, bind, Except.bind, pure, Except.pure], h3, h2⟩
  · intro σ s
    exact ⟨((), _), rfl, vmax s⟩
  · intro σ s
    exact ⟨((), _), rfl, rfl⟩

/-- **C67.** In sessions with appends, the incremental sequence and the vector give the same greatest elements. -/
theorem C67_append_agree {le : E → E → Bool} (tot : ∀ a b, le a b = true ∨ le b a = true)
    (tr : ∀ a b c, le a b = true → le b c = true → le a c = true)
    (C : Coord G E) (word : R → BitVec 64 × R) (p : Params) (coord : G) (rng : R)
    (hd : p.datagauge ≠ 0) (hn : p.namegauge ≠ 0) (hq : p.namegauge * p.datagauge ≤ usizeMax)
    (hs : p.size + p.changes * (p.batch + 1) < usizeMax) :
    ∃ as rng1 rng2,
      test (createRaz C word p coord) (appendRaz C word p) (plainly (fun s => s.compMax le)) p.changes () rng = .ok (as, rng1) ∧
      test (createVec C p coord) (appendVec C p) (plainly (fun s => .ok (s.compMax le))) p.changes () rng = .ok (as, rng2) := by
  obtain ⟨as, rng1, h1, h2, h3⟩ := drop_store (C67_session C word p coord () rng hd hn hq hs (plainly (fun s => s.compMax le))
    (fun _ a xs => a.2 = (⟨xs, coord⟩ : EvalVec E G).compMax le) (by
      intro σ s t ht hr _ _
      obtain ⟨h1, -⟩ := C52_max_partial tot tr ht hr.any (full_noEmptySub (Reach.mono (by simp [Usage.edit]) (by simp [Usage.edit]) hr)) (g := coord)
      exact ⟨((), _), by simp only [plainly, h1, bind, Except.bind, pure, Except.pure]; rfl, rfl⟩)).2
  obtain ⟨bs, rng2, g1, g2, g3⟩ := drop_store (C67_session_vec C p coord () rng (plainly (fun s => .ok (s.compMax le)))
    (fun _ a xs => a.2 = (⟨xs, coord⟩ : EvalVec E G).compMax le) (fun σ s => ⟨((), _), rfl, rfl⟩)).2
  refine ⟨as, rng1, rng2, h1, ?_⟩
  rw [g1]
  congr 2
  apply List.ext_getElem?
  intro i
  by_cases hi : i < p.changes + 1
  · rw [List.getElem?_eq_getElem (by omega), List.getElem?_eq_getElem (by omega)]
    congr 1
    exact Prod.ext rfl ((g3 i _ (List.getElem?_eq_getElem (by omega))).trans (h3 i _ (List.getElem?_eq_getElem (by omega))).symm)
  · rw [List.getElem?_eq_none (by omega), List.getElem?_eq_none (by omega)]

/-- Three changes to a sequence of five elements. -/
def exParams : Params := ⟨5, 2, 1, 2, 3⟩

/-- The sequences of this session. -/
example : (List.range 4).map (fun i => (sessionAt ((Edit.insert 2).spec exCoord) exCoord 5 0 i).1) =
    [[0, 1, 2, 3, 4], [6, 7, 0, 1, 2, 3, 4], [9, 10, 6, 7, 0, 1, 2, 3, 4], [9, 10, 6, 7, 0, 12, 13, 1, 2, 3, 4]] := by
  decide +kernel

example : ∃ as rng', test (createRaz exCoord exWord exParams 0) (insertRaz exCoord exWord exParams)
      (UniqueElms.inc .dcg (fun n : Nat => BitVec.ofNat 64 n) 3) 3 Store.empty 0 = .ok (as, rng') ∧
    as.length = 4 ∧ ∀ (i : Nat) τ sk, as[i]? = some (τ, sk) → sk.get (fun n : Nat => BitVec.ofNat 64 n) τ 10 =
      .ok (if 2 ≤ i then some () else none) := by
  obtain ⟨as, rng', h1, h2, h3⟩ := C67_unique_session .dcg (fun n : Nat => BitVec.ofNat 64 n) (L := 3) (by decide) (by decide)
    exCoord exWord exParams 0 Store.empty 0 (by decide) (by decide) (by decide) (by decide) (.inl (by decide))
  refine ⟨as, rng', h1, h2, fun i τ sk h => ?_⟩
  rw [h3 i τ sk h 10]
  have hi : i < 4 := by
    have := (List.getElem?_eq_some_iff.1 h).1
    rw [h2] at this
    exact this
  rcases i with _ | _ | _ | _ | i
  · rfl
  · rfl
  · rfl
  · rfl
  · omega

example : ∃ as rng', test (createRaz exCoord exWord exParams 0) (insertRaz exCoord exWord exParams)
      (plainly (fun s => s.compMax (fun a b => decide (a ≤ b)))) 3 () 0 = .ok (as, rng') ∧ as.map (·.2) = [some 4, some 7, some 10, some 13] := by
  obtain ⟨⟨as, rng', h1, -⟩, -⟩ := C67_max_map_session (N := Count) (le := fun a b : Nat => decide (a ≤ b)) (by intro a b; simp; omega)
    (by intro a b c; simp; omega) (fun n : Nat => n + 1) exCoord exWord exParams 0 0 (by decide) (by decide) (by decide) (by decide)
    (.inl (by decide))
  refine ⟨as, rng', h1, ?_⟩
  have h2 : (test (createRaz exCoord exWord exParams 0) (insertRaz exCoord exWord exParams)
      (plainly (fun s => s.compMax (fun a b => decide (a ≤ b)))) 3 () 0).map (fun r => r.1.map (·.2)) =
      .ok [some 4, some 7, some 10, some 13] := by decide +kernel
  rw [show exParams.changes = 3 from rfl] at h1
  rw [h1] at h2
  simpa [Except.map] using h2

example : ∃ as rng1 rng2,
      test (createRaz exCoord exWord exParams 0) (appendRaz exCoord exWord exParams) (plainly (fun s => s.compMax (fun a b => decide (a ≤ b))))
        3 () 0 = .ok (as, rng1) ∧
      test (createVec exCoord exParams 0) (appendVec exCoord exParams) (plainly (fun s => .ok (s.compMax (fun a b => decide (a ≤ b))))) 3 () 0
        = .ok (as, rng2) :=
  C67_append_agree (by intro a b; simp; omega) (by intro a b c; simp; omega) exCoord exWord exParams 0 0 (by decide) (by decide) (by decide)
    (by decide)

example : ∃ as rng', test (createRaz exCoord exWord exParams 0) (insertRaz exCoord exWord exParams)
      (TreeToList.inc (vecListImpl .dcg)) 3 Store.empty 0 = .ok (as, rng') ∧ as.length = 4 := by
  obtain ⟨-, as, rng', h1, h2, -⟩ := C67_list_session .dcg exCoord exWord exParams 0 Store.empty Store.empty 0 (by decide) (by decide)
    (by decide) (by decide) (.inl (by decide))
  exact ⟨as, rng', h1, h2⟩

example : test (createRaz exCoord exWord ⟨0, 2, 1, 2, 3⟩ 0) (insertRaz exCoord exWord ⟨0, 2, 1, 2, 3⟩) (plainly (fun _ => .ok 0)) 3 () 0
      = .error .overflow ∧
    test (createVec exCoord ⟨0, 2, 1, 2, 3⟩ 0) (insertVec exCoord ⟨0, 2, 1, 2, 3⟩) (plainly (fun s => .ok s.vec.length)) 3 () 0
      = .error .overflow :=
  C67_session_empty exCoord exWord ⟨0, 2, 1, 2, 3⟩ 0 () 0 (by decide) (by decide) (by decide) rfl (by decide) _ _
    (fun _ _ => ⟨_, rfl⟩) (fun _ _ => ⟨_, rfl⟩)

/-- **C67.** The answers only hold in the store of their time: with the incremental engine, the first list of this session
has an element more once the second has been made, as both use the same names. -/
theorem C67_answers_change : ∃ as rng', test (createRaz exCoord exWord ⟨3, 1, 1, 1, 1⟩ 0) (insertRaz exCoord exWord ⟨3, 1, 1, 1, 1⟩)
      (TreeToList.inc (listImpl .dcg)) 1 Store.empty 0 = .ok (as, rng') ∧
    ∃ a b, as = [a, b] ∧ drain (listImpl .dcg) 20 a.1 4 a.2 = .ok [some 2, some 1, some 0, none] ∧
      drain (listImpl .dcg) 20 b.1 4 a.2 = .ok [some 2, some 1, some 0, some 4] := by
  have key : (do
      let r ← test (createRaz exCoord exWord ⟨3, 1, 1, 1, 1⟩ 0) (insertRaz exCoord exWord ⟨3, 1, 1, 1, 1⟩)
        (TreeToList.inc (listImpl .dcg)) 1 Store.empty 0
      match r.1 with
      | [a, b] => do
        let x ← drain (listImpl .dcg) 20 a.1 4 a.2
        let y ← drain (listImpl .dcg) 20 b.1 4 a.2
        return (x, y)
      | _ => .error .unreachable) = (.ok ([some 2, some 1, some 0, none], [some 2, some 1, some 0, some 4]) :
        P (List (Option Nat) × List (Option Nat))) := by decide +kernel
  obtain ⟨r, h1, h2⟩ := bind_ok.1 key
  refine ⟨r.1, r.2, h1, ?_⟩
  split at h2
  · rename_i a b hab
    obtain ⟨x, h3, h4⟩ := bind_ok.1 h2
    obtain ⟨y, h5, h6⟩ := bind_ok.1 h4
    cases h6
    exact ⟨a, b, hab, h3, h5⟩
  · cases h2

end Iodyn.Eval
