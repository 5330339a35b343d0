import Verif.Proof.Reach
import Verif.Spec.Fold
/-
Folds over well-formed trees.
-/
namespace Iodyn
variable {E M R A D : Type}

theorem chunks_append_mark (a b : List (Item E)) (lv nm) :
    chunks (a ++ .mark lv nm :: b) = ((chunks a).1, (chunks a).2 ++ ((lv, nm), (chunks b).1) :: (chunks b).2) := by
  induction a with
  | nil => rfl
  | cons i a ih => cases i <;> simp [chunks, ih]

theorem chunks_elems (v : List E) : chunks (v.map Item.elem) = (v, []) := by
  induction v with
  | nil => rfl
  | cons e v ih => simp [chunks, ih]

theorem noEmptySub_leaf (v : List E) : NoEmptySub (v.map Item.elem) ↔ v ≠ [] := by
  simp [NoEmptySub, chunks_elems]

theorem noEmptySub_branch (a b : List (Item E)) (lv nm) :
    NoEmptySub (a ++ .mark lv nm :: b) ↔ NoEmptySub a ∧ NoEmptySub b := by
  unfold NoEmptySub
  rw [chunks_append_mark]
  constructor
  · rintro ⟨h1, h2⟩
    exact ⟨⟨h1, fun p hp => h2 p (List.mem_append_left _ hp)⟩,
      h2 _ (List.mem_append_right _ List.mem_cons_self), fun p hp => h2 p (List.mem_append_right _ (List.mem_cons_of_mem _ hp))⟩
  · rintro ⟨⟨h1, h2⟩, h3, h4⟩
    refine ⟨h1, fun p hp => ?_⟩
    rcases List.mem_append.1 hp with hp | hp
    · exact h2 p hp
    · rcases List.mem_cons.1 hp with rfl | hp
      · exact h3
      · exact h4 p hp

theorem chunks_join (l : List (Item E)) :
    (chunks l).1 ++ (chunks l).2.flatMap (fun p => p.2) = elemsOf l := by
  induction l with
  | nil => rfl
  | cons i l ih =>
    cases i with
    | elem e => simp [chunks, elemsOf, Item.elem?] at ih ⊢; exact ih
    | mark => rw [elemsOf_cons_mark rfl]; simpa [chunks] using ih
    | pend => rw [elemsOf_cons_mark rfl]; simpa [chunks] using ih

/-- Folding chunk by chunk distributes over a join. -/
theorem foldChunks_append (init : List E → R) (bin : R → Nat → Option Name → R → R)
    (hassoc : ∀ a l n b l' n' c, bin (bin a l n b) l' n' c = bin a l n (bin b l' n' c)) (a b : List (Item E)) (lv nm) :
    foldChunks init bin (chunks (a ++ .mark lv nm :: b)) =
      bin (foldChunks init bin (chunks a)) lv nm (foldChunks init bin (chunks b)) := by
  rw [chunks_append_mark]
  simp only [foldChunks, List.foldl_append, List.foldl_cons]
  generalize (chunks a).2.foldl (fun a p => bin a p.1.1 p.1.2 (init p.2)) (init (chunks a).1) = x
  generalize init (chunks b).1 = y
  generalize (chunks b).2 = l
  induction l generalizing y with
  | nil => rfl
  | cons p l ih => simp only [List.foldl_cons, hassoc, ih]

section
variable [RazMeta E M]

theorem foldUpGauged_wf (init : List E → R) (bin : R → Nat → Option Name → R → R)
    (hassoc : ∀ a l n b l' n' c, bin (bin a l n b) l' n' c = bin a l n (bin b l' n' c))
    {t : Tree (TreeData E M)} (h : WF t) (m : M) :
    (RazTree.mk m t).foldUpGauged (fun v => .ok (init v)) (fun a l n b => .ok (bin a l n b)) =
      .ok (some (foldChunks init bin (chunks t.items))) := by
  induction h with
  | leaf v => simp [RazTree.foldUpGauged, Tree.foldUpMeta, bind, Except.bind, pure, Except.pure, chunks_elems, foldChunks]
  | branch hlv hl hr ihl ihr =>
    rw [items_branch, foldChunks_append _ _ hassoc]
    simp only [RazTree.foldUpGauged] at ihl ihr ⊢
    simp only [Tree.foldUpMeta, ihl, ihr, bind, Except.bind, pure, Except.pure]

/-- A well-formed tree has a leaf, and in a tidy sequence no leaf is empty. -/
theorem TidySeq.branch {a b : List (Item E)} {lv nm} (h : TidySeq (a ++ .mark lv nm :: b)) :
    TidySeq a ∧ TidySeq b ∧ a ≠ [] ∧ b ≠ [] := by
  obtain ⟨h1, h2⟩ := h
  have e : (a ++ .mark lv nm :: b).reverse = b.reverse ++ .mark lv nm :: a.reverse := by simp
  rw [e] at h2
  have hb := Tidy.of_append h1
  have ha := Tidy.of_append h2
  rw [tidy_cons_mark rfl] at ha hb
  have pfx : ∀ {a b : List (Item E)}, Tidy (a ++ .mark lv nm :: b) → StartsElem a.reverse → Tidy a := by
    intro a
    induction a with
    | nil => intros; trivial
    | cons i a ih =>
      intro b h hs
      rcases isMark_or_elem i with hi | ⟨e, rfl⟩
      · rw [List.cons_append, tidy_cons_mark hi] at h
        rw [tidy_cons_mark hi]
        obtain ⟨⟨e, r, he⟩, h⟩ := h
        have hne : a ≠ [] := by
          rintro rfl
          simp at he
        have hs' : StartsElem a.reverse := by
          obtain ⟨e', r', h'⟩ := hs
          rw [List.reverse_cons] at h'
          cases hr : a.reverse with
          | nil => simp at hr; exact absurd hr hne
          | cons j l =>
            rw [hr] at h'
            simp at h'
            rw [h'.1]
            exact ⟨_, _, rfl⟩
        refine ⟨?_, ih h hs'⟩
        cases a with
        | nil => exact absurd rfl hne
        | cons j a => simp at he; rw [he.1]; exact ⟨_, _, rfl⟩
      · by_cases hne : a = []
        · subst hne; trivial
        · have hs' : StartsElem a.reverse := by
            obtain ⟨e', r', h'⟩ := hs
            rw [List.reverse_cons] at h'
            cases hr : a.reverse with
            | nil => simp at hr; exact absurd hr hne
            | cons j l =>
              rw [hr] at h'
              simp at h'
              rw [h'.1]
              exact ⟨_, _, rfl⟩
          exact ih (b := b) h hs'
  have ne : ∀ {l : List (Item E)}, StartsElem l.reverse → l ≠ [] := by
    rintro l ⟨e, r, h⟩ rfl
    simp at h
  refine ⟨⟨pfx h1 ha.1, ha.2⟩, ⟨hb.2, pfx h2 (by simpa using hb.1)⟩, ne ha.1, ?_⟩
  rintro rfl
  obtain ⟨e, r, h⟩ := hb.1
  simp at h

omit [RazMeta E M] in
theorem TidySeq.noEmptySub {l : List (Item E)} (h : TidySeq l) (hne : l ≠ []) : NoEmptySub l := by
  have key : ∀ l : List (Item E), Tidy l → ∀ p ∈ (chunks l).2, p.2 ≠ [] := by
    intro l
    induction l with
    | nil => intro _ p hp; simp [chunks] at hp
    | cons i l ih =>
      intro hl p hp
      rcases isMark_or_elem i with hi | ⟨e, rfl⟩
      · rw [tidy_cons_mark hi] at hl
        obtain ⟨⟨e, r, rfl⟩, hl⟩ := hl
        have : (chunks (i :: Item.elem e :: r)).2 = (((marksOf [i]).headD (0, none)), (chunks (Item.elem e :: r)).1) :: (chunks (Item.elem e :: r)).2 := by
          cases i with
          | elem => simp [Item.isMark] at hi
          | mark => rfl
          | pend => rfl
        rw [this] at hp
        rcases List.mem_cons.1 hp with rfl | hp
        · simp [chunks]
        · exact ih hl p hp
      · exact ih hl p hp
  refine ⟨?_, key _ h.1⟩
  have hT := h.2
  cases l with
  | nil => exact absurd rfl hne
  | cons i l =>
    rcases isMark_or_elem i with hm | ⟨e, rfl⟩
    · rw [List.reverse_cons] at hT
      have := hT.of_append
      rw [tidy_cons_mark hm] at this
      obtain ⟨⟨e, r, h⟩, -⟩ := this
      simp at h
    · simp [chunks]

theorem foldUpNl_wf (init : E → R) (bin : R → R → R) (binnl : R → Nat → Option Name → R → R) (d : R)
    (hassoc : ∀ a l n b l' n' c, binnl (binnl a l n b) l' n' c = binnl a l n (binnl b l' n' c))
    {t : Tree (TreeData E M)} (h : WF t) (ht : NoEmptySub t.items) (m : M) :
    (RazTree.mk m t).foldUpNl init bin binnl =
      .ok (some (foldChunks (fun v => (fold1 bin (v.map init)).getD d) binnl (chunks t.items))) := by
  induction h with
  | leaf v =>
    cases v with
    | nil => exact absurd rfl ht.1
    | cons e v =>
      simp [RazTree.foldUpNl, Tree.foldUpMeta, RazTree.foldLeaf, bind, Except.bind, pure, Except.pure, chunks_elems, foldChunks, fold1, chunks]
  | branch hlv hl hr ihl ihr =>
    rw [items_branch, noEmptySub_branch] at ht
    obtain ⟨t1, t2⟩ := ht
    rw [items_branch, foldChunks_append _ _ hassoc]
    have ihl := ihl t1
    have ihr := ihr t2
    simp only [RazTree.foldUpNl] at ihl ihr ⊢
    simp only [Tree.foldUpMeta, ihl, ihr, bind, Except.bind, pure, Except.pure]

omit [RazMeta E M] in
theorem foldUp_eq_nl (init : E → R) (bin : R → R → R) (t : RazTree E M) :
    t.foldUp init bin = t.foldUpNl init bin (fun a _ _ b => bin a b) := rfl

/-- An empty subsequence makes the fold panic. -/
theorem foldUpNl_panics (init : E → R) (bin : R → R → R) (binnl : R → Nat → Option Name → R → R)
    {t : Tree (TreeData E M)} (h : WF t) (ht : ¬ NoEmptySub t.items) (m : M) :
    (RazTree.mk m t).foldUpNl init bin binnl = .error .expect := by
  have step : ∀ {t : Tree (TreeData E M)}, WF t →
      (RazTree.mk m t).foldUpNl init bin binnl = .error .expect ∨ ∃ x, (RazTree.mk m t).foldUpNl init bin binnl = .ok (some x) := by
    intro t h
    induction h with
    | leaf v =>
      cases v with
      | nil => exact .inl rfl
      | cons e v => exact .inr ⟨_, rfl⟩
    | branch hlv hl hr ihl ihr =>
      simp only [RazTree.foldUpNl] at ihl ihr ⊢
      rcases ihl with ihl | ⟨x, ihl⟩
      · exact .inl (by simp only [Tree.foldUpMeta, ihl, bind, Except.bind])
      · rcases ihr with ihr | ⟨y, ihr⟩
        · exact .inl (by simp only [Tree.foldUpMeta, ihl, ihr, bind, Except.bind])
        · exact .inr ⟨_, by simp only [Tree.foldUpMeta, ihl, ihr, bind, Except.bind]; rfl⟩
  induction h with
  | leaf v =>
    rw [items_leaf, noEmptySub_leaf, not_not] at ht
    subst ht
    rfl
  | @branch lv nm l r hlv hl hr ihl ihr =>
    rw [items_branch, noEmptySub_branch] at ht
    have sl := step hl
    simp only [RazTree.foldUpNl] at ihl ihr sl ⊢
    rcases sl with sl | ⟨x, sl⟩
    · simp only [Tree.foldUpMeta, sl, bind, Except.bind]
    · by_cases h1 : NoEmptySub l.items
      · simp only [Tree.foldUpMeta, sl, ihr (fun h2 => ht ⟨h1, h2⟩), bind, Except.bind]
      · simp only [Tree.foldUpMeta, ihl h1, bind, Except.bind]

theorem foldl_assoc (bin : R → R → R) (hassoc : ∀ a b c, bin (bin a b) c = bin a (bin b c)) (x y : R) (l : List R) :
    l.foldl bin (bin x y) = bin x (l.foldl bin y) := by
  induction l generalizing y with
  | nil => rfl
  | cons z l ih => simp only [List.foldl_cons, hassoc, ih]

theorem fold1_append (bin : R → R → R) (hassoc : ∀ a b c, bin (bin a b) c = bin a (bin b c)) {x y : R} {a b : List R}
    (ha : fold1 bin a = some x) (hb : fold1 bin b = some y) : fold1 bin (a ++ b) = some (bin x y) := by
  cases a with
  | nil => simp [fold1] at ha
  | cons u a =>
    cases b with
    | nil => simp [fold1] at hb
    | cons v b =>
      simp only [fold1, Option.some.injEq] at ha hb
      subst ha hb
      simp only [fold1, List.cons_append, List.foldl_append, List.foldl_cons, foldl_assoc bin hassoc]

theorem foldUp_wf (init : E → R) (bin : R → R → R) (hassoc : ∀ a b c, bin (bin a b) c = bin a (bin b c))
    {t : Tree (TreeData E M)} (h : WF t) (ht : NoEmptySub t.items) (m : M) :
    ∃ x, (RazTree.mk m t).foldUp init bin = .ok (some x) ∧ fold1 bin ((elemsOf t.items).map init) = some x := by
  induction h with
  | leaf v =>
    cases v with
    | nil => exact absurd rfl ht.1
    | cons e v =>
      refine ⟨(v.map init).foldl bin (init e), ?_, ?_⟩
      · simp [RazTree.foldUp, Tree.foldUp, Tree.foldUpMeta, RazTree.foldLeaf, bind, Except.bind, pure, Except.pure]
      · rw [items_leaf, elemsOf_map_elem]; rfl
  | branch hlv hl hr ihl ihr =>
    rw [items_branch, noEmptySub_branch] at ht
    obtain ⟨t1, t2⟩ := ht
    obtain ⟨x, hx, fx⟩ := ihl t1
    obtain ⟨y, hy, fy⟩ := ihr t2
    refine ⟨bin x y, ?_, ?_⟩
    · simp only [RazTree.foldUp, Tree.foldUp] at hx hy ⊢
      simp only [Tree.foldUpMeta, hx, hy, bind, Except.bind, pure, Except.pure]
    · rw [items_branch, elemsOf_append, elemsOf_cons_mark rfl, List.map_append]
      exact fold1_append bin hassoc fx fy

theorem foldLrMeta_wf (bin : A → E → A) (mt : A → Nat × Option Name → A) {t : Tree (TreeData E M)} (h : WF t)
    (start : Option Name) (a : A) :
    t.foldLrMeta (fun a e l n => match e with
      | .leaf v => v.foldl bin a
      | _ => mt a (l, n)) start a = foldItems bin mt a t.items := by
  induction h generalizing start a with
  | leaf v => simp [Tree.foldLrMeta, Tree.isSome, foldItems, List.foldl_map]
  | branch hlv hl hr ihl ihr =>
    simp only [Tree.foldLrMeta, hl.isSome, Bool.true_or, if_true, ihl, ihr]
    simp [foldItems]

theorem foldLrArchive_wf (bin : A → E → A) (finbin : A → Option Name → A) (mt : A → Nat → A)
    {t : Tree (TreeData E M)} (h : WF t) (start : Option Name) (a : A) :
    t.foldLrMeta (fun a e l n => match e with
      | .leaf v => finbin (v.foldl bin a) n
      | _ => mt a l) start a =
    (chunks t.items).2.foldl (fun a p => finbin (p.2.foldl bin (mt a p.1.1)) p.1.2)
      (finbin ((chunks t.items).1.foldl bin a) start) := by
  induction h generalizing start a with
  | leaf v => simp [Tree.foldLrMeta, Tree.isSome, chunks_elems]
  | branch hlv hl hr ihl ihr =>
    simp only [Tree.foldLrMeta, hl.isSome, Bool.true_or, if_true, ihl, ihr]
    simp [chunks_append_mark]

end

theorem map_shape {f : D → Nat → Option Name → Tree R → Tree R → P R} {t : Tree D} {t' : Tree R} (h : t.map f = .ok t') :
    t'.shape = t.shape := by
  induction t generalizing t' with
  | nil => simp [Tree.map] at h; subst h; rfl
  | node lv nm d l r ihl ihr =>
    unfold Tree.map at h
    obtain ⟨l', h1, h⟩ := bind_ok.1 h
    obtain ⟨r', h2, h⟩ := bind_ok.1 h
    obtain ⟨d', h3, h⟩ := bind_ok.1 h
    simp only [pure, Except.pure, Except.ok.injEq] at h
    subst h
    simp [Tree.shape, ihl h1, ihr h2]

end Iodyn
