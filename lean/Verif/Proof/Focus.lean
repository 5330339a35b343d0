import Verif.Proof.Reach
/-
Where `focus` goes, for any metadata.
-/
namespace Iodyn
variable {E M : Type}

section
variable [RazMeta E M]

/-- Walking down a tree by an index: `NavTo t i x y` when the walk of `focus` splits the items of `t` into `x` and
`y`. -/
inductive NavTo : Tree (TreeData E M) → RazMeta.Index E M → List (Item E) → List (Item E) → Prop
  | leaf {v a b : List E} {i} : RazMeta.splitVec (M := M) v i = .ok (a, b) → a ++ b = v →
    NavTo (.node 0 none (.leaf v) .nil .nil) i (a.map .elem) (b.map .elem)
  | left {lv nm ml mr} {l r : Tree (TreeData E M)} {i j x y} :
    RazMeta.navigate ml mr i = .ok (.left j) → NavTo l j x y →
    NavTo (.node lv nm (.branch ml mr) l r) i x (y ++ .mark lv nm :: r.items)
  | right {lv nm ml mr} {l r : Tree (TreeData E M)} {i j x y} :
    RazMeta.navigate ml mr i = .ok (.right j) → NavTo r j x y →
    NavTo (.node lv nm (.branch ml mr) l r) i (l.items ++ .mark lv nm :: x) y
  | here {lv nm ml mr} {l r : Tree (TreeData E M)} {i} :
    RazMeta.navigate ml mr i = .ok .here →
    (∀ v : List E, RazMeta.splitVec (M := M) v RazMeta.last = .ok (v, [])) →
    NavTo (.node lv nm (.branch ml mr) l r) i l.items (.mark lv nm :: r.items)

theorem focusLoop_nav : ∀ (t : Tree (TreeData E M)), WF t → ∀ {i : RazMeta.Index E M} {x y : List (Item E)}, NavTo t i x y →
    ∀ (n : Nat) (c : Cursor (TreeData E M)), c.tree = t → FL c.lForest → FR c.rForest → t.size ≤ n →
    ∃ c' i' v a b, RazTree.focusLoop n c i = .ok (some (c', i')) ∧ AtLeaf c' v (cItems c) ∧
      RazMeta.splitVec (M := M) v i' = .ok (a, b) ∧ a ++ b = v ∧
      a.reverse.map Item.elem ++ Cursor.leftSide c'.lForest = x.reverse ++ Cursor.leftSide c.lForest ∧
      b.map Item.elem ++ Cursor.rightSide c'.rForest = y ++ Cursor.rightSide c.rForest := by
  intro t ht
  induction ht with
  | leaf v =>
    intro i x y hnav n c hc hl hr hn
    have hp : c.peek = some (.leaf v) := by simp [Cursor.peek, hc, Tree.peek?]
    cases hnav with
    | @leaf _ a b _ h1 h2 =>
      refine ⟨c, i, v, a, b, ?_, ⟨hc, hl, hr, by simp [cItems, hc]⟩, h1, h2, by simp, rfl⟩
      unfold RazTree.focusLoop
      simp [hp, unwrap, bind, Except.bind]
  | @branch lv nm l r h1 hl hr ihl ihr =>
    intro i x y hnav n c hc hfl hfr hn
    obtain ⟨d, lf, t, rf⟩ := c
    simp only at hc hfl hfr; subst hc
    have hGL : FL ((d, ⟨lv, nm, TreeData.branch (metaOf lv nm l) (metaOf lv nm r), l, r⟩) :: lf) :=
      FL_cons.2 ⟨⟨⟨_, _, rfl⟩, hl, h1⟩, hfl⟩
    have hGR : FR ((d, ⟨lv, nm, TreeData.branch (metaOf lv nm l) (metaOf lv nm r), l, r⟩) :: rf) :=
      FR_cons.2 ⟨⟨⟨_, _, rfl⟩, hr, h1⟩, hfr⟩
    cases n with
    | zero => simp [Tree.size] at hn
    | succ n =>
      simp only [Tree.size] at hn
      cases hnav with
      | @left _ _ _ _ _ _ _ j _ y hn1 hn2 =>
        obtain ⟨c', i', v, a, b, e1, e2, e3, e4, e5, e6⟩ := ihl hn2 n
          (⟨false, lf, l, (d, ⟨lv, nm, TreeData.branch (metaOf lv nm l) (metaOf lv nm r), l, r⟩) :: rf⟩ : Cursor (TreeData E M)) rfl hfl hGR (by omega)
        refine ⟨c', i', v, a, b, ?_, ⟨e2.t, e2.l, e2.r, e2.i.trans ?_⟩, e3, e4, e5, ?_⟩
        · unfold RazTree.focusLoop
          simp only [Cursor.peek, Tree.peek?, unwrap, bind, Except.bind, hn1]
          simpa [Cursor.downLeft, Cursor.downLeftForce, hl.isSome, assert] using e1
        · simp [cItems]
        · rw [e6]; simp
      | @right _ _ _ _ _ _ _ j x _ hn1 hn2 =>
        obtain ⟨c', i', v, a, b, e1, e2, e3, e4, e5, e6⟩ := ihr hn2 n
          (⟨false, (d, ⟨lv, nm, TreeData.branch (metaOf lv nm l) (metaOf lv nm r), l, r⟩) :: lf, r, rf⟩ : Cursor (TreeData E M)) rfl hGL hfr (by omega)
        refine ⟨c', i', v, a, b, ?_, ⟨e2.t, e2.l, e2.r, e2.i.trans ?_⟩, e3, e4, ?_, e6⟩
        · unfold RazTree.focusLoop
          simp only [Cursor.peek, Tree.peek?, unwrap, bind, Except.bind, hn1]
          simpa [Cursor.downRight, Cursor.downRightForce, hr.isSome, assert] using e1
        · simp [cItems]
        · rw [e5]; simp
      | here hn1 hlast =>
        obtain ⟨c'', v, d1, d2, d3, d4, d5⟩ := downRightAll_ok l hl
          (⟨false, lf, l, (d, ⟨lv, nm, TreeData.branch (metaOf lv nm l) (metaOf lv nm r), l, r⟩) :: rf⟩ : Cursor (TreeData E M)) rfl hfl
        have hp : c''.peek = some (.leaf v) := by simp [Cursor.peek, d2, Tree.peek?]
        refine ⟨c'', RazMeta.last, v, v, [], ?_, ⟨d2, d3, by rw [d4]; exact hGR, ?_⟩, hlast v, by simp, d5, by rw [d4]; simp⟩
        · unfold RazTree.focusLoop
          simp only [Cursor.peek, Tree.peek?, unwrap, bind, Except.bind, hn1]
          simp [Cursor.downLeft, Cursor.downLeftForce, hl.isSome, assert]
          rw [d1]
          unfold RazTree.focusLoop
          simp [hp, unwrap, bind, Except.bind]
        · have := congrArg List.reverse d5
          simp only [List.reverse_append, List.map_reverse, List.reverse_reverse] at this
          rw [this, d4]; simp [cItems]

/-- `focus` follows `NavTo`. -/
theorem focus_nav {t : RazTree E M} (ht : WF t.tree) {i : RazMeta.Index E M} {x y : List (Item E)}
    (h : NavTo t.tree i x y) : ∃ z, t.focus i = .ok (some z) ∧ z.left = x.reverse ∧ z.right = y := by
  obtain ⟨info, tree⟩ := t
  simp only at ht h
  have : ∃ lv nm d l r, tree = .node lv nm d l r := by
    cases ht <;> exact ⟨_, _, _, _, _, rfl⟩
  obtain ⟨lv, nm, d, l, r, htree⟩ := this
  obtain ⟨c, i', v, a, b, e1, e2, e3, e4, e5, e6⟩ := focusLoop_nav tree ht h tree.size (Cursor.ofTree tree) rfl
    (by simp [Cursor.ofTree]) (by simp [Cursor.ofTree]) (Nat.le_refl _)
  obtain ⟨r1, r2, r3, r4⟩ := e2.raz e4
  refine ⟨_, ?_, r3.trans (by rw [e5]; simp [Cursor.ofTree]), r4.trans (by rw [e6]; simp [Cursor.ofTree])⟩
  simp only [RazTree.focus, htree]
  rw [← htree]
  have hs : c.split.2.1 = .node 0 none (.leaf v) .nil .nil := e2.t
  simp only [e1, bind, Except.bind]
  rw [hs]
  simp only [e3, pure, Except.pure]

/-- `focus` gives up at the root. -/
theorem focus_nowhere {info : M} {lv nm} {l r : Tree (TreeData E M)} {i : RazMeta.Index E M}
    (h : RazMeta.navigate (metaOf lv nm l) (metaOf lv nm r) i = .ok .nowhere) :
    RazTree.focus (⟨info, .node lv nm (.branch (metaOf lv nm l) (metaOf lv nm r)) l r⟩ : RazTree E M) i = .ok none := by
  simp only [RazTree.focus, Tree.size]
  unfold RazTree.focusLoop
  simp [Cursor.ofTree, Cursor.peek, Tree.peek?, unwrap, bind, Except.bind, h]

/-- With a panicking or lossy `split_vec` nothing is known; otherwise the two parts are the whole. -/
theorem NavTo.append {t : Tree (TreeData E M)} {i x y} (h : NavTo t i x y) : x ++ y = t.items := by
  induction h with
  | leaf _ h => rw [← h]; simp
  | left _ _ ih => simp [← ih]
  | right _ _ ih => simp [← ih]
  | here => simp

/-- Focusing inside a tree without empty subsequences finds a non-empty subsequence. -/
theorem AtLeaf.ne {c : Cursor (TreeData E M)} {v : List E} {items : List (Item E)} (h : AtLeaf c v items)
    (ht : TidySeq items) (hne : items ≠ []) : v ≠ [] := by
  rintro rfl
  have hi := h.i
  simp only [List.map_nil, List.append_nil] at hi
  rcases leftSide_markHead c.lForest with hL | ⟨lev, nm, L, hL⟩
  · rcases rightSide_markHead c.rForest with hR | ⟨lev, nm, R, hR⟩
    · rw [hL, hR] at hi
      exact hne hi.symm
    · have := ht.2
      rw [← hi, hL, hR] at this
      simp only [List.reverse_nil, List.nil_append, List.reverse_cons] at this
      have := this.of_append
      rw [tidy_cons_mark rfl] at this
      obtain ⟨⟨e, r, h⟩, -⟩ := this
      simp at h
  · have := ht.1
    rw [← hi, hL, List.reverse_cons, List.append_assoc] at this
    have := this.of_append
    simp only [List.singleton_append] at this
    rw [tidy_cons_mark rfl] at this
    obtain ⟨⟨e, r, h⟩, -⟩ := this
    rcases rightSide_markHead c.rForest with hR | ⟨lev, nm, R, hR⟩
    · rw [hR] at h; simp at h
    · rw [hR] at h; simp at h

end

theorem glue_elem {l r : List (Item E)} (h : StartsElem l ∨ StartsElem r) : glue l r = l.reverse ++ r := by
  rcases h with ⟨e, l, rfl⟩ | ⟨e, r, rfl⟩
  · cases r <;> simp [glue, Item.isMark]
  · cases l <;> simp [glue, Item.isMark]

end Iodyn
