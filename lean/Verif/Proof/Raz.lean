import Verif.Proof.Cursor
/-
The zipper operations and `unfocus` on the item level.
-/
namespace Iodyn
variable {E M : Type}

/-- Archived vectors are non-empty and have a level of at least 1. -/
def StackOK (s : AStack E Nat) : Prop := ∀ p ∈ s.archived, 1 ≤ p.2.1 ∧ p.2.2 ≠ []

/-- Invariant of the left forest cursor of a zipper. -/
structure LInv [RazMeta E M] (c : Cursor (TreeData E M)) : Prop where
  l : FL c.lForest
  r : c.rForest = []
  t : c.tree.peek? ≠ some .dummy

/-- Invariant of the right forest cursor of a zipper. -/
structure RInv [RazMeta E M] (c : Cursor (TreeData E M)) : Prop where
  l : c.lForest = []
  r : FR c.rForest
  t : c.tree.peek? ≠ some .dummy

/-- Zipper invariant. -/
structure ZInv [RazMeta E M] (z : Raz E M) : Prop where
  lf : LInv z.lForest
  rf : RInv z.rForest
  ls : StackOK z.lStack
  rs : StackOK z.rStack

theorem Item.settle_elem (e : E) : (Item.elem e).settle = .elem e := rfl
@[simp] theorem map_settle_elem (v : List E) : (v.map Item.elem).map Item.settle = v.map Item.elem := by
  simp [Item.settle]

theorem settle_items : ∀ (t : Tree (TreeData E M)), t.items.map Item.settle = t.items
  | .nil => rfl
  | .node _ _ (.leaf v) _ _ => by simp [Item.settle]
  | .node lv nm (.branch a b) l r => by simp [settle_items l, settle_items r, Item.settle]
  | .node lv nm .dummy l r => by simp [Tree.items, settle_items l, settle_items r, Item.settle]

@[simp] theorem settle_leftSide (l : List (Bool × TNode (TreeData E M))) :
    (Cursor.leftSide l).map Item.settle = Cursor.leftSide l := by
  induction l with
  | nil => rfl
  | cons p l ih => simp [ih, settle_items, Item.settle]
@[simp] theorem settle_rightSide (l : List (Bool × TNode (TreeData E M))) :
    (Cursor.rightSide l).map Item.settle = Cursor.rightSide l := by
  induction l with
  | nil => rfl
  | cons p l ih => simp [ih, settle_items, Item.settle]

/-- An element next to the cursor on either side: nothing is dropped. -/
theorem glue_left_elem (e : E) (l r : List (Item E)) :
    glue (.elem e :: l) r = (.elem e :: l).reverse ++ r := by
  cases r <;> simp [glue, Item.isMark]
theorem glue_right_elem (e : E) (l r : List (Item E)) :
    glue l (.elem e :: r) = l.reverse ++ .elem e :: r := by
  cases l <;> simp [glue, Item.isMark]

section
variable [RazMeta E M]

theorem LInv.up_nil {c : Cursor (TreeData E M)} (h : LInv c) (hn : c.lForest = []) : c.up = .ok (c, .fail) := by
  simp [Cursor.up, Cursor.upDir, hn, h.r]

theorem RInv.up_nil {c : Cursor (TreeData E M)} (h : RInv c) (hn : c.rForest = []) : c.up = .ok (c, .fail) := by
  simp [Cursor.up, Cursor.upDir, hn, h.l]

theorem LInv.up_cons {c : Cursor (TreeData E M)} (h : LInv c) {d u rest} (hn : c.lForest = (d, u) :: rest) :
    ∃ c' a b t, c.up = .ok (c', .left) ∧ c'.lForest = rest ∧ c'.rForest = [] ∧
      c'.tree = .node u.level u.name (.branch a b) u.l t ∧ GoodL u ∧ FL rest := by
  obtain ⟨dirty, lf, t, rf⟩ := c
  obtain ⟨hl, hr, ht⟩ := h
  simp only at hl hr ht hn
  subst hn hr
  obtain ⟨⟨⟨a, b, hab⟩, hwl, hlv⟩, hrest⟩ := FL_cons.1 hl
  simp only at hab hwl hlv
  cases dirty with
  | true =>
    refine ⟨⟨true, rest, .node u.level u.name
      (.branch (metaOf u.level u.name u.l) (metaOf u.level u.name t)) u.l t, []⟩, _, _, _, ?_, rfl, rfl, rfl,
      ⟨⟨a, b, hab⟩, hwl, hlv⟩, hrest⟩
    simp only [Cursor.up, Cursor.upDir, if_true]
    rw [rebuild_eq hwl.peek_ne ht (by simp [hab])]; rfl
  | false =>
    refine ⟨_, a, b, u.r, rfl, rfl, rfl, ?_, ⟨⟨a, b, hab⟩, hwl, hlv⟩, hrest⟩
    simp [TNode.toTree, hab]

theorem RInv.up_cons {c : Cursor (TreeData E M)} (h : RInv c) {d u rest} (hn : c.rForest = (d, u) :: rest) :
    ∃ c' a b t, c.up = .ok (c', .right) ∧ c'.rForest = rest ∧ c'.lForest = [] ∧
      c'.tree = .node u.level u.name (.branch a b) t u.r ∧ GoodR u ∧ FR rest := by
  obtain ⟨dirty, lf, t, rf⟩ := c
  obtain ⟨hl, hr, ht⟩ := h
  simp only at hl hr ht hn
  subst hn hl
  obtain ⟨⟨⟨a, b, hab⟩, hwl, hlv⟩, hrest⟩ := FR_cons.1 hr
  simp only at hab hwl hlv
  cases dirty with
  | true =>
    refine ⟨⟨true, [], .node u.level u.name
      (.branch (metaOf u.level u.name t) (metaOf u.level u.name u.r)) t u.r, rest⟩, _, _, _, ?_, rfl, rfl, rfl,
      ⟨⟨a, b, hab⟩, hwl, hlv⟩, hrest⟩
    simp only [Cursor.up, Cursor.upDir, if_true]
    rw [rebuild_eq ht hwl.peek_ne (by simp [hab])]; rfl
  | false =>
    refine ⟨_, a, b, u.l, rfl, rfl, rfl, ?_, ⟨⟨a, b, hab⟩, hwl, hlv⟩, hrest⟩
    simp [TNode.toTree, hab]

/-! ### joining the forests -/

theorem joinLeftForest_ok {lf jc : Cursor (TreeData E M)} (hl : LInv lf) (hj : JInv jc) :
    ∃ jc', Raz.joinLeftForest lf jc = .ok jc' ∧ JInv jc' ∧
      cItems jc' = (Cursor.leftSide lf.lForest).reverse ++ cItems jc := by
  match hf : lf.lForest with
  | [] =>
    refine ⟨jc, ?_, hj, by simp⟩
    simp [Raz.joinLeftForest, hl.up_nil hf, bind, Except.bind, pure, Except.pure]
  | (d, u) :: rest =>
    obtain ⟨c', a, b, t, h1, h2, h3, h4, ⟨h5, h6, h7⟩, h8⟩ := hl.up_cons hf
    have hd : c'.downLeftForce .discard = ({ c' with tree := u.l, dirty := true }, true) := by
      simp [Cursor.downLeftForce, h4]
    have hj2 : JInv ({ c' with tree := u.l, dirty := true } : Cursor (TreeData E M)) :=
      ⟨by rw [h2]; exact h8, by simp [h3], h6, .inl rfl⟩
    obtain ⟨jc', j1, j2, -, j3⟩ := join_ok (name := u.name) h7 hj2 hj
    refine ⟨jc', ?_, j2, ?_⟩
    · simp [Raz.joinLeftForest, h1, Cursor.peekLevel, Cursor.peekName, h4, Tree.level?, Tree.name?, unwrap, hd, j1,
        bind, Except.bind]
    · rw [j3]; simp [cItems, h2, h3]

theorem joinRightForest_ok {rf jc : Cursor (TreeData E M)} (hr : RInv rf) (hj : JInv jc) :
    ∃ jc', Raz.joinRightForest jc rf = .ok jc' ∧ JInv jc' ∧
      cItems jc' = cItems jc ++ Cursor.rightSide rf.rForest := by
  match hf : rf.rForest with
  | [] =>
    refine ⟨jc, ?_, hj, by simp⟩
    simp [Raz.joinRightForest, hr.up_nil hf, bind, Except.bind, pure, Except.pure]
  | (d, u) :: rest =>
    obtain ⟨c', a, b, t, h1, h2, h3, h4, ⟨h5, h6, h7⟩, h8⟩ := hr.up_cons hf
    have hd : c'.downRightForce .discard = ({ c' with tree := u.r, dirty := true }, true) := by
      simp [Cursor.downRightForce, h4]
    have hj2 : JInv ({ c' with tree := u.r, dirty := true } : Cursor (TreeData E M)) :=
      ⟨by simp [h3], by rw [h2]; exact h8, h6, .inl rfl⟩
    obtain ⟨jc', j1, j2, -, j3⟩ := join_ok (name := u.name) h7 hj hj2
    refine ⟨jc', ?_, j2, ?_⟩
    · simp [Raz.joinRightForest, h1, Cursor.peekLevel, Cursor.peekName, h4, Tree.level?, Tree.name?, unwrap, hd, j1,
        bind, Except.bind]
    · rw [j3]; simp [cItems, h2, h3]

theorem joinForests_ok {tree : Tree (TreeData E M)} {lf rf : Cursor (TreeData E M)} (ht : WF tree)
    (hl : LInv lf) (hr : RInv rf) :
    ∃ t, Raz.joinForests tree lf rf = .ok { info := metaOf 0 none t, tree := t } ∧ WF t ∧
      t.items = (Cursor.leftSide lf.lForest).reverse ++ tree.items ++ Cursor.rightSide rf.rForest := by
  obtain ⟨jc, a1, a2, a3⟩ := joinLeftForest_ok hl (JInv.ofTree ht)
  obtain ⟨jc', b1, b2, b3⟩ := joinRightForest_ok hr a2
  obtain ⟨c, u1, u2, u3, -⟩ := upAll_ok jc'.height jc' b2 (Nat.le_refl _)
  refine ⟨c.tree, ?_, u2, ?_⟩
  · simp only [Raz.joinForests, a1, b1, u1, bind, Except.bind, Cursor.atTree]
    exact mkRazTree_wf (.inr u2)
  · rw [u3, b3, a3]
    simp [cItems, Cursor.ofTree]

/-! ### the archive stacks -/

omit [RazMeta E M] in
@[simp] theorem side_nil : AStack.side (⟨[], []⟩ : AStack E Nat) = [] := rfl
omit [RazMeta E M] in
theorem side_mk (cur : List E) (arch) :
    AStack.side (⟨cur, arch⟩ : AStack E Nat) = cur.reverse.map .elem ++ AStack.side ⟨[], arch⟩ := by
  simp [AStack.side]
omit [RazMeta E M] in
theorem side_arch (nm lev) (v : List E) (rest) :
    AStack.side (⟨[], (nm, (lev, v)) :: rest⟩ : AStack E Nat) = .pend lev nm :: AStack.side ⟨v, rest⟩ := by
  simp [AStack.side]

omit [RazMeta E M] in
theorem nextArchive_nil : (⟨[], []⟩ : AStack E Nat).nextArchive = (⟨[], []⟩, none) := rfl
omit [RazMeta E M] in
theorem nextArchive_last {cur : List E} (h : cur ≠ []) :
    (⟨cur, []⟩ : AStack E Nat).nextArchive = (⟨[], []⟩, some (cur, none)) := by
  simp [AStack.nextArchive, AStack.isEmpty, h]
omit [RazMeta E M] in
theorem nextArchive_cons (cur : List E) (nm lev v rest) :
    (⟨cur, (nm, (lev, v)) :: rest⟩ : AStack E Nat).nextArchive = (⟨v, rest⟩, some (cur, some lev)) := by
  simp [AStack.nextArchive, AStack.isEmpty, Stack.isEmpty]

/-- What remains to be joined on one side: the pending archive point and the stack behind it. -/
def pre (s : AStack E Nat) (lev : Option Nat) (nm : Option Name) : List (Item E) :=
  match lev with
  | none => []
  | some lev => .mark lev nm :: s.side.map Item.settle

/-- Precondition of the loops: nothing is pending and the stack is empty, or a level is pending and the next
vector is non-empty. -/
def PreOK (s : AStack E Nat) (lev : Option Nat) : Prop :=
  StackOK s ∧ match lev with
    | none => s = ⟨[], []⟩
    | some lev => 1 ≤ lev ∧ s.current ≠ []

theorem joinLeftLoop_ok (arch : Stack (Nat × List E)) :
    ∀ (cur : List E) (lev : Option Nat) (nm nextNm : Option Name) (c : Cursor (TreeData E M)),
      PreOK ⟨cur, arch⟩ lev → nextNm = Raz.treeName ⟨cur, arch⟩ → JInv c →
      ∃ c', Raz.joinLeftLoop ⟨cur, arch⟩ c lev nm nextNm = .ok c' ∧ JInv c' ∧
        cItems c' = (pre ⟨cur, arch⟩ lev nm).reverse ++ cItems c := by
  induction arch with
  | nil =>
    intro cur lev nm nextNm c hp hn hc
    obtain ⟨-, hp⟩ := hp
    cases lev with
    | none =>
      simp only [AStack.mk.injEq] at hp
      obtain ⟨rfl, -⟩ := hp
      refine ⟨c, ?_, hc, by simp [pre]⟩
      unfold Raz.joinLeftLoop
      split
      · rfl
      · rename_i h; rw [nextArchive_nil] at h; simp at h
    | some lev =>
      obtain ⟨h1, h2⟩ := hp
      simp only at h2
      obtain ⟨c', e1, e2, -, e3⟩ := join_ok (name := nm) h1 (JInv.ofTree (WF.leaf cur)) hc
      refine ⟨c', ?_, e2, ?_⟩
      · unfold Raz.joinLeftLoop
        split
        · rename_i h; rw [nextArchive_last h2] at h; simp at h
        · rename_i h; rw [nextArchive_last h2] at h
          simp at h
          obtain ⟨rfl, rfl, rfl⟩ := h
          simp only [unwrap, bind, Except.bind]
          have e1' : (Cursor.ofTree (leaf cur none)).join lev nm TreeData.dummy c = .ok c' := e1
          rw [e1']
          simp only
          unfold Raz.joinLeftLoop
          split
          · rfl
          · rename_i h; rw [nextArchive_nil] at h; simp at h
      · rw [e3]; simp [cItems, Cursor.ofTree, pre, AStack.side, Item.settle, Function.comp_def]
  | cons p rest ih =>
    obtain ⟨anm, alev, av⟩ := p
    intro cur lev nm nextNm c hp hn hc
    obtain ⟨hs, hp⟩ := hp
    cases lev with
    | none => simp at hp
    | some lev =>
      obtain ⟨h1, h2⟩ := hp
      simp only at h2
      have hav := hs (anm, alev, av) (by simp)
      obtain ⟨c', e1, e2, -, e3⟩ := join_ok (name := nm) h1 (JInv.ofTree (WF.leaf cur)) hc
      obtain ⟨c'', f1, f2, f3⟩ := ih av (some alev) nextNm (Raz.treeName ⟨av, rest⟩) c'
        ⟨fun p hp => hs p (by simp at hp ⊢; exact .inr hp), hav⟩ rfl e2
      refine ⟨c'', ?_, f2, ?_⟩
      · unfold Raz.joinLeftLoop
        split
        · rename_i h; rw [nextArchive_cons] at h; simp at h
        · rename_i h; rw [nextArchive_cons] at h
          simp at h
          obtain ⟨rfl, rfl, rfl⟩ := h
          simp only [unwrap, bind, Except.bind]
          have e1' : (Cursor.ofTree (leaf cur none)).join lev nm TreeData.dummy c = .ok c' := e1
          rw [e1']
          exact f1
      · rw [f3, e3, hn]
        simp [cItems, Cursor.ofTree, pre, side_mk cur, side_arch, Item.settle, Raz.treeName, AStack.name,
          Stack.name, Function.comp_def]

theorem joinRightLoop_ok (arch : Stack (Nat × List E)) :
    ∀ (cur : List E) (lev : Option Nat) (nm nextNm : Option Name) (c : Cursor (TreeData E M)),
      PreOK ⟨cur, arch⟩ lev → nextNm = Raz.treeName ⟨cur, arch⟩ → JInv c →
      ∃ c', Raz.joinRightLoop ⟨cur, arch⟩ c lev nm nextNm = .ok c' ∧ JInv c' ∧
        cItems c' = cItems c ++ pre ⟨cur, arch⟩ lev nm := by
  induction arch with
  | nil =>
    intro cur lev nm nextNm c hp hn hc
    obtain ⟨-, hp⟩ := hp
    cases lev with
    | none =>
      simp only [AStack.mk.injEq] at hp
      obtain ⟨rfl, -⟩ := hp
      refine ⟨c, ?_, hc, by simp [pre]⟩
      unfold Raz.joinRightLoop
      split
      · rfl
      · rename_i h; rw [nextArchive_nil] at h; simp at h
    | some lev =>
      obtain ⟨h1, h2⟩ := hp
      simp only at h2
      obtain ⟨c', e1, e2, -, e3⟩ := join_ok (name := nm) h1 hc (JInv.ofTree (WF.leaf cur.reverse))
      refine ⟨c', ?_, e2, ?_⟩
      · unfold Raz.joinRightLoop
        split
        · rename_i h; rw [nextArchive_last h2] at h; simp at h
        · rename_i h; rw [nextArchive_last h2] at h
          simp at h
          obtain ⟨rfl, rfl, rfl⟩ := h
          simp only [unwrap, bind, Except.bind]
          have e1' : c.join lev nm TreeData.dummy (Cursor.ofTree (leaf cur.reverse none)) = .ok c' := e1
          rw [e1']
          simp only
          unfold Raz.joinRightLoop
          split
          · rfl
          · rename_i h; rw [nextArchive_nil] at h; simp at h
      · rw [e3]; simp [cItems, Cursor.ofTree, pre, AStack.side, Item.settle, Function.comp_def]
  | cons p rest ih =>
    obtain ⟨anm, alev, av⟩ := p
    intro cur lev nm nextNm c hp hn hc
    obtain ⟨hs, hp⟩ := hp
    cases lev with
    | none => simp at hp
    | some lev =>
      obtain ⟨h1, h2⟩ := hp
      simp only at h2
      have hav := hs (anm, alev, av) (by simp)
      obtain ⟨c', e1, e2, -, e3⟩ := join_ok (name := nm) h1 hc (JInv.ofTree (WF.leaf cur.reverse))
      obtain ⟨c'', f1, f2, f3⟩ := ih av (some alev) nextNm (Raz.treeName ⟨av, rest⟩) c'
        ⟨fun p hp => hs p (by simp at hp ⊢; exact .inr hp), hav⟩ rfl e2
      refine ⟨c'', ?_, f2, ?_⟩
      · unfold Raz.joinRightLoop
        split
        · rename_i h; rw [nextArchive_cons] at h; simp at h
        · rename_i h; rw [nextArchive_cons] at h
          simp at h
          obtain ⟨rfl, rfl, rfl⟩ := h
          simp only [unwrap, bind, Except.bind]
          have e1' : c.join lev nm TreeData.dummy (Cursor.ofTree (leaf cur.reverse none)) = .ok c' := e1
          rw [e1']
          exact f1
      · rw [f3, e3, hn]
        simp [cItems, Cursor.ofTree, pre, side_mk cur, side_arch, Item.settle, Raz.treeName, AStack.name,
          Stack.name, Function.comp_def]

/-! ### step 1 of `unfocus` -/

omit [RazMeta E M] in
theorem openSide_spec {s : AStack E Nat} (h : StackOK s) :
    ∃ s' lev vec, Raz.openSide s = (s', lev, vec) ∧ PreOK s' lev ∧
      s.side.map Item.settle = (vec.getD []).reverse.map Item.elem ++ pre s' lev (Raz.treeName s) ∧
      ((vec = none ∧ s.current = []) ∨ (vec = some s.current ∧ s.current ≠ [])) := by
  obtain ⟨cur, arch⟩ := s
  match arch with
  | [] =>
    by_cases hc : cur = []
    · subst hc
      exact ⟨⟨[], []⟩, none, none, by simp [Raz.openSide, nextArchive_nil], ⟨h, rfl⟩, by simp [pre], .inl ⟨rfl, rfl⟩⟩
    · refine ⟨⟨[], []⟩, none, some cur, ?_, ⟨by simp [StackOK], rfl⟩, ?_, .inr ⟨rfl, hc⟩⟩
      · simp [Raz.openSide, nextArchive_last hc, List.length_pos_iff, hc]
      · simp [pre, AStack.side, Item.settle, Function.comp_def]
  | (nm, lev, v) :: rest =>
    have hv := h (nm, lev, v) (by simp)
    have hs : StackOK (⟨v, rest⟩ : AStack E Nat) := fun p hp => h p (by simp at hp ⊢; exact .inr hp)
    refine ⟨⟨v, rest⟩, some lev, if cur.length > 0 then some cur else none, ?_, ⟨hs, hv⟩, ?_, ?_⟩
    · simp [Raz.openSide, nextArchive_cons]
    · by_cases hc : cur = [] <;>
        simp [pre, side_mk cur, side_arch, hc, List.length_pos_iff, Item.settle, Raz.treeName, AStack.name,
          Stack.name, Function.comp_def]
    · by_cases hc : cur = [] <;> simp [hc, List.length_pos_iff]

/-- Empty or starting with an archive point of the tree: what forests look like. -/
def MarkHead (l : List (Item E)) : Prop := l = [] ∨ ∃ lev nm r, l = .mark lev nm :: r

omit [RazMeta E M] in
theorem side_head {s : AStack E Nat} (h : s.current ≠ []) : ∃ e r, s.side = .elem e :: r := by
  obtain ⟨cur, arch⟩ := s
  have : cur.reverse ≠ [] := by simpa using h
  obtain ⟨e, r, he⟩ := List.exists_cons_of_ne_nil this
  exact ⟨e, r.map .elem ++ AStack.side ⟨[], arch⟩, by rw [side_mk, he]; simp⟩

omit [RazMeta E M] in
theorem center_ok {ls rs : AStack E Nat} (hl : StackOK ls) (hr : StackOK rs) :
    ∃ ce, Raz.center ls rs = .ok ce ∧ PreOK ce.lStack ce.lLev ∧ PreOK ce.rStack ce.rLev ∧
      match ce.vec with
      | none => ls = ⟨[], []⟩ ∧ rs = ⟨[], []⟩
      | some v => v ≠ [] ∧ ∀ LF RF, MarkHead LF → MarkHead RF →
        (glue (ls.side ++ LF) (rs.side ++ RF)).map Item.settle =
          (LF.map Item.settle).reverse ++ ((pre ce.lStack ce.lLev ce.lNm).reverse ++ v.map .elem ++
            pre ce.rStack ce.rLev ce.rNm) ++ RF.map Item.settle := by
  obtain ⟨ls', llev, lvec, l1, l2, l3, l4⟩ := openSide_spec hl
  obtain ⟨rs', rlev, rvec, r1, r2, r3, r4⟩ := openSide_spec hr
  rcases l4 with ⟨rfl, l4⟩ | ⟨rfl, l4⟩ <;> rcases r4 with ⟨rfl, r4⟩ | ⟨rfl, r4⟩
  · -- both active vectors empty
    obtain ⟨lc, la⟩ := ls
    obtain ⟨rc, ra⟩ := rs
    simp only at l4 r4
    subst l4 r4
    match la with
    | (nm, lev, v) :: rest =>
      have hv := hl (nm, lev, v) (by simp)
      have hs : StackOK (⟨v, rest⟩ : AStack E Nat) := fun p hp => hl p (by simp at hp ⊢; exact .inr hp)
      have hls' : ls' = ⟨v, rest⟩ := by
        simp [Raz.openSide, nextArchive_cons] at l1; exact l1.1.symm
      subst hls'
      have hne : (⟨v, rest⟩ : AStack E Nat).isEmpty = false := by simp [AStack.isEmpty, hv.2]
      have key : ∀ LF RF, MarkHead LF → MarkHead RF →
          glue (AStack.side (⟨[], (nm, lev, v) :: rest⟩ : AStack E Nat) ++ LF)
            (AStack.side (⟨[], ra⟩ : AStack E Nat) ++ RF) =
          (AStack.side (⟨v, rest⟩ : AStack E Nat) ++ LF).reverse ++
            (AStack.side (⟨[], ra⟩ : AStack E Nat) ++ RF) := by
        intro LF RF _ hR
        rw [side_arch]
        have hm : AStack.side (⟨[], ra⟩ : AStack E Nat) ++ RF = [] ∨
            ∃ r rs, AStack.side (⟨[], ra⟩ : AStack E Nat) ++ RF = r :: rs ∧ r.isMark := by
          rcases ra with _ | ⟨⟨a, b, c⟩, d⟩
          · rcases hR with rfl | ⟨a, b, c, rfl⟩
            · exact .inl rfl
            · exact .inr ⟨_, _, rfl, rfl⟩
          · exact .inr ⟨_, _, by rw [side_arch]; rfl, rfl⟩
        rcases hm with hh | ⟨r, rs, hh, hr⟩
        · rw [hh]; simp [glue, Item.isMark]
        · rw [hh]; simp [glue, hr]; simp [Item.isMark]
      rcases rest with _ | ⟨⟨nm2, lev2, v2⟩, rest2⟩
      · 
        refine ⟨⟨⟨[], []⟩, rs', none, rlev, Raz.treeName ⟨v, []⟩, Raz.treeName ⟨[], ra⟩, some v⟩, ?_,
          ⟨by simp [StackOK], rfl⟩, r2, hv.2, ?_⟩
        · simp [Raz.center, l1, r1, hne, nextArchive_last hv.2, pure, Except.pure]
        · intro LF RF h1 h2
          rw [key LF RF h1 h2]
          simp only [List.map_append, List.map_reverse, r3]
          simp [pre, AStack.side, Item.settle, Function.comp_def]
      · have hv2 := hl (nm2, lev2, v2) (by simp)
        have hs2 : StackOK (⟨v2, rest2⟩ : AStack E Nat) := fun p hp => hs p (by simp at hp ⊢; exact .inr hp)
        refine ⟨⟨⟨v2, rest2⟩, rs', some lev2, rlev, Raz.treeName ⟨v, (nm2, lev2, v2) :: rest2⟩,
          Raz.treeName ⟨[], ra⟩, some v⟩, ?_, ⟨hs2, hv2⟩, r2, hv.2, ?_⟩
        · simp [Raz.center, l1, r1, hne, nextArchive_cons, pure, Except.pure]
        · intro LF RF h1 h2
          rw [key LF RF h1 h2]
          simp only [List.map_append, List.map_reverse, r3]
          simp [pre, side_mk v, side_arch, Item.settle, Raz.treeName, AStack.name, Stack.name, Function.comp_def]
    | [] =>
      have hls' : ls' = ⟨[], []⟩ ∧ llev = none := by
        simp [Raz.openSide, nextArchive_nil] at l1; exact ⟨l1.1.symm, l1.2.symm⟩
      obtain ⟨rfl, rfl⟩ := hls'
      match ra with
      | [] =>
        have hrs' : rs' = ⟨[], []⟩ ∧ rlev = none := by
          simp [Raz.openSide, nextArchive_nil] at r1; exact ⟨r1.1.symm, r1.2.symm⟩
        obtain ⟨rfl, rfl⟩ := hrs'
        refine ⟨⟨⟨[], []⟩, ⟨[], []⟩, none, none, Raz.treeName (⟨[], []⟩ : AStack E Nat), Raz.treeName (⟨[], []⟩ : AStack E Nat), none⟩, ?_⟩
        refine ⟨?_, l2, r2, ?_⟩
        · simp [Raz.center, l1, AStack.isEmpty, Stack.isEmpty, pure, Except.pure]
        · exact ⟨rfl, rfl⟩
      | (nm, lev, v) :: rest =>
        have hv := hr (nm, lev, v) (by simp)
        have hs : StackOK (⟨v, rest⟩ : AStack E Nat) := fun p hp => hr p (by simp at hp ⊢; exact .inr hp)
        have hrs' : rs' = ⟨v, rest⟩ := by
          simp [Raz.openSide, nextArchive_cons] at r1; exact r1.1.symm
        subst hrs'
        have hne : (⟨v, rest⟩ : AStack E Nat).isEmpty = false := by simp [AStack.isEmpty, hv.2]
        have hne0 : (⟨[], []⟩ : AStack E Nat).isEmpty = true := rfl
        have key : ∀ LF RF, MarkHead LF → MarkHead RF →
            glue (AStack.side (⟨[], []⟩ : AStack E Nat) ++ LF)
              (AStack.side (⟨[], (nm, lev, v) :: rest⟩ : AStack E Nat) ++ RF) =
            LF.reverse ++ (AStack.side (⟨v, rest⟩ : AStack E Nat) ++ RF) := by
          intro LF RF hL _
          rw [side_arch]
          rcases hL with rfl | ⟨a, b, c, rfl⟩
          · simp [glue, Item.isMark]
          · simp [glue, Item.isMark]
        rcases rest with _ | ⟨⟨nm2, lev2, v2⟩, rest2⟩
        · 
          refine ⟨⟨⟨[], []⟩, ⟨[], []⟩, none, none, Raz.treeName (⟨[], []⟩ : AStack E Nat), Raz.treeName ⟨v, []⟩, some v.reverse⟩, ?_,
            l2, ⟨by simp [StackOK], rfl⟩, by simpa using hv.2, ?_⟩
          · simp [Raz.center, l1, r1, hne, hne0, nextArchive_last hv.2, pure, Except.pure]
          · intro LF RF h1 h2
            rw [key LF RF h1 h2]
            simp [pre, AStack.side, Item.settle, Function.comp_def]
        · have hv2 := hr (nm2, lev2, v2) (by simp)
          have hs2 : StackOK (⟨v2, rest2⟩ : AStack E Nat) := fun p hp => hs p (by simp at hp ⊢; exact .inr hp)
          refine ⟨⟨⟨[], []⟩, ⟨v2, rest2⟩, none, some lev2, Raz.treeName (⟨[], []⟩ : AStack E Nat),
            Raz.treeName ⟨v, (nm2, lev2, v2) :: rest2⟩, some v.reverse⟩, ?_, l2, ⟨hs2, hv2⟩, by simpa using hv.2, ?_⟩
          · simp [Raz.center, l1, r1, hne, hne0, nextArchive_cons, pure, Except.pure]
          · intro LF RF h1 h2
            rw [key LF RF h1 h2]
            simp [pre, side_mk v, side_arch, Item.settle, Raz.treeName, AStack.name, Stack.name, Function.comp_def]
  · refine ⟨⟨ls', rs', llev, rlev, Raz.treeName ls, Raz.treeName rs, some rs.current.reverse⟩, ?_, l2, r2, by simpa using r4, ?_⟩
    · simp [Raz.center, l1, r1, pure, Except.pure]
    · intro LF RF h1 h2
      obtain ⟨e, r, he⟩ := side_head r4
      have : glue (ls.side ++ LF) (rs.side ++ RF) = (ls.side ++ LF).reverse ++ (rs.side ++ RF) := by
        rw [he]; exact glue_right_elem e _ _
      rw [this]
      simp only [List.map_append, List.map_reverse, l3, r3, List.reverse_append]
      simp
  · refine ⟨⟨ls', rs', llev, rlev, Raz.treeName ls, Raz.treeName rs, some ls.current⟩, ?_, l2, r2, by simpa using l4, ?_⟩
    · simp [Raz.center, l1, r1, pure, Except.pure]
    · intro LF RF h1 h2
      obtain ⟨e, r, he⟩ := side_head l4
      have : glue (ls.side ++ LF) (rs.side ++ RF) = (ls.side ++ LF).reverse ++ (rs.side ++ RF) := by
        rw [he]; exact glue_left_elem e _ _
      rw [this]
      simp only [List.map_append, List.map_reverse, l3, r3, List.reverse_append]
      simp
  · refine ⟨⟨ls', rs', llev, rlev, Raz.treeName ls, Raz.treeName rs, some (ls.current ++ rs.current.reverse)⟩, ?_, l2, r2, by simp [l4], ?_⟩
    · simp [Raz.center, l1, r1, pure, Except.pure]
    · intro LF RF h1 h2
      obtain ⟨e, r, he⟩ := side_head l4
      have : glue (ls.side ++ LF) (rs.side ++ RF) = (ls.side ++ LF).reverse ++ (rs.side ++ RF) := by
        rw [he]; exact glue_left_elem e _ _
      rw [this]
      simp only [List.map_append, List.map_reverse, l3, r3, List.reverse_append]
      simp

omit [RazMeta E M] in
theorem leftSide_markHead (l : List (Bool × TNode (TreeData E M))) : MarkHead (Cursor.leftSide l) := by
  cases l with
  | nil => exact .inl rfl
  | cons p l => exact .inr ⟨_, _, _, leftSide_cons p l⟩
omit [RazMeta E M] in
theorem rightSide_markHead (l : List (Bool × TNode (TreeData E M))) : MarkHead (Cursor.rightSide l) := by
  cases l with
  | nil => exact .inl rfl
  | cons p l => exact .inr ⟨_, _, _, rightSide_cons p l⟩

/-- `unfocus` glues both sides and never panics. -/
theorem unfocus_ok {z : Raz E M} (h : ZInv z) :
    ∃ t, z.unfocus = .ok { info := metaOf 0 none t, tree := t } ∧ WFo t ∧
      t.items = (glue z.left z.right).map Item.settle := by
  obtain ⟨hlf, hrf, hls, hrs⟩ := h
  obtain ⟨ce, c1, c2, c3, c4⟩ := center_ok hls hrs
  unfold Raz.unfocus
  simp only [c1, bind, Except.bind]
  match hv : ce.vec with
  | some v =>
    rw [hv] at c4
    obtain ⟨-, hg⟩ := c4
    obtain ⟨j1, a1, a2, a3⟩ := joinLeftLoop_ok ce.lStack.archived ce.lStack.current ce.lLev ce.lNm
      (Raz.treeName ce.lStack) (Cursor.ofTree (leaf v none)) c2 rfl (JInv.ofTree (M := M) (WF.leaf v))
    obtain ⟨j2, b1, b2, b3⟩ := joinRightLoop_ok ce.rStack.archived ce.rStack.current ce.rLev ce.rNm
      (Raz.treeName ce.rStack) j1 c3 rfl a2
    obtain ⟨j3, d1, d2, d3, -⟩ := upAll_ok j2.height j2 b2 (Nat.le_refl _)
    obtain ⟨t, e1, e2, e3⟩ := joinForests_ok d2 hlf hrf
    refine ⟨t, ?_, .inr e2, ?_⟩
    · have a1' : Raz.joinLeftLoop ce.lStack (Cursor.ofTree (leaf v none)) ce.lLev ce.lNm (Raz.treeName ce.lStack) = .ok j1 := a1
      have b1' : Raz.joinRightLoop ce.rStack j1 ce.rLev ce.rNm (Raz.treeName ce.rStack) = .ok j2 := b1
      simp only [Raz.centerTree, hv, bind, Except.bind, a1', b1', d1, Raz.unwrapTree, Cursor.atTree, d2.isSome,
        if_true, pure, Except.pure]
      exact e1
    · rw [e3, d3, b3, a3]
      have := hg (Cursor.leftSide z.lForest.lForest) (Cursor.rightSide z.rForest.rForest)
        (leftSide_markHead _) (rightSide_markHead _)
      simp only [Raz.left, Raz.right]
      rw [this]
      simp [cItems, Cursor.ofTree, leaf]
  | none =>
    rw [hv] at c4
    obtain ⟨h1, h2⟩ := c4
    have hL : z.left = Cursor.leftSide z.lForest.lForest := by simp [Raz.left, h1]
    have hR : z.right = Cursor.rightSide z.rForest.rForest := by simp [Raz.right, h2]
    rw [hL, hR]
    match hf : z.lForest.lForest with
    | (d, u) :: rest =>
      obtain ⟨c', a, b, t, u1, u2, u3, u4, ⟨u5, u6, u7⟩, u8⟩ := hlf.up_cons hf
      have hc' : LInv c' := ⟨by rw [u2]; exact u8, u3, by simp [u4, Tree.peek?]⟩
      obtain ⟨t', e1, e2, e3⟩ := joinForests_ok u6 hc' hrf
      refine ⟨t', ?_, .inr e2, ?_⟩
      · simp [Raz.centerTree, hv, u1, Raz.unwrapTree, Cursor.leftTree, u4, u6.isSome, bind, Except.bind, pure,
          Except.pure]
        exact e1
      · rw [e3, u2]
        rcases rightSide_markHead z.rForest.rForest with h0 | ⟨x, y, r, h0⟩
        · rw [h0]; simp [glue, Item.isMark, settle_items]
        · have := settle_rightSide z.rForest.rForest
          rw [h0] at this ⊢
          simp only [List.map_cons, List.cons.injEq] at this
          simp [glue, Item.isMark, settle_items, this]
    | [] =>
      match hf2 : z.rForest.rForest with
      | [] =>
        refine ⟨.nil, ?_, .inl rfl, by simp [glue]⟩
        simp [Raz.centerTree, hv, hlf.up_nil hf, hrf.up_nil hf2, bind, Except.bind, pure, Except.pure]
        exact mkRazTree_wf (.inl rfl)
      | (d, u) :: rest =>
        obtain ⟨c', a, b, t, u1, u2, u3, u4, ⟨u5, u6, u7⟩, u8⟩ := hrf.up_cons hf2
        have hc' : RInv c' := ⟨u3, by rw [u2]; exact u8, by simp [u4, Tree.peek?]⟩
        obtain ⟨t', e1, e2, e3⟩ := joinForests_ok u6 hlf hc'
        refine ⟨t', ?_, .inr e2, ?_⟩
        · simp [Raz.centerTree, hv, hlf.up_nil hf, u1, Raz.unwrapTree, Cursor.rightTree, u4, u6.isSome, bind,
            Except.bind, pure, Except.pure]
          exact e1
        · rw [e3, u2, hf]
          simp [glue, Item.isMark, settle_items]

end
end Iodyn
