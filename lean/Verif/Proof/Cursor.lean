import Verif.Proof.Basic
/-
`up`, `upUntil`, `descendRight/Left`, `join` preserve the item sequence.
-/
namespace Iodyn
variable {E M : Type}

/-- Forest entry left of the focus: its left branch is part of the sequence. -/
def GoodL [RazMeta E M] (u : TNode (TreeData E M)) : Prop :=
  (∃ a b, u.data = .branch a b) ∧ WF u.l ∧ 1 ≤ u.level
/-- Forest entry right of the focus. -/
def GoodR [RazMeta E M] (u : TNode (TreeData E M)) : Prop :=
  (∃ a b, u.data = .branch a b) ∧ WF u.r ∧ 1 ≤ u.level

/-- Left forest of well-formed entries. -/
def FL [RazMeta E M] (l : List (Bool × TNode (TreeData E M))) : Prop := ∀ p ∈ l, GoodL p.2
/-- Right forest of well-formed entries. -/
def FR [RazMeta E M] (l : List (Bool × TNode (TreeData E M))) : Prop := ∀ p ∈ l, GoodR p.2

/-- Invariant of the cursors that are joined. -/
structure JInv [RazMeta E M] (c : Cursor (TreeData E M)) : Prop where
  l : FL c.lForest
  r : FR c.rForest
  t : WF c.tree
  d : c.dirty = true ∨ (c.lForest = [] ∧ c.rForest = [])

/-- All items reachable from a cursor, left to right. -/
def cItems (c : Cursor (TreeData E M)) : List (Item E) :=
  (Cursor.leftSide c.lForest).reverse ++ c.tree.items ++ Cursor.rightSide c.rForest

@[simp] theorem leftSide_nil : Cursor.leftSide ([] : List (Bool × TNode (TreeData E M))) = [] := rfl
@[simp] theorem rightSide_nil : Cursor.rightSide ([] : List (Bool × TNode (TreeData E M))) = [] := rfl
@[simp] theorem leftSide_cons (p : Bool × TNode (TreeData E M)) (l) :
    Cursor.leftSide (p :: l) = .mark p.2.level p.2.name :: p.2.l.items.reverse ++ Cursor.leftSide l := by
  simp [Cursor.leftSide]
@[simp] theorem rightSide_cons (p : Bool × TNode (TreeData E M)) (l) :
    Cursor.rightSide (p :: l) = .mark p.2.level p.2.name :: p.2.r.items ++ Cursor.rightSide l := by
  simp [Cursor.rightSide]
@[simp] theorem items_branch (lv nm) (a b : M) (l r : Tree (TreeData E M)) :
    Tree.items (.node lv nm (.branch a b) l r) = l.items ++ .mark lv nm :: r.items := rfl
@[simp] theorem items_leaf (lv nm) (v : List E) (l r : Tree (TreeData E M)) :
    Tree.items (.node lv nm (.leaf v) l r) = v.map .elem := rfl
@[simp] theorem items_nil : Tree.items (.nil : Tree (TreeData E M)) = [] := rfl

theorem descendRight_node {E : Type} (level d lf lv nm) (x : E) (l r rf) :
    Cursor.descendRight level ⟨d, lf, .node lv nm x l r, rf⟩ =
      if lv < level then .ok ⟨d, lf, .node lv nm x l r, rf⟩
      else Cursor.descendRight level ⟨false, (d, ⟨lv, nm, x, l, r⟩) :: lf, r, rf⟩ := by
  conv => lhs; unfold Cursor.descendRight
  simp only
  split
  · rfl
  · split
    · rename_i heq
      simp [Cursor.downRightForce] at heq
      rw [heq]
    · rename_i heq
      simp [Cursor.downRightForce] at heq

theorem descendLeft_node {E : Type} (level d lf lv nm) (x : E) (l r rf) :
    Cursor.descendLeft level ⟨d, lf, .node lv nm x l r, rf⟩ =
      if lv ≤ level then .ok ⟨d, lf, .node lv nm x l r, rf⟩
      else Cursor.descendLeft level ⟨false, lf, l, (d, ⟨lv, nm, x, l, r⟩) :: rf⟩ := by
  conv => lhs; unfold Cursor.descendLeft
  simp only
  split
  · rfl
  · split
    · rename_i heq
      simp [Cursor.downLeftForce] at heq
      rw [heq]
    · rename_i heq
      simp [Cursor.downLeftForce] at heq

theorem downRightAll_node {E : Type} (d : Bool) (lf : List (Bool × TNode E)) (lv nm) (x : E) (l r rf) :
    Cursor.downRightAll ⟨d, lf, .node lv nm x l r, rf⟩ =
      if r.isSome then Cursor.downRightAll ⟨false, (d, ⟨lv, nm, x, l, r⟩) :: lf, r, rf⟩
      else ⟨d, lf, .node lv nm x l r, rf⟩ := by
  conv => lhs; unfold Cursor.downRightAll
  split
  · rename_i heq
    cases hr : r.isSome <;> simp [Cursor.downRight, Cursor.downRightForce, hr] at heq
    simp [heq]
  · rename_i heq
    cases hr : r.isSome <;> simp [Cursor.downRight, Cursor.downRightForce, hr] at heq
    simp

theorem downLeftAll_node {E : Type} (d : Bool) (lf : List (Bool × TNode E)) (lv nm) (x : E) (l r rf) :
    Cursor.downLeftAll ⟨d, lf, .node lv nm x l r, rf⟩ =
      if l.isSome then Cursor.downLeftAll ⟨false, lf, l, (d, ⟨lv, nm, x, l, r⟩) :: rf⟩
      else ⟨d, lf, .node lv nm x l r, rf⟩ := by
  conv => lhs; unfold Cursor.downLeftAll
  split
  · rename_i heq
    cases hr : l.isSome <;> simp [Cursor.downLeft, Cursor.downLeftForce, hr] at heq
    simp [heq]
  · rename_i heq
    cases hr : l.isSome <;> simp [Cursor.downLeft, Cursor.downLeftForce, hr] at heq
    simp

section
variable [RazMeta E M]

theorem FL_cons {p : Bool × TNode (TreeData E M)} {l} : FL (p :: l) ↔ GoodL p.2 ∧ FL l := by
  simp [FL]
theorem FR_cons {p : Bool × TNode (TreeData E M)} {l} : FR (p :: l) ↔ GoodR p.2 ∧ FR l := by
  simp [FR]
@[simp] theorem FL_nil : FL ([] : List (Bool × TNode (TreeData E M))) := by simp [FL]
@[simp] theorem FR_nil : FR ([] : List (Bool × TNode (TreeData E M))) := by simp [FR]

theorem JInv.ofTree {t : Tree (TreeData E M)} (h : WF t) : JInv (Cursor.ofTree t) :=
  ⟨by simp [Cursor.ofTree], by simp [Cursor.ofTree], h, .inr ⟨rfl, rfl⟩⟩

/-- `up` away from the root: succeeds and keeps everything. -/
theorem up_ok {c : Cursor (TreeData E M)} (h : JInv c) (hh : c.height ≠ 0) :
    ∃ c' res, c.up = .ok (c', res) ∧ res = c.upDir ∧ res ≠ .fail ∧ JInv c' ∧ c'.dirty = true ∧
      cItems c' = cItems c ∧
      c'.height + 1 = c.height ∧
      ((res = .left ∧ c'.lForest = c.lForest.tail ∧ c'.rForest = c.rForest) ∨
       (res = .right ∧ c'.rForest = c.rForest.tail ∧ c'.lForest = c.lForest)) := by
  obtain ⟨dirty, lf, t, rf⟩ := c
  obtain ⟨hl, hr, ht, hd⟩ := h
  simp only at hl hr ht hd
  have hdirty : dirty = true := by
    rcases hd with h | ⟨rfl, rfl⟩
    · exact h
    · simp [Cursor.height] at hh
  subst hdirty
  unfold Cursor.up
  have hcases : (∃ d u rest, lf = (d, u) :: rest ∧ Cursor.upDir ⟨true, lf, t, rf⟩ = .left) ∨
      (∃ d u rest, rf = (d, u) :: rest ∧ Cursor.upDir ⟨true, lf, t, rf⟩ = .right) := by
    match lf, rf with
    | [], [] => simp [Cursor.height] at hh
    | (d,u) :: rest, [] => exact .inl ⟨d, u, rest, rfl, rfl⟩
    | [], (d,u) :: rest => exact .inr ⟨d, u, rest, rfl, rfl⟩
    | (d,u) :: rest, (d',u') :: rest' =>
      by_cases hc : u'.level > u.level
      · exact .inl ⟨d, u, rest, rfl, by simp [Cursor.upDir, hc]⟩
      · exact .inr ⟨d', u', rest', rfl, by simp [Cursor.upDir, hc]⟩
  rcases hcases with ⟨d, u, rest, rfl, hdir⟩ | ⟨d, u, rest, rfl, hdir⟩
  · rw [hdir]
    simp only [if_true]
    obtain ⟨⟨⟨a, b, hab⟩, hwl, hlv⟩, hrest⟩ := FL_cons.1 hl
    simp only at hab hwl hlv
    rw [rebuild_eq hwl.peek_ne ht.peek_ne (by simp [hab])]
    refine ⟨_, _, rfl, rfl, by simp, ⟨hrest, hr, WF.branch hlv hwl ht, .inl rfl⟩, rfl, ?_, ?_, ?_⟩
    · simp [cItems]
    · simp [Cursor.height]; omega
    · simp
  · rw [hdir]
    simp only [if_true]
    obtain ⟨⟨⟨a, b, hab⟩, hwl, hlv⟩, hrest⟩ := FR_cons.1 hr
    simp only at hab hwl hlv
    rw [rebuild_eq ht.peek_ne hwl.peek_ne (by simp [hab])]
    refine ⟨_, _, rfl, rfl, by simp, ⟨hl, hrest, WF.branch hlv ht hwl, .inl rfl⟩, rfl, ?_, ?_, ?_⟩
    · simp [cItems]
    · simp [Cursor.height]; omega
    · simp

/-- A guarded `up` loop succeeds, keeps all items and ends with the guard satisfied. -/
theorem upUntil_ok {stop : Cursor (TreeData E M) → Bool}
    (hstop : ∀ c, c.height = 0 → stop c = true) :
    ∀ (n : Nat) (c : Cursor (TreeData E M)), JInv c → c.height ≤ n →
      ∃ c', Cursor.upUntil stop n c = .ok c' ∧ JInv c' ∧ cItems c' = cItems c ∧ stop c' = true ∧
        (c.lForest = [] → c'.lForest = []) ∧ (c.rForest = [] → c'.rForest = []) ∧
        (c.dirty = true → c'.dirty = true) := by
  intro n
  induction n with
  | zero =>
    intro c h hn
    have := hstop c (by omega)
    exact ⟨c, by simp [Cursor.upUntil, this], h, rfl, this, id, id, id⟩
  | succ n ih =>
    intro c h hn
    by_cases hs : stop c = true
    · exact ⟨c, by simp [Cursor.upUntil, hs], h, rfl, hs, id, id, id⟩
    · have hh : c.height ≠ 0 := fun h0 => hs (hstop c h0)
      obtain ⟨c', res, hup, -, hnf, hinv, hdt, hit, hht, hdir⟩ := up_ok h hh
      obtain ⟨c'', h1, h2, h3, h4, h5, h6, h7⟩ := ih c' hinv (by omega)
      refine ⟨c'', ?_, h2, h3.trans hit, h4, ?_, ?_, fun _ => h7 hdt⟩
      · simp only [Cursor.upUntil, hs, hup]
        simpa [bind, Except.bind, hnf] using h1
      · intro hl
        rcases hdir with ⟨_, ha, hb⟩ | ⟨_, ha, hb⟩
        · exact h5 (by rw [ha, hl]; rfl)
        · exact h5 (by rw [hb, hl])
      · intro hl
        rcases hdir with ⟨_, ha, hb⟩ | ⟨_, ha, hb⟩
        · exact h6 (by rw [hb, hl])
        · exact h6 (by rw [ha, hl]; rfl)

theorem upAll_ok : ∀ (n : Nat) (c : Cursor (TreeData E M)), JInv c → c.height ≤ n →
      ∃ c', Cursor.upAll n c = .ok c' ∧ WF c'.tree ∧ c'.tree.items = cItems c ∧ c'.height = 0 := by
  intro n
  induction n with
  | zero =>
    intro c h hn
    have h0 : c.height = 0 := by omega
    refine ⟨c, rfl, h.t, ?_, h0⟩
    simp only [Cursor.height, Nat.add_eq_zero_iff, List.length_eq_zero_iff] at h0
    simp [cItems, h0]
  | succ n ih =>
    intro c h hn
    by_cases hh : c.height = 0
    · have h0 := hh
      simp only [Cursor.height, Nat.add_eq_zero_iff, List.length_eq_zero_iff] at h0
      refine ⟨c, ?_, h.t, by simp [cItems, h0], hh⟩
      simp [Cursor.upAll, Cursor.up, Cursor.upDir, h0, bind, Except.bind]
    · obtain ⟨c', res, hup, -, hnf, hinv, hdt, hit, hht, hdir⟩ := up_ok h hh
      obtain ⟨c'', h1, h2, h3, h4⟩ := ih c' hinv (by omega)
      refine ⟨c'', ?_, h2, h3.trans hit, h4⟩
      simp only [Cursor.upAll, hup]
      simpa [bind, Except.bind, hnf] using h1

/-- Going down right while the level is at least `level >= 1` ends at a well-formed tree. -/
theorem descendRight_ok {level : Nat} (hlev : 1 ≤ level) :
    ∀ (t : Tree (TreeData E M)), WF t → ∀ (c : Cursor (TreeData E M)), c.tree = t → FL c.lForest →
      ∃ c', c.descendRight level = .ok c' ∧ FL c'.lForest ∧ WF c'.tree ∧ c'.rForest = c.rForest ∧
        cItems c' = cItems c := by
  intro t ht
  induction ht with
  | leaf v =>
    intro c hc hl
    refine ⟨c, ?_, hl, hc ▸ WF.leaf v, rfl, rfl⟩
    obtain ⟨d, lf, t, rf⟩ := c
    simp only at hc; subst hc
    rw [descendRight_node, if_pos (by omega)]
  | @branch lv nm l r h1 hl hr ihl ihr =>
    intro c hc hf
    obtain ⟨d, lf, t, rf⟩ := c
    simp only at hc; subst hc
    by_cases hlt : lv < level
    · refine ⟨_, ?_, hf, WF.branch h1 hl hr, rfl, rfl⟩
      rw [descendRight_node, if_pos hlt]
    · obtain ⟨c', e1, e2, e3, e4, e5⟩ := ihr
        { dirty := false, lForest := (d, ⟨lv, nm, .branch (metaOf lv nm l) (metaOf lv nm r), l, r⟩) :: lf,
          tree := r, rForest := rf } rfl (FL_cons.2 ⟨⟨⟨_, _, rfl⟩, hl, h1⟩, hf⟩)
      refine ⟨c', ?_, e2, e3, e4, ?_⟩
      · rw [descendRight_node, if_neg hlt]; exact e1
      · rw [e5]; simp [cItems]

theorem descendLeft_ok {level : Nat} :
    ∀ (t : Tree (TreeData E M)), WF t → ∀ (c : Cursor (TreeData E M)), c.tree = t → FR c.rForest →
      ∃ c', c.descendLeft level = .ok c' ∧ FR c'.rForest ∧ WF c'.tree ∧ c'.lForest = c.lForest ∧
        cItems c' = cItems c := by
  intro t ht
  induction ht with
  | leaf v =>
    intro c hc hl
    refine ⟨c, ?_, hl, hc ▸ WF.leaf v, rfl, rfl⟩
    obtain ⟨d, lf, t, rf⟩ := c
    simp only at hc; subst hc
    rw [descendLeft_node, if_pos (by omega)]
  | @branch lv nm l r h1 hl hr ihl ihr =>
    intro c hc hf
    obtain ⟨d, lf, t, rf⟩ := c
    simp only at hc; subst hc
    by_cases hlt : lv ≤ level
    · refine ⟨_, ?_, hf, WF.branch h1 hl hr, rfl, rfl⟩
      rw [descendLeft_node, if_pos hlt]
    · obtain ⟨c', e1, e2, e3, e4, e5⟩ := ihl
        { dirty := false, rForest := (d, ⟨lv, nm, .branch (metaOf lv nm l) (metaOf lv nm r), l, r⟩) :: rf,
          tree := l, lForest := lf } rfl (FR_cons.2 ⟨⟨⟨_, _, rfl⟩, hr, h1⟩, hf⟩)
      refine ⟨c', ?_, e2, e3, e4, ?_⟩
      · rw [descendLeft_node, if_neg hlt]; exact e1
      · rw [e5]; simp [cItems]

/-- `Cursor::join` concatenates, with the new archive point in the middle. -/
theorem join_ok {lc rc : Cursor (TreeData E M)} {level : Nat} {name : Option Name} (hlev : 1 ≤ level)
    (hl : JInv lc) (hr : JInv rc) :
    ∃ c, Cursor.join lc level name .dummy rc = .ok c ∧ JInv c ∧ c.dirty = true ∧
      cItems c = cItems lc ++ .mark level name :: cItems rc := by
  obtain ⟨l1, a1, a2, a3, a4, -, -, -⟩ := upUntil_ok (stop := fun c => c.rForest.isEmpty)
    (fun c h => by simp [Cursor.height] at h; simp [h]) lc.height lc hl (Nat.le_refl _)
  obtain ⟨r1, b1, b2, b3, b4, -, -, -⟩ := upUntil_ok (stop := fun c => c.lForest.isEmpty)
    (fun c h => by simp [Cursor.height] at h; simp [h]) rc.height rc hr (Nat.le_refl _)
  obtain ⟨l2, c1, c2, c3, -, -, c6, -⟩ := upUntil_ok
    (stop := Cursor.stopLeft level)
    (fun c h => by simp [Cursor.height] at h; simp [Cursor.stopLeft, Cursor.upLeftLevel, h]) l1.height l1 a2 (Nat.le_refl _)
  have hl2 : l2.rForest = [] := c6 (by simpa using a4)
  obtain ⟨l3, d1, d2, d3, d4, d5⟩ := descendRight_ok hlev l2.tree c2.t l2 rfl c2.l
  obtain ⟨r2, e1, e2, e3, -, e5, -, -⟩ := upUntil_ok
    (stop := Cursor.stopRight level)
    (fun c h => by simp [Cursor.height] at h; simp [Cursor.stopRight, Cursor.upRightLevel, h]) r1.height r1 b2 (Nat.le_refl _)
  have hr2 : r2.lForest = [] := e5 (by simpa using b4)
  obtain ⟨r3, f1, f2, f3, f4, f5⟩ := descendLeft_ok (level := level) r2.tree e2.t r2 rfl e2.r
  refine ⟨⟨true, l3.lForest, .node level name
    (.branch (metaOf level name l3.tree) (metaOf level name r3.tree)) l3.tree r3.tree, r3.rForest⟩, ?_,
    ⟨d2, f2, WF.branch hlev d3 f3, .inl rfl⟩, rfl, ?_⟩
  · unfold Cursor.join
    simp only [a1, b1, c1, d1, e1, f1, bind, Except.bind]
    rw [rebuild_eq d3.peek_ne f3.peek_ne (by simp)]
    rfl
  · rw [← a3, ← b3, ← c3, ← e3, ← d5, ← f5]
    simp [cItems, d4, f4, hl2, hr2]

/-- `while cursor.down_right() {}` on a well-formed tree ends at its last leaf. -/
theorem downRightAll_ok :
    ∀ (t : Tree (TreeData E M)), WF t → ∀ (c : Cursor (TreeData E M)), c.tree = t → FL c.lForest →
      ∃ c' v, c.downRightAll = c' ∧ c'.tree = .node 0 none (.leaf v) .nil .nil ∧ FL c'.lForest ∧
        c'.rForest = c.rForest ∧
        v.reverse.map Item.elem ++ Cursor.leftSide c'.lForest = t.items.reverse ++ Cursor.leftSide c.lForest := by
  intro t ht
  induction ht with
  | leaf v =>
    intro c hc hf
    refine ⟨c, v, ?_, hc, hf, rfl, by simp⟩
    obtain ⟨d, lf, t, rf⟩ := c
    simp only at hc; subst hc
    rw [downRightAll_node]; rfl
  | @branch lv nm l r h1 hl hr ihl ihr =>
    intro c hc hf
    obtain ⟨d, lf, t, rf⟩ := c
    simp only at hc; subst hc
    obtain ⟨c', v, e1, e2, e3, e4, e5⟩ := ihr
        { dirty := false, lForest := (d, ⟨lv, nm, .branch (metaOf lv nm l) (metaOf lv nm r), l, r⟩) :: lf,
          tree := r, rForest := rf } rfl (FL_cons.2 ⟨⟨⟨_, _, rfl⟩, hl, h1⟩, hf⟩)
    refine ⟨c', v, ?_, e2, e3, e4, ?_⟩
    · rw [downRightAll_node, if_pos hr.isSome]; exact e1
    · rw [e5]; simp

theorem downLeftAll_ok :
    ∀ (t : Tree (TreeData E M)), WF t → ∀ (c : Cursor (TreeData E M)), c.tree = t → FR c.rForest →
      ∃ c' v, c.downLeftAll = c' ∧ c'.tree = .node 0 none (.leaf v) .nil .nil ∧ FR c'.rForest ∧
        c'.lForest = c.lForest ∧
        v.map Item.elem ++ Cursor.rightSide c'.rForest = t.items ++ Cursor.rightSide c.rForest := by
  intro t ht
  induction ht with
  | leaf v =>
    intro c hc hf
    refine ⟨c, v, ?_, hc, hf, rfl, by simp⟩
    obtain ⟨d, lf, t, rf⟩ := c
    simp only at hc; subst hc
    rw [downLeftAll_node]; rfl
  | @branch lv nm l r h1 hl hr ihl ihr =>
    intro c hc hf
    obtain ⟨d, lf, t, rf⟩ := c
    simp only at hc; subst hc
    obtain ⟨c', v, e1, e2, e3, e4, e5⟩ := ihl
        { dirty := false, rForest := (d, ⟨lv, nm, .branch (metaOf lv nm l) (metaOf lv nm r), l, r⟩) :: rf,
          tree := l, lForest := lf } rfl (FR_cons.2 ⟨⟨⟨_, _, rfl⟩, hr, h1⟩, hf⟩)
    refine ⟨c', v, ?_, e2, e3, e4, ?_⟩
    · rw [downLeftAll_node, if_pos hl.isSome]; exact e1
    · rw [e5]; simp

end
end Iodyn
