import Verif.Proof.Canon
import Verif.Spec.Walk
/-
Generic cursors: walks, split and join, iterators.
-/
namespace Iodyn
variable {D K A : Type}

/-! ### heap order -/

theorem HeapOrdered.canon {t : Tree D} (h : HeapOrdered t) : Canon t := by
  induction t with
  | nil => trivial
  | node lv nm d l r ihl ihr =>
    obtain ⟨h1, h2⟩ := h lv nm d l r .refl
    refine ⟨?_, ?_, ihl (fun _ _ _ _ _ hs => h _ _ _ _ _ (.left hs)), ihr (fun _ _ _ _ _ hs => h _ _ _ _ _ (.right hs))⟩
    · intro x hx
      cases l with
      | nil => simp [Tree.level?] at hx
      | node => simp [Tree.level?] at hx; exact h1 x (by simp [Tree.levels, hx])
    · intro x hx
      cases r with
      | nil => simp [Tree.level?] at hx
      | node => simp [Tree.level?] at hx; exact h2 x (by simp [Tree.levels, hx])

/-! ### walks -/

theorem subAt_append (t : Tree D) (p q : List Dir) : subAt t (p ++ q) = subAt (subAt t p) q := List.foldl_append

/-- The cursor stands at a path of the tree. -/
inductive At (t : Tree D) : Cursor D → List Dir → Prop
  | root : At t (Cursor.ofTree t) []
  | left {lf rf p lv nm d l r} : At t ⟨false, lf, .node lv nm d l r, rf⟩ p →
    At t ⟨false, lf, l, (false, ⟨lv, nm, d, l, r⟩) :: rf⟩ (p ++ [.left])
  | right {lf rf p lv nm d l r} : At t ⟨false, lf, .node lv nm d l r, rf⟩ p →
    At t ⟨false, (false, ⟨lv, nm, d, l, r⟩) :: lf, r, rf⟩ (p ++ [.right])

theorem At.tree {t : Tree D} {c : Cursor D} {p} (h : At t c p) : c.tree = subAt t p := by
  induction h with
  | root => rfl
  | left _ ih => rw [subAt_append, ← ih]; rfl
  | right _ ih => rw [subAt_append, ← ih]; rfl

theorem At.cc {t : Tree D} (ht : Canon t) {c : Cursor D} {p} (h : At t c p) : CC c := by
  induction h with
  | root => exact CC.ofTree ht
  | left _ ih => exact ih.downL false
  | right _ ih => exact ih.downR false

theorem At.dirty {t : Tree D} {c : Cursor D} {p} (h : At t c p) : c.dirty = false := by
  cases h <;> rfl

theorem upDir_downL {d b lf lv nm rf} {x : D} {l r : Tree D} (h : CC ⟨d, lf, .node lv nm x l r, rf⟩) :
    Cursor.upDir ⟨b, lf, l, (d, ⟨lv, nm, x, l, r⟩) :: rf⟩ = .right := by
  cases lf with
  | nil => rfl
  | cons p lf =>
    have := h.tl p (by simp) lv rfl
    obtain ⟨b', u⟩ := p
    simp only [Cursor.upDir]
    rw [if_neg (by simpa using this)]

theorem upDir_downR {d b lf lv nm rf} {x : D} {l r : Tree D} (h : CC ⟨d, lf, .node lv nm x l r, rf⟩) :
    Cursor.upDir ⟨b, (d, ⟨lv, nm, x, l, r⟩) :: lf, r, rf⟩ = .left := by
  cases rf with
  | nil => rfl
  | cons p rf =>
    have := h.tr p (by simp) lv rfl
    obtain ⟨b', u⟩ := p
    simp only [Cursor.upDir]
    rw [if_pos (by simpa using this)]

/-- One move of a cursor at a path. -/
theorem At.move [TreeUpdate D] {t : Tree D} (ht : Canon t) {c : Cursor D} {p} (h : At t c p) (m : Move) :
    ∃ c', c.move m = .ok (c', (pathMove t p m).2) ∧ At t c' (pathMove t p m).1 := by
  have hup : ∃ c', c.up = .ok (c', (match p.getLast? with
      | none => .fail
      | some .left => .right
      | some .right => .left : UpResult)) ∧ c.upDiscard = (c', (match p.getLast? with
      | none => .fail
      | some .left => .right
      | some .right => .left : UpResult)) ∧ At t c' p.dropLast := by
    cases h with
    | root => exact ⟨_, rfl, rfl, .root⟩
    | @left lf rf p lv nm d l r h =>
      have hd := upDir_downL (b := false) (h.cc ht)
      exact ⟨⟨false, lf, .node lv nm d l r, rf⟩, by simp [Cursor.up, hd, TNode.toTree],
        by simp [Cursor.upDiscard, hd, TNode.toTree], by simpa using h⟩
    | @right lf rf p lv nm d l r h =>
      have hd := upDir_downR (b := false) (h.cc ht)
      exact ⟨⟨false, lf, .node lv nm d l r, rf⟩, by simp [Cursor.up, hd, TNode.toTree],
        by simp [Cursor.upDiscard, hd, TNode.toTree], by simpa using h⟩
  obtain ⟨c1, u1, u2, u3⟩ := hup
  cases m with
  | up =>
    refine ⟨c1, ?_, ?_⟩
    · simp only [Cursor.move, u1, bind, Except.bind, pure, Except.pure, pathMove]
      cases p.getLast? with
      | none => rfl
      | some d => cases d <;> rfl
    · simp only [pathMove]
      cases hg : p.getLast? with
      | none => rw [List.getLast?_eq_none_iff] at hg; subst hg; exact u3
      | some d => cases d <;> exact u3
  | upDiscard =>
    refine ⟨c1, ?_, ?_⟩
    · simp only [Cursor.move, u2, pathMove]
      cases p.getLast? with
      | none => rfl
      | some d => cases d <;> rfl
    · simp only [pathMove]
      cases hg : p.getLast? with
      | none => rw [List.getLast?_eq_none_iff] at hg; subst hg; exact u3
      | some d => cases d <;> exact u3
  | down d f =>
    have htr := h.tree
    have hdirty := h.dirty
    obtain ⟨dirty, lf, tr, rf⟩ := c
    simp only at hdirty htr
    subst hdirty
    cases tr with
    | nil =>
      refine ⟨⟨false, lf, .nil, rf⟩, ?_, ?_⟩
      · cases d <;> simp [Cursor.move, Cursor.downLeftForce, Cursor.downRightForce, pathMove, ← htr]
      · simpa [pathMove, ← htr] using h
    | node lv nm x l r =>
      cases d with
      | left =>
        have hs : subAt t (p ++ [.left]) = l := by rw [subAt_append, ← htr]; rfl
        by_cases hc : l.isSome || f
        · refine ⟨⟨false, lf, l, (false, ⟨lv, nm, x, l, r⟩) :: rf⟩, ?_, ?_⟩
          · simp only [Cursor.move, Cursor.downLeftForce, pathMove, ← htr, hs, hc, if_true]
            cases f <;> simp at hc <;> simp [hc]
          · simp only [pathMove, ← htr, hs, hc, if_true]
            exact h.left
        · refine ⟨⟨false, lf, .node lv nm x l r, rf⟩, ?_, ?_⟩
          · simp only [Cursor.move, Cursor.downLeftForce, pathMove, ← htr, hs, hc]
            simp at hc
            simp [hc]
          · simpa [pathMove, ← htr, hs, hc] using h
      | right =>
        have hs : subAt t (p ++ [.right]) = r := by rw [subAt_append, ← htr]; rfl
        by_cases hc : r.isSome || f
        · refine ⟨⟨false, (false, ⟨lv, nm, x, l, r⟩) :: lf, r, rf⟩, ?_, ?_⟩
          · simp only [Cursor.move, Cursor.downRightForce, pathMove, ← htr, hs, hc, if_true]
            cases f <;> simp at hc <;> simp [hc]
          · simp only [pathMove, ← htr, hs, hc, if_true]
            exact h.right
        · refine ⟨⟨false, lf, .node lv nm x l r, rf⟩, ?_, ?_⟩
          · simp only [Cursor.move, Cursor.downRightForce, pathMove, ← htr, hs, hc]
            simp at hc
            simp [hc]
          · simpa [pathMove, ← htr, hs, hc] using h

theorem At.walk [TreeUpdate D] {t : Tree D} (ht : Canon t) (ms : List Move) : ∀ {c : Cursor D} {p}, At t c p →
    ∃ c', c.walk ms = .ok (c', (pathWalk t p ms).2) ∧ At t c' (pathWalk t p ms).1 := by
  induction ms with
  | nil => intro c p h; exact ⟨c, rfl, h⟩
  | cons m ms ih =>
    intro c p h
    obtain ⟨c1, h1, h2⟩ := h.move ht m
    obtain ⟨c2, h3, h4⟩ := ih h2
    refine ⟨c2, ?_, h4⟩
    simp only [Cursor.walk, h1, h3, bind, Except.bind, pure, Except.pure, pathWalk, Cursor.atTree, h2.tree]

theorem At.height {t : Tree D} {c : Cursor D} {p} (h : At t c p) : c.height = p.length := by
  induction h with
  | root => rfl
  | left _ ih => simp [Cursor.height] at ih ⊢; omega
  | right _ ih => simp [Cursor.height] at ih ⊢; omega

theorem At.whole [TreeUpdate D] {t : Tree D} (ht : Canon t) {c : Cursor D} {p} (h : At t c p) : c.whole = .ok t := by
  have key : ∀ (n : Nat) (c : Cursor D) (p : List Dir), At t c p → p.length ≤ n → c.upAll n = .ok (Cursor.ofTree t) := by
    intro n
    induction n with
    | zero =>
      intro c p h hp
      simp at hp; subst hp
      have : ∀ q, At t c q → q = [] → c = Cursor.ofTree t := by
        intro q hq h0
        cases hq with
        | root => rfl
        | left => simp at h0
        | right => simp at h0
      rw [this [] h rfl]; rfl
    | succ n ih =>
      intro c p h hp
      obtain ⟨c', h1, h2⟩ := h.move ht .up
      simp only [Cursor.move] at h1
      obtain ⟨⟨c1, r⟩, h3, h4⟩ := bind_ok.1 h1
      simp only [pure, Except.pure, Except.ok.injEq, Prod.mk.injEq] at h4
      obtain ⟨rfl, h4⟩ := h4
      simp only [Cursor.upAll, h3, bind, Except.bind]
      cases hg : p.getLast? with
      | none =>
        simp only [pathMove, hg, MoveOut.went.injEq] at h4 h2
        rw [List.getLast?_eq_none_iff] at hg
        subst hg
        have : ∀ q, At t c1 q → q = [] → c1 = Cursor.ofTree t := by
          intro q hq h0
          cases hq with
          | root => rfl
          | left => simp at h0
          | right => simp at h0
        simp [h4, this [] h2 rfl]
      | some d =>
        have hne : p ≠ [] := by rintro rfl; simp at hg
        cases d <;> (simp only [pathMove, hg, MoveOut.went.injEq] at h4 h2
                     simp only [h4]
                     exact ih c1 _ h2 (by simp; omega))
  have := key c.height c p h (by rw [h.height]; exact Nat.le_refl _)
  simp [Cursor.whole, this, bind, Except.bind, pure, Except.pure, Cursor.atTree, Cursor.ofTree]

/-! ### iterators -/

/-- Nodes right of a forest. -/
def rfNodes (rf : List (Bool × TNode D)) : List (Nat × Option Name × D) :=
  rf.flatMap (fun p => (p.2.level, p.2.name, p.2.data) :: p.2.r.nodes)
/-- Nodes of a left forest, from the focus outwards. -/
def lfNodes (lf : List (Bool × TNode D)) : List (Nat × Option Name × D) :=
  lf.flatMap (fun p => (p.2.level, p.2.name, p.2.data) :: p.2.l.nodes.reverse)

/-- What an iterator will still yield. -/
def pending (c : Cursor D) : List (Nat × Option Name × D) :=
  match c.tree with
  | .nil => []
  | .node lv nm d _ r => (lv, nm, d) :: r.nodes ++ rfNodes c.rForest

theorem pending_downLeftAll : ∀ (t : Tree D) (c : Cursor D), c.tree = t → t.isSome →
    c.downLeftAll.tree.isSome ∧ pending c.downLeftAll = t.nodes ++ rfNodes c.rForest := by
  intro t
  induction t with
  | nil => intro c _ h; simp [Tree.isSome] at h
  | node lv nm x l r ihl ihr =>
    intro c hc _
    obtain ⟨d, lf, tr, rf⟩ := c
    simp only at hc; subst hc
    rw [downLeftAll_node]
    by_cases hl : l.isSome
    · rw [if_pos hl]
      obtain ⟨h1, h2⟩ := ihl ⟨false, lf, l, (d, ⟨lv, nm, x, l, r⟩) :: rf⟩ rfl hl
      refine ⟨h1, ?_⟩
      rw [h2]
      simp [rfNodes, Tree.nodes]
    · rw [if_neg hl]
      have : l = .nil := by cases l <;> simp [Tree.isSome] at hl; rfl
      subst this
      exact ⟨rfl, by simp [pending, Tree.nodes]⟩

theorem pending_iterUp : ∀ (n : Nat) (c : Cursor D), c.height < n →
    pending (Cursor.iterUp n c) = rfNodes c.rForest ∧ ((Cursor.iterUp n c).tree.isSome = false → Cursor.iterUp n c = Cursor.new) := by
  intro n
  induction n with
  | zero => intro c h; omega
  | succ n ih =>
    intro c h
    obtain ⟨d, lf, t, rf⟩ := c
    unfold Cursor.iterUp Cursor.upDiscard
    cases hd : Cursor.upDir ⟨d, lf, t, rf⟩ with
    | fail =>
      cases lf with
      | nil => cases rf with
        | nil => exact ⟨rfl, fun _ => rfl⟩
        | cons q rf => simp [Cursor.upDir] at hd
      | cons p lf => cases rf with
        | nil => simp [Cursor.upDir] at hd
        | cons q rf => simp only [Cursor.upDir] at hd; split at hd <;> simp at hd
    | left =>
      cases lf with
      | nil => cases rf with
        | nil => simp [Cursor.upDir] at hd
        | cons q rf => simp [Cursor.upDir] at hd
      | cons p lf => exact ih ⟨p.1, lf, p.2.toTree, rf⟩ (by simp [Cursor.height] at h ⊢; omega)
    | right =>
      cases rf with
      | nil => cases lf with
        | nil => simp [Cursor.upDir] at hd
        | cons q lf => simp [Cursor.upDir] at hd
      | cons p rf => exact ⟨by simp [pending, TNode.toTree, rfNodes], by simp [TNode.toTree, Tree.isSome]⟩

theorem iterNext_spec {c : Cursor D} (h : c.tree.isSome) :
    ∃ c' n, c.iterNext = (c', some n.2.2) ∧ pending c = n :: pending c' ∧ (c'.tree.isSome = false → c' = Cursor.new) := by
  obtain ⟨d, lf, t, rf⟩ := c
  cases t with
  | nil => simp [Tree.isSome] at h
  | node lv nm x l r =>
    by_cases hr : r.isSome
    · obtain ⟨h1, h2⟩ := pending_downLeftAll r ⟨false, (d, ⟨lv, nm, x, l, r⟩) :: lf, r, rf⟩ rfl hr
      refine ⟨(⟨false, (d, ⟨lv, nm, x, l, r⟩) :: lf, r, rf⟩ : Cursor D).downLeftAll, (lv, nm, x), ?_, ?_, fun h0 => ?_⟩
      · simp [Cursor.iterNext, Cursor.downRight, Cursor.downRightForce, hr, Cursor.peek, Tree.peek?]
      · rw [h2]; simp [pending]
      · rw [h0] at h1; simp at h1
    · have : r = .nil := by cases r <;> simp [Tree.isSome] at hr; rfl
      subst this
      obtain ⟨h1, h2⟩ := pending_iterUp ((⟨d, lf, .node lv nm x l .nil, rf⟩ : Cursor D).height + 1) ⟨d, lf, .node lv nm x l .nil, rf⟩ (by omega)
      refine ⟨_, (lv, nm, x), ?_, ?_, h2⟩
      · simp [Cursor.iterNext, Cursor.downRight, Cursor.downRightForce, Tree.isSome, Cursor.peek, Tree.peek?]
      · rw [h1]; simp [pending, Tree.nodes]

theorem pending_none {c : Cursor D} (h : c.tree.isSome = false) : pending c = [] := by
  unfold pending
  cases ht : c.tree with
  | nil => rfl
  | node => simp [ht, Tree.isSome] at h

theorem iterNext_new : (Cursor.new : Cursor D).iterNext = (Cursor.new, none) := rfl

theorem iterAll_spec : ∀ (n : Nat) (c : Cursor D), (c.tree.isSome = false → c.height = 0) → (pending c).length < n →
    iterAll n c = ((pending c).map (·.2.2), Cursor.new) := by
  intro n
  induction n with
  | zero => intro c _ h; omega
  | succ n ih =>
    intro c h0 h
    by_cases hs : c.tree.isSome
    · obtain ⟨c', x, h1, h2, h3⟩ := iterNext_spec hs
      rw [iterAll, h1]
      have := ih c' (fun hh => by rw [h3 hh]; rfl) (by rw [h2] at h; simp at h; omega)
      simp [this, h2]
    · have hs : c.tree.isSome = false := by simpa using hs
      have hh := h0 hs
      obtain ⟨d, lf, t, rf⟩ := c
      simp [Cursor.height] at hh
      obtain ⟨rfl, rfl⟩ := hh
      have : t = .nil := by cases t <;> simp [Tree.isSome] at hs; rfl
      subst this
      rfl

theorem foldOut_spec (f : A → D → A) : ∀ (n : Nat) (c : Cursor D) (a : A), (c.tree.isSome = false → c.height = 0) → (pending c).length < n →
    Cursor.foldOut f n a c = ((pending c).map (·.2.2)).foldl f a := by
  intro n
  induction n with
  | zero => intro c a _ h; omega
  | succ n ih =>
    intro c a h0 h
    by_cases hs : c.tree.isSome
    · obtain ⟨c', x, h1, h2, h3⟩ := iterNext_spec hs
      rw [Cursor.foldOut, h1]
      have := ih c' (f a x.2.2) (fun hh => by rw [h3 hh]; rfl) (by rw [h2] at h; simp at h; omega)
      simp [this, h2]
    · have hs : c.tree.isSome = false := by simpa using hs
      have hh := h0 hs
      obtain ⟨d, lf, t, rf⟩ := c
      simp [Cursor.height] at hh
      obtain ⟨rfl, rfl⟩ := hh
      have : t = .nil := by cases t <;> simp [Tree.isSome] at hs; rfl
      subst this
      rfl

/-- The iterator that `into_iters` returns. -/
theorem intoIters_pending (c : Cursor D) :
    pending c.intoIters.2.2 = c.rightTree.nodes ++ rfNodes c.rForest ∧
    (c.intoIters.2.2.tree.isSome = false → c.intoIters.2.2.height = 0) := by
  simp only [Cursor.intoIters]
  by_cases hs : c.rightTree.isSome
  · rw [if_pos hs]
    obtain ⟨h1, h2⟩ := pending_downLeftAll c.rightTree ⟨true, [], c.rightTree, c.rForest⟩ rfl hs
    exact ⟨h2, fun h => by rw [h] at h1; simp at h1⟩
  · rw [if_neg hs]
    have : c.rightTree = .nil := by cases h : c.rightTree <;> simp [h, Tree.isSome] at hs; rfl
    rw [this]
    cases c.rForest with
    | nil => exact ⟨rfl, fun _ => rfl⟩
    | cons p rf =>
      simp [Cursor.upDiscard, Cursor.upDir, pending, TNode.toTree, rfNodes, Tree.nodes, Tree.isSome]

theorem At.after {t : Tree D} {c : Cursor D} {p} (h : At t c p) :
    c.rightTree.nodes ++ rfNodes c.rForest = nodesAfter t p := by
  have key : ∀ {c : Cursor D} {p}, At t c p → ∀ q, nodesAfter c.tree q ++ rfNodes c.rForest = nodesAfter t (p ++ q) := by
    intro c p h
    induction h with
    | root => intro q; simp [Cursor.ofTree, rfNodes]
    | left _ ih => intro q; rw [List.append_assoc, ← ih]; simp [nodesAfter, rfNodes]
    | right _ ih => intro q; rw [List.append_assoc, ← ih]; simp [nodesAfter]
  have := key h []
  rw [List.append_nil] at this
  rw [← this]
  congr 1
  unfold Cursor.rightTree
  cases c.tree <;> simp [nodesAfter, Tree.nodes]

/-! ### split and join -/

/-- Cursors whose stored ancestors agree with the focus, or that will be rebuilt. -/
inductive Sound : Cursor D → Prop
  | dirty {c : Cursor D} : c.dirty = true → CC c → Sound c
  | root {c : Cursor D} : c.lForest = [] → c.rForest = [] → CC c → Sound c
  | left {b lf rf lv nm d l r} : Sound ⟨b, lf, .node lv nm d l r, rf⟩ →
    Sound ⟨false, lf, l, (b, ⟨lv, nm, d, l, r⟩) :: rf⟩
  | right {b lf rf lv nm d l r} : Sound ⟨b, lf, .node lv nm d l r, rf⟩ →
    Sound ⟨false, (b, ⟨lv, nm, d, l, r⟩) :: lf, r, rf⟩

/-- What is seen of a node. -/
def seen (k : D → K) (n : Nat × Option Name × D) : Nat × Option Name × K := (n.1, n.2.1, k n.2.2)

/-- All nodes of a cursor. -/
def allNodes (c : Cursor D) : List (Nat × Option Name × D) :=
  (lfNodes c.lForest).reverse ++ c.tree.nodes ++ rfNodes c.rForest

theorem nodes_toTree (u : TNode D) : u.toTree.nodes = u.l.nodes ++ (u.level, u.name, u.data) :: u.r.nodes := rfl

/-- `up` as a relation, before any assumption on levels. -/
theorem up_cases [TreeUpdate D] {c c' : Cursor D} {res} (h : c.up = .ok (c', res)) :
    (res = .fail ∧ c.height = 0 ∧ c' = c) ∨
    (res = .left ∧ ∃ b u rest, c.lForest = (b, u) :: rest ∧ c.upDir = .left ∧
      ((c.dirty = true ∧ ∃ y, TreeUpdate.rebuild u.l.peek? u.data u.level u.name c.tree.peek? = .ok y ∧
          c' = ⟨true, rest, .node u.level u.name y u.l c.tree, c.rForest⟩) ∨
       (c.dirty = false ∧ c' = ⟨b, rest, u.toTree, c.rForest⟩))) ∨
    (res = .right ∧ ∃ b u rest, c.rForest = (b, u) :: rest ∧ c.upDir = .right ∧
      ((c.dirty = true ∧ ∃ y, TreeUpdate.rebuild c.tree.peek? u.data u.level u.name u.r.peek? = .ok y ∧
          c' = ⟨true, c.lForest, .node u.level u.name y c.tree u.r, rest⟩) ∨
       (c.dirty = false ∧ c' = ⟨b, c.lForest, u.toTree, rest⟩))) := by
  obtain ⟨d, lf, t, rf⟩ := c
  unfold Cursor.up at h
  cases hd : Cursor.upDir ⟨d, lf, t, rf⟩ with
  | fail =>
    rw [hd] at h
    simp at h
    refine .inl ⟨h.2.symm, ?_, h.1.symm⟩
    cases lf with
    | nil => cases rf with
      | nil => rfl
      | cons q rf => simp [Cursor.upDir] at hd
    | cons p lf => cases rf with
      | nil => simp [Cursor.upDir] at hd
      | cons q rf => simp only [Cursor.upDir] at hd; split at hd <;> simp at hd
  | left =>
    rw [hd] at h
    cases lf with
    | nil => simp at h
    | cons p lf =>
      obtain ⟨b, u⟩ := p
      cases d with
      | true =>
        simp only [if_true] at h
        obtain ⟨y, h1, h2⟩ := bind_ok.1 h
        simp only [pure, Except.pure, Except.ok.injEq, Prod.mk.injEq] at h2
        exact .inr (.inl ⟨h2.2.symm, b, u, lf, rfl, rfl, .inl ⟨rfl, y, h1, h2.1.symm⟩⟩)
      | false =>
        simp at h
        exact .inr (.inl ⟨h.2.symm, b, u, lf, rfl, rfl, .inr ⟨rfl, h.1.symm⟩⟩)
  | right =>
    rw [hd] at h
    cases rf with
    | nil => simp at h
    | cons p rf =>
      obtain ⟨b, u⟩ := p
      cases d with
      | true =>
        simp only [if_true] at h
        obtain ⟨y, h1, h2⟩ := bind_ok.1 h
        simp only [pure, Except.pure, Except.ok.injEq, Prod.mk.injEq] at h2
        exact .inr (.inr ⟨h2.2.symm, b, u, rf, rfl, rfl, .inl ⟨rfl, y, h1, h2.1.symm⟩⟩)
      | false =>
        simp at h
        exact .inr (.inr ⟨h.2.symm, b, u, rf, rfl, rfl, .inr ⟨rfl, h.1.symm⟩⟩)

theorem Sound.cc {c : Cursor D} (h : Sound c) : CC c := by
  induction h with
  | dirty _ h => exact h
  | root _ _ h => exact h
  | left _ ih => exact ih.downL false
  | right _ ih => exact ih.downR false

theorem Sound.up [TreeUpdate D] {k : D → K} (hk : KeepsUnder k) {c c' : Cursor D} {res} (h : Sound c) (hu : c.up = .ok (c', res)) :
    Sound c' ∧ (allNodes c').map (seen k) = (allNodes c).map (seen k) ∧
      ((res = .fail ∧ c.height = 0) ∨ (res ≠ .fail ∧ c'.height + 1 = c.height)) ∧
      (c.lForest = [] → c'.lForest = []) ∧ (c.rForest = [] → c'.rForest = []) := by
  have hcc := h.cc.up hu
  cases h with
  | dirty hd h0 =>
    rcases up_cases hu with ⟨rfl, h1, rfl⟩ | ⟨rfl, b, u, rest, h1, -, ⟨-, y, h2, rfl⟩ | ⟨h2, -⟩⟩ | ⟨rfl, b, u, rest, h1, -, ⟨-, y, h2, rfl⟩ | ⟨h2, -⟩⟩
    · exact ⟨.dirty hd hcc, rfl, .inl ⟨rfl, h1⟩, id, id⟩
    · have hy : k y = k u.data := hk _ _ _ _ _ _ h2
      refine ⟨.dirty rfl hcc, ?_, .inr ⟨by simp, by simp [Cursor.height, h1]; omega⟩, by simp [h1], id⟩
      simp [allNodes, lfNodes, h1, Tree.nodes, seen, hy]
    · rw [hd] at h2; simp at h2
    · have hy : k y = k u.data := hk _ _ _ _ _ _ h2
      refine ⟨.dirty rfl hcc, ?_, .inr ⟨by simp, by simp [Cursor.height, h1]; omega⟩, id, by simp [h1]⟩
      simp [allNodes, rfNodes, h1, Tree.nodes, seen, hy]
    · rw [hd] at h2; simp at h2
  | root h1 h2 h0 =>
    rcases up_cases hu with ⟨rfl, h3, rfl⟩ | ⟨rfl, b, u, rest, h3, -⟩ | ⟨rfl, b, u, rest, h3, -⟩
    · exact ⟨.root h1 h2 hcc, rfl, .inl ⟨rfl, h3⟩, id, id⟩
    · simp [h1] at h3
    · simp [h2] at h3
  | @left b lf rf lv nm d l r h0 =>
    have hdir := upDir_downL (b := false) h0.cc
    simp [Cursor.up, hdir, TNode.toTree] at hu
    obtain ⟨rfl, rfl⟩ := hu
    refine ⟨h0, ?_, .inr ⟨by simp, by simp [Cursor.height]; omega⟩, id, by simp⟩
    simp [allNodes, rfNodes, Tree.nodes]
  | @right b lf rf lv nm d l r h0 =>
    have hdir := upDir_downR (b := false) h0.cc
    simp [Cursor.up, hdir, TNode.toTree] at hu
    obtain ⟨rfl, rfl⟩ := hu
    refine ⟨h0, ?_, .inr ⟨by simp, by simp [Cursor.height]; omega⟩, by simp, id⟩
    simp [allNodes, lfNodes, Tree.nodes]

theorem Sound.upUntil [TreeUpdate D] {k : D → K} (hk : KeepsUnder k) {stop : Cursor D → Bool} :
    ∀ (n : Nat) (c c' : Cursor D), Sound c → Cursor.upUntil stop n c = .ok c' →
      Sound c' ∧ (allNodes c').map (seen k) = (allNodes c).map (seen k) ∧ stop c' = true ∧
      (c.lForest = [] → c'.lForest = []) ∧ (c.rForest = [] → c'.rForest = []) := by
  intro n
  induction n with
  | zero =>
    intro c c' h hu
    simp only [Cursor.upUntil] at hu
    split at hu
    · simp at hu; subst hu; exact ⟨h, rfl, by assumption, id, id⟩
    · simp at hu
  | succ n ih =>
    intro c c' h hu
    simp only [Cursor.upUntil] at hu
    split at hu
    · simp at hu; subst hu; exact ⟨h, rfl, by assumption, id, id⟩
    · obtain ⟨⟨c1, res⟩, h1, h2⟩ := bind_ok.1 hu
      simp only at h2
      split at h2
      · simp at h2
      · obtain ⟨g1, g2, -, g4, g5⟩ := h.up hk h1
        obtain ⟨k1, k2, k3, k4, k5⟩ := ih c1 c' g1 h2
        exact ⟨k1, k2.trans g2, k3, fun h => k4 (g4 h), fun h => k5 (g5 h)⟩

theorem Sound.upAll [TreeUpdate D] {k : D → K} (hk : KeepsUnder k) :
    ∀ (n : Nat) (c c' : Cursor D), Sound c → c.height ≤ n → Cursor.upAll n c = .ok c' →
      Sound c' ∧ (allNodes c').map (seen k) = (allNodes c).map (seen k) ∧ c'.height = 0 := by
  intro n
  induction n with
  | zero =>
    intro c c' h hn hu
    simp [Cursor.upAll] at hu; subst hu; exact ⟨h, rfl, by omega⟩
  | succ n ih =>
    intro c c' h hn hu
    simp only [Cursor.upAll] at hu
    obtain ⟨⟨c1, res⟩, h1, h2⟩ := bind_ok.1 hu
    obtain ⟨g1, g2, g3, -, -⟩ := h.up hk h1
    simp only at h2
    split at h2
    · rename_i hf
      simp at h2; subst h2
      rcases g3 with ⟨-, g3⟩ | ⟨g3, -⟩
      · refine ⟨g1, g2, ?_⟩
        rcases up_cases h1 with ⟨-, -, rfl⟩ | ⟨hr, -⟩ | ⟨hr, -⟩
        · exact g3
        · rw [hf] at hr; simp at hr
        · rw [hf] at hr; simp at hr
      · exact absurd hf g3
    · rename_i hf
      rcases g3 with ⟨g3, -⟩ | ⟨-, g3⟩
      · exact absurd g3 hf
      · obtain ⟨k1, k2, k3⟩ := ih c1 c' g1 (by omega) h2
        exact ⟨k1, k2.trans g2, k3⟩

theorem Sound.whole [TreeUpdate D] {k : D → K} (hk : KeepsUnder k) {c : Cursor D} {t : Tree D} (h : Sound c) (hw : c.whole = .ok t) :
    t.nodesBy k = (allNodes c).map (seen k) ∧ Canon t := by
  unfold Cursor.whole at hw
  obtain ⟨c', h1, h2⟩ := bind_ok.1 hw
  simp only [pure, Except.pure, Except.ok.injEq] at h2
  obtain ⟨g1, g2, g3⟩ := h.upAll hk _ _ _ (Nat.le_refl _) h1
  subst h2
  refine ⟨?_, g1.cc.t⟩
  rw [← g2]
  simp [Cursor.height] at g3
  obtain ⟨d, lf, t, rf⟩ := c'
  simp only at g3
  obtain ⟨rfl, rfl⟩ := g3
  simp [allNodes, lfNodes, rfNodes, Cursor.atTree, Tree.nodesBy, seen]

theorem Sound.descendRight {level : Nat} : ∀ (t : Tree D) (c c' : Cursor D), c.tree = t → Sound c →
    c.descendRight level = .ok c' → Sound c' ∧ allNodes c' = allNodes c ∧ c'.rForest = c.rForest := by
  intro t
  induction t with
  | nil =>
    intro c c' hc h hd
    unfold Cursor.descendRight at hd
    split at hd
    · simp at hd; subst hd; exact ⟨h, rfl, rfl⟩
    · rename_i heq; rw [hc] at heq; simp at heq
  | node lv nm x l r ihl ihr =>
    intro c c' hc h hd
    obtain ⟨d, lf, t, rf⟩ := c
    simp only at hc; subst hc
    rw [descendRight_node] at hd
    split at hd
    · simp at hd; subst hd; exact ⟨h, rfl, rfl⟩
    · obtain ⟨k1, k2, k3⟩ := ihr _ c' rfl h.right hd
      refine ⟨k1, ?_, k3⟩
      rw [k2]; simp [allNodes, lfNodes, Tree.nodes]

theorem Sound.descendLeft {level : Nat} : ∀ (t : Tree D) (c c' : Cursor D), c.tree = t → Sound c →
    c.descendLeft level = .ok c' → Sound c' ∧ allNodes c' = allNodes c ∧ c'.lForest = c.lForest := by
  intro t
  induction t with
  | nil =>
    intro c c' hc h hd
    unfold Cursor.descendLeft at hd
    split at hd
    · simp at hd; subst hd; exact ⟨h, rfl, rfl⟩
    · rename_i heq; rw [hc] at heq; simp at heq
  | node lv nm x l r ihl ihr =>
    intro c c' hc h hd
    obtain ⟨d, lf, t, rf⟩ := c
    simp only at hc; subst hc
    rw [descendLeft_node] at hd
    split at hd
    · simp at hd; subst hd; exact ⟨h, rfl, rfl⟩
    · obtain ⟨k1, k2, k3⟩ := ihl _ c' rfl h.left hd
      refine ⟨k1, ?_, k3⟩
      rw [k2]; simp [allNodes, rfNodes, Tree.nodes]

theorem Sound.join [TreeUpdate D] {k : D → K} (hk : KeepsUnder k) {lc rc c : Cursor D} {level name data} (hl : Sound lc) (hr : Sound rc)
    (hj : Cursor.join lc level name data rc = .ok c) :
    Sound c ∧ (allNodes c).map (seen k) = (allNodes lc).map (seen k) ++ (level, name, k data) :: (allNodes rc).map (seen k) := by
  have hcc := CC.join hl.cc hr.cc hj
  unfold Cursor.join at hj
  obtain ⟨l1, a1, hj⟩ := bind_ok.1 hj
  obtain ⟨r1, b1, hj⟩ := bind_ok.1 hj
  obtain ⟨l2, a2, hj⟩ := bind_ok.1 hj
  obtain ⟨l3, a3, hj⟩ := bind_ok.1 hj
  obtain ⟨r2, b2, hj⟩ := bind_ok.1 hj
  obtain ⟨r3, b3, hj⟩ := bind_ok.1 hj
  obtain ⟨y, hy, hj⟩ := bind_ok.1 hj
  simp [pure, Except.pure] at hj
  have hyk : k y = k data := hk _ _ _ _ _ _ hy
  obtain ⟨p1, p2, p3, -, -⟩ := Sound.upUntil hk _ _ _ hl a1
  obtain ⟨q1, q2, q3, -, -⟩ := Sound.upUntil hk _ _ _ hr b1
  obtain ⟨p4, p5, -, -, p6⟩ := Sound.upUntil hk _ _ _ p1 a2
  obtain ⟨q4, q5, -, q6, -⟩ := Sound.upUntil hk _ _ _ q1 b2
  obtain ⟨p7, p8, p9⟩ := Sound.descendRight _ _ _ rfl p4 a3
  obtain ⟨q7, q8, q9⟩ := Sound.descendLeft _ _ _ rfl q4 b3
  have hlr : l3.rForest = [] := by rw [p9]; exact p6 (by simpa using p3)
  have hrl : r3.lForest = [] := by rw [q9]; exact q6 (by simpa using q3)
  subst hj
  refine ⟨.dirty rfl hcc, ?_⟩
  rw [← p2, ← p5, ← q2, ← q5, ← p8, ← q8]
  simp [allNodes, hlr, hrl, Tree.nodes, lfNodes, rfNodes, seen, hyk]

theorem Sound.split {c : Cursor D} (h : Sound c) : Sound c.split.1 ∧ Sound c.split.2.2 ∧
    allNodes c = allNodes c.split.1 ++ (match c.split.2.1 with
      | .nil => []
      | .node lv nm d _ _ => [(lv, nm, d)]) ++ allNodes c.split.2.2 := by
  have hcc := h.cc
  obtain ⟨b, lf, t, rf⟩ := c
  cases t with
  | nil =>
    refine ⟨.dirty rfl ⟨hcc.l, RC.nil, trivial, ?_, ?_⟩, .dirty rfl ⟨LC.nil, hcc.r, trivial, ?_, ?_⟩, ?_⟩
    · simp [Cursor.split, Cursor.leftTree, Tree.level?]
    · simp [Cursor.split, Cursor.leftTree, Tree.level?]
    · simp [Cursor.split, Cursor.rightTree, Tree.level?]
    · simp [Cursor.split, Cursor.rightTree, Tree.level?]
    · simp [Cursor.split, allNodes, Cursor.leftTree, Cursor.rightTree, Tree.nodes, lfNodes, rfNodes]
  | node lv nm d l r =>
    have hL := hcc.downL true
    have hR := hcc.downR true
    refine ⟨.dirty rfl ⟨hcc.l, RC.nil, hL.t, hL.tl, ?_⟩, .dirty rfl ⟨LC.nil, hcc.r, hR.t, ?_, hR.tr⟩, ?_⟩
    · simp [Cursor.split]
    · simp [Cursor.split]
    · simp [Cursor.split, allNodes, Cursor.leftTree, Cursor.rightTree, Tree.nodes, lfNodes, rfNodes]

theorem Sound.downLeftForce {c : Cursor D} (h : Sound c) {f : Force} (hf : f ≠ .discard) :
    Sound (c.downLeftForce f).1 ∧ allNodes (c.downLeftForce f).1 = allNodes c := by
  obtain ⟨b, lf, t, rf⟩ := c
  cases t with
  | nil => exact ⟨h, rfl⟩
  | node lv nm x l r =>
    simp only [Cursor.downLeftForce]
    split
    · exact ⟨h, rfl⟩
    · exact ⟨h.left, by simp [allNodes, rfNodes, Tree.nodes]⟩

theorem Sound.downRightForce {c : Cursor D} (h : Sound c) {f : Force} (hf : f ≠ .discard) :
    Sound (c.downRightForce f).1 ∧ allNodes (c.downRightForce f).1 = allNodes c := by
  obtain ⟨b, lf, t, rf⟩ := c
  cases t with
  | nil => exact ⟨h, rfl⟩
  | node lv nm x l r =>
    simp only [Cursor.downRightForce]
    split
    · exact ⟨h, rfl⟩
    · exact ⟨h.right, by simp [allNodes, lfNodes, Tree.nodes]⟩

theorem Cursor.Made.sound [TreeUpdate D] {c : Cursor D} (h : c.Made) : Sound c := by
  have hk : KeepsUnder (fun _ : D => ()) := fun _ _ _ _ _ _ _ => rfl
  induction h with
  | ofTree h => exact .root rfl rfl (CC.ofTree h.canon)
  | new => exact .root rfl rfl ⟨LC.nil, RC.nil, trivial, by simp [Cursor.new], by simp [Cursor.new]⟩
  | downLeft f hf _ ih => exact (ih.downLeftForce hf).1
  | downRight f hf _ ih => exact (ih.downRightForce hf).1
  | up _ hu ih => exact (ih.up hk hu).1
  | splitL _ ih => exact ih.split.1
  | splitR _ ih => exact ih.split.2.1
  | join _ _ hj ih1 ih2 => exact (Sound.join hk ih1 ih2 hj).1

/-! ### uniqueness -/

theorem nodes_level_le {t : Tree D} (h : Canon t) {lv : Nat} (hl : ∀ x ∈ t.level?, x ≤ lv) : ∀ n ∈ t.nodes, n.1 ≤ lv := by
  induction t generalizing lv with
  | nil => simp [Tree.nodes]
  | node lv' nm d l r ihl ihr =>
    obtain ⟨h1, h2, h3, h4⟩ := h
    simp [Tree.level?] at hl
    intro x hx
    simp only [Tree.nodes, List.mem_append, List.mem_cons] at hx
    rcases hx with hx | rfl | hx
    · exact ihl h3 (fun y hy => by have := h1 y hy; omega) x hx
    · exact hl
    · exact ihr h4 (fun y hy => by have := h2 y hy; omega) x hx

theorem nodes_lt_left {lv nm} {d : D} {l r : Tree D} (h : Canon (.node lv nm d l r)) : ∀ n ∈ l.nodes, n.1 < lv := by
  obtain ⟨h1, -, h3, -⟩ := h
  cases l with
  | nil => simp [Tree.nodes]
  | node lv' nm' d' l' r' =>
    have := h1 lv' rfl
    intro n hn
    have := nodes_level_le h3 (lv := lv') (by simp [Tree.level?]) n hn
    omega

theorem nodes_unique {t t' : Tree D} (h : Canon t) (h' : Canon t') (hn : t.nodes = t'.nodes) : t = t' := by
  induction t generalizing t' with
  | nil => cases t' with
    | nil => rfl
    | node => simp [Tree.nodes] at hn
  | node lv nm d l r ihl ihr =>
    cases t' with
    | nil => simp [Tree.nodes] at hn
    | node lv' nm' d' l' r' =>
      obtain ⟨e1, e2, e3⟩ := split_unique (fun n : Nat × Option Name × D => n.1) hn (nodes_lt_left h) (nodes_level_le h.2.2.2 h.2.1)
        (nodes_lt_left h') (nodes_level_le h'.2.2.2 h'.2.1)
      simp at e2
      obtain ⟨rfl, rfl, rfl⟩ := e2
      rw [ihl h.2.2.1 h'.2.2.1 e1, ihr h.2.2.2 h'.2.2.2 e3]

/-! ### totality -/

theorem up_total [TreeUpdate D] (ht : ∀ a (d : D) lv nm b, ∃ d', TreeUpdate.rebuild a d lv nm b = .ok d') (c : Cursor D) :
    ∃ c' res, c.up = .ok (c', res) := by
  obtain ⟨d, lf, t, rf⟩ := c
  unfold Cursor.up
  cases hd : Cursor.upDir ⟨d, lf, t, rf⟩ with
  | fail => exact ⟨_, _, rfl⟩
  | left =>
    cases lf with
    | nil => cases rf <;> simp [Cursor.upDir] at hd
    | cons p lf =>
      cases d with
      | true =>
        obtain ⟨y, hy⟩ := ht p.2.l.peek? p.2.data p.2.level p.2.name t.peek?
        exact ⟨_, _, by simp only [if_true, hy, bind, Except.bind, pure, Except.pure]; rfl⟩
      | false => exact ⟨_, _, by simp; exact ⟨rfl, rfl⟩⟩
  | right =>
    cases rf with
    | nil => cases lf <;> simp [Cursor.upDir] at hd
    | cons p rf =>
      cases d with
      | true =>
        obtain ⟨y, hy⟩ := ht t.peek? p.2.data p.2.level p.2.name p.2.r.peek?
        exact ⟨_, _, by simp only [if_true, hy, bind, Except.bind, pure, Except.pure]; rfl⟩
      | false => exact ⟨_, _, by simp; exact ⟨rfl, rfl⟩⟩

theorem upUntil_total [TreeUpdate D] (ht : ∀ a (d : D) lv nm b, ∃ d', TreeUpdate.rebuild a d lv nm b = .ok d') {stop : Cursor D → Bool}
    (hs : ∀ c, c.height = 0 → stop c = true) : ∀ (n : Nat) (c : Cursor D), Sound c → c.height ≤ n → ∃ c', Cursor.upUntil stop n c = .ok c' := by
  have hk : KeepsUnder (fun _ : D => ()) := fun _ _ _ _ _ _ _ => rfl
  intro n
  induction n with
  | zero => intro c _ h; exact ⟨c, by simp [Cursor.upUntil, hs c (by omega)]⟩
  | succ n ih =>
    intro c hc h
    by_cases hst : stop c = true
    · exact ⟨c, by simp [Cursor.upUntil, hst]⟩
    · obtain ⟨c1, res, h1⟩ := up_total ht c
      obtain ⟨g1, -, g3, -, -⟩ := hc.up hk h1
      rcases g3 with ⟨-, g3⟩ | ⟨g3, g4⟩
      · exact absurd (hs c g3) hst
      · obtain ⟨c2, h2⟩ := ih c1 g1 (by omega)
        exact ⟨c2, by simp [Cursor.upUntil, hst, h1, bind, Except.bind, g3, h2]⟩

theorem upAll_total [TreeUpdate D] (ht : ∀ a (d : D) lv nm b, ∃ d', TreeUpdate.rebuild a d lv nm b = .ok d') :
    ∀ (n : Nat) (c : Cursor D), ∃ c', Cursor.upAll n c = .ok c' := by
  intro n
  induction n with
  | zero => intro c; exact ⟨c, rfl⟩
  | succ n ih =>
    intro c
    obtain ⟨c1, res, h1⟩ := up_total ht c
    by_cases hr : res = .fail
    · exact ⟨c1, by simp [Cursor.upAll, h1, bind, Except.bind, hr]⟩
    · obtain ⟨c2, h2⟩ := ih c1
      exact ⟨c2, by simp [Cursor.upAll, h1, bind, Except.bind, hr, h2]⟩

theorem descendRight_total {level : Nat} : ∀ (t : Tree D) (c : Cursor D), c.tree = t → ∃ c', c.descendRight level = .ok c' := by
  intro t
  induction t with
  | nil =>
    intro c hc
    unfold Cursor.descendRight
    split
    · exact ⟨_, rfl⟩
    · rename_i heq; rw [hc] at heq; simp at heq
  | node lv nm x l r ihl ihr =>
    intro c hc
    obtain ⟨d, lf, t, rf⟩ := c
    simp only at hc; subst hc
    rw [descendRight_node]
    split
    · exact ⟨_, rfl⟩
    · exact ihr _ rfl

theorem descendLeft_total {level : Nat} : ∀ (t : Tree D) (c : Cursor D), c.tree = t → ∃ c', c.descendLeft level = .ok c' := by
  intro t
  induction t with
  | nil =>
    intro c hc
    unfold Cursor.descendLeft
    split
    · exact ⟨_, rfl⟩
    · rename_i heq; rw [hc] at heq; simp at heq
  | node lv nm x l r ihl ihr =>
    intro c hc
    obtain ⟨d, lf, t, rf⟩ := c
    simp only at hc; subst hc
    rw [descendLeft_node]
    split
    · exact ⟨_, rfl⟩
    · exact ihl _ rfl

theorem join_total [TreeUpdate D] (ht : ∀ a (d : D) lv nm b, ∃ d', TreeUpdate.rebuild a d lv nm b = .ok d') {lc rc : Cursor D}
    (hl : Sound lc) (hr : Sound rc) (level name data) : ∃ c, Cursor.join lc level name data rc = .ok c := by
  have hk : KeepsUnder (fun _ : D => ()) := fun _ _ _ _ _ _ _ => rfl
  have h0 : ∀ c : Cursor D, c.height = 0 → c.lForest = [] ∧ c.rForest = [] := by
    intro c h; simp [Cursor.height] at h; exact h
  obtain ⟨l1, a1⟩ := upUntil_total ht (stop := fun c => c.rForest.isEmpty) (fun c h => by simp [h0 c h]) lc.height lc hl (Nat.le_refl _)
  obtain ⟨r1, b1⟩ := upUntil_total ht (stop := fun c => c.lForest.isEmpty) (fun c h => by simp [h0 c h]) rc.height rc hr (Nat.le_refl _)
  have p1 := (Sound.upUntil hk _ _ _ hl a1).1
  have q1 := (Sound.upUntil hk _ _ _ hr b1).1
  obtain ⟨l2, a2⟩ := upUntil_total ht (stop := Cursor.stopLeft level) (fun c h => by simp [Cursor.stopLeft, Cursor.upLeftLevel, h0 c h]) l1.height l1 p1 (Nat.le_refl _)
  obtain ⟨r2, b2⟩ := upUntil_total ht (stop := Cursor.stopRight level) (fun c h => by simp [Cursor.stopRight, Cursor.upRightLevel, h0 c h]) r1.height r1 q1 (Nat.le_refl _)
  obtain ⟨l3, a3⟩ := descendRight_total (level := level) _ l2 rfl
  obtain ⟨r3, b3⟩ := descendLeft_total (level := level) _ r2 rfl
  obtain ⟨y, hy⟩ := ht l3.tree.peek? data level name r3.tree.peek?
  exact ⟨_, by simp only [Cursor.join, a1, b1, a2, b2, a3, b3, hy, bind, Except.bind, pure, Except.pure]; rfl⟩

end Iodyn
