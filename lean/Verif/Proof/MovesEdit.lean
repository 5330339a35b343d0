import Verif.Proof.MovesUnfocus
import Verif.Proof.EditAny
import Verif.Proof.MeanList
/-
The moves of `focus`, of the calls, and of whole edits.
-/
namespace Iodyn
open Cursor
variable {E M : Type} [RazMeta E M]

/-- The branches beside the path of a cursor have depths below `D`. -/
structure Low (D : Nat) (l r : List (Bool × TNode (TreeData E M))) : Prop where
  l : ∀ p ∈ l, p.2.l.depth + 1 ≤ D
  r : ∀ p ∈ r, p.2.r.depth + 1 ≤ D

theorem downRightAllC_cost {t : Tree (TreeData E M)} (h : WF t) : ∀ {d lf rf} {D : Nat}, Low D lf rf → t.depth ≤ D →
    Costs (downRightAllC ⟨d, lf, t, rf⟩) (downRightAll ⟨d, lf, t, rf⟩) ((downRightAll ⟨d, lf, t, rf⟩).lForest.length + 1 - lf.length) ∧
      lf.length ≤ (downRightAll ⟨d, lf, t, rf⟩).lForest.length ∧ (downRightAll ⟨d, lf, t, rf⟩).lForest.length ≤ lf.length + t.depth ∧
      (downRightAll ⟨d, lf, t, rf⟩).rForest = rf ∧ Low D (downRightAll ⟨d, lf, t, rf⟩).lForest rf := by
  induction h with
  | leaf v =>
    intro d lf rf D hD ht
    rw [downRightAllC_node, downRightAll_node]
    refine ⟨(Costs.pure _).move.eq ?_, Nat.le_refl _, Nat.le_add_right _ _, rfl, hD⟩
    show 0 + 1 = lf.length + 1 - lf.length
    omega
  | @branch lv nm l r h1 hl hr ihl ihr =>
    intro d lf rf D hD ht
    rw [WF.depth_branch hl] at ht
    rw [downRightAllC_node, downRightAll_node, if_pos hr.isSome, if_pos hr.isSome, WF.depth_branch hl]
    obtain ⟨a1, a2, a3, a4, a5⟩ := ihr (d := false) (lf := (d, ⟨lv, nm, .branch (metaOf lv nm l) (metaOf lv nm r), l, r⟩) :: lf) (rf := rf) (D := D)
      ⟨fun p hp => by
        rcases List.mem_cons.1 hp with rfl | hp
        · show l.depth + 1 ≤ D
          omega
        · exact hD.l p hp, hD.r⟩ (by omega)
    simp only [List.length_cons] at a1 a2 a3
    refine ⟨?_, by omega, by omega, a4, a5⟩
    exact a1.move.eq (by omega)

theorem downLeftAllC_cost {t : Tree (TreeData E M)} (h : WF t) : ∀ {d lf rf} {D : Nat}, Low D lf rf → t.depth ≤ D →
    Costs (downLeftAllC ⟨d, lf, t, rf⟩) (downLeftAll ⟨d, lf, t, rf⟩) ((downLeftAll ⟨d, lf, t, rf⟩).rForest.length + 1 - rf.length) ∧
      rf.length ≤ (downLeftAll ⟨d, lf, t, rf⟩).rForest.length ∧ (downLeftAll ⟨d, lf, t, rf⟩).rForest.length ≤ rf.length + t.depth ∧
      (downLeftAll ⟨d, lf, t, rf⟩).lForest = lf ∧ Low D lf (downLeftAll ⟨d, lf, t, rf⟩).rForest := by
  induction h with
  | leaf v =>
    intro d lf rf D hD ht
    rw [downLeftAllC_node, downLeftAll_node]
    refine ⟨(Costs.pure _).move.eq ?_, Nat.le_refl _, Nat.le_add_right _ _, rfl, hD⟩
    show 0 + 1 = rf.length + 1 - rf.length
    omega
  | @branch lv nm l r h1 hl hr ihl ihr =>
    intro d lf rf D hD ht
    rw [WF.depth_branch hl] at ht
    rw [downLeftAllC_node, downLeftAll_node, if_pos hl.isSome, if_pos hl.isSome, WF.depth_branch hl]
    obtain ⟨a1, a2, a3, a4, a5⟩ := ihl (d := false) (rf := (d, ⟨lv, nm, .branch (metaOf lv nm l) (metaOf lv nm r), l, r⟩) :: rf) (lf := lf) (D := D)
      ⟨hD.l, fun p hp => by
        rcases List.mem_cons.1 hp with rfl | hp
        · show r.depth + 1 ≤ D
          omega
        · exact hD.r p hp⟩ (by omega)
    simp only [List.length_cons] at a1 a2 a3
    refine ⟨?_, by omega, by omega, a4, a5⟩
    exact a1.move.eq (by omega)

theorem downRightAll_leaf {t : Tree (TreeData E M)} (h : WF t) : ∀ d lf rf, ∃ v, (downRightAll ⟨d, lf, t, rf⟩).tree = .node 0 none (.leaf v) .nil .nil := by
  induction h with
  | leaf v => intro d lf rf; rw [downRightAll_node]; exact ⟨v, rfl⟩
  | @branch lv nm l r h1 hl hr ihl ihr => intro d lf rf; rw [downRightAll_node, if_pos hr.isSome]; exact ihr _ _ _

theorem downLeftAll_leaf {t : Tree (TreeData E M)} (h : WF t) : ∀ d lf rf, ∃ v, (downLeftAll ⟨d, lf, t, rf⟩).tree = .node 0 none (.leaf v) .nil .nil := by
  induction h with
  | leaf v => intro d lf rf; rw [downLeftAll_node]; exact ⟨v, rfl⟩
  | @branch lv nm l r h1 hl hr ihl ihr => intro d lf rf; rw [downLeftAll_node, if_pos hl.isSome]; exact ihl _ _ _

/-! ### Focus -/

theorem focusLoopC_cost {t : Tree (TreeData E M)} (ht : WF t) : ∀ (n : Nat) (d : Bool) (lf rf : List (Bool × TNode (TreeData E M))) (i : RazMeta.Index E M)
    (o : Option (Cursor (TreeData E M) × RazMeta.Index E M)) (D : Nat), Low D lf rf → t.depth ≤ D → t.size ≤ n → RazTree.focusLoop n ⟨d, lf, t, rf⟩ i = .ok o →
    ∃ k, Costs (RazTree.focusLoopC n ⟨d, lf, t, rf⟩ i) o k ∧ k ≤ t.depth + 1 ∧ ∀ c' i', o = some (c', i') →
      (k + (lf.length + rf.length) ≤ c'.lForest.length + c'.rForest.length + 1 ∧ c'.lForest.length + c'.rForest.length ≤ k + (lf.length + rf.length)) ∧ c'.lForest.length + c'.rForest.length ≤ lf.length + rf.length + t.depth ∧
      Low D c'.lForest c'.rForest := by
  induction ht with
  | leaf v =>
    intro n d lf rf i o D hD _ hn hok
    have hp : (⟨d, lf, .node 0 none (.leaf v) .nil .nil, rf⟩ : Cursor (TreeData E M)).peek = some (.leaf v) := rfl
    unfold RazTree.focusLoop at hok
    simp [hp, unwrap, bind, Except.bind] at hok
    subst hok
    refine ⟨0 + 0, ?_, by omega, ?_⟩
    · unfold RazTree.focusLoopC
      exact (Costs.still (a := TreeData.leaf v) rfl).bind (Costs.pure _)
    · intro c' i' h
      cases h
      exact ⟨by dsimp only; omega, by dsimp only; omega, hD⟩
  | @branch lv nm l r h1 hl hr ihl ihr =>
    intro n d lf rf i o D hD hd hn hok
    rw [WF.depth_branch hl] at hd ⊢
    have low1 : Low D lf ((d, ⟨lv, nm, TreeData.branch (metaOf lv nm l) (metaOf lv nm r), l, r⟩) :: rf) := ⟨hD.l, fun p hp => by
      rcases List.mem_cons.1 hp with rfl | hp
      · show r.depth + 1 ≤ D
        omega
      · exact hD.r p hp⟩
    have low2 : Low D ((d, ⟨lv, nm, TreeData.branch (metaOf lv nm l) (metaOf lv nm r), l, r⟩) :: lf) rf := ⟨fun p hp => by
      rcases List.mem_cons.1 hp with rfl | hp
      · show l.depth + 1 ≤ D
        omega
      · exact hD.l p hp, hD.r⟩
    unfold RazTree.focusLoop at hok
    unfold RazTree.focusLoopC
    match n with
    | 0 => simp [Tree.size] at hn
    | n+1 =>
      simp only [Tree.size] at hn
      simp only [Cursor.peek, Tree.peek?, unwrap, bind, Except.bind] at hok
      have pk : Costs (still (unwrap (⟨d, lf, .node lv nm (.branch (metaOf lv nm l) (metaOf lv nm r)) l r, rf⟩ : Cursor (TreeData E M)).peek))
        (TreeData.branch (metaOf lv nm l) (metaOf lv nm r)) 0 := Costs.still rfl
      match hnav : RazMeta.navigate (metaOf lv nm l) (metaOf lv nm r) i with
      | .error e => simp [hnav] at hok
      | .ok (.left j) =>
        simp [hnav, Cursor.downLeft, Cursor.downLeftForce, hl.isSome, assert] at hok
        obtain ⟨k, k1, k2, k3⟩ := ihl n _ _ _ j o D low1 (by omega) (by omega) hok
        refine ⟨0 + (0 + (1 + (0 + k))), pk.bind ((Costs.still hnav).bind ?_), by omega, ?_⟩
        · refine Costs.bind (a := (⟨false, lf, l, (d, ⟨lv, nm, TreeData.branch (metaOf lv nm l) (metaOf lv nm r), l, r⟩) :: rf⟩, true)) (k := 1) ?_ ?_
          · refine Costs.eq (Costs.move (k := 0) ?_) rfl
            simp only [Cursor.downLeftForce, hl.isSome]
            exact Costs.pure _
          · exact Costs.bind (a := ()) (Costs.still rfl) k1
        · intro c' i' h
          obtain ⟨a, b, c⟩ := k3 c' i' h
          simp only [List.length_cons] at a b
          exact ⟨by omega, by omega, c⟩
      | .ok (.right j) =>
        simp [hnav, Cursor.downRight, Cursor.downRightForce, hr.isSome, assert] at hok
        obtain ⟨k, k1, k2, k3⟩ := ihr n _ _ _ j o D low2 (by omega) (by omega) hok
        refine ⟨0 + (0 + (1 + (0 + k))), pk.bind ((Costs.still hnav).bind ?_), by omega, ?_⟩
        · refine Costs.bind (a := (⟨false, (d, ⟨lv, nm, TreeData.branch (metaOf lv nm l) (metaOf lv nm r), l, r⟩) :: lf, r, rf⟩, true)) (k := 1) ?_ ?_
          · refine Costs.eq (Costs.move (k := 0) ?_) rfl
            simp only [Cursor.downRightForce, hr.isSome]
            exact Costs.pure _
          · exact Costs.bind (a := ()) (Costs.still rfl) k1
        · intro c' i' h
          obtain ⟨a, b, c⟩ := k3 c' i' h
          simp only [List.length_cons] at a b
          exact ⟨by omega, by omega, c⟩
      | .ok .here =>
        simp [hnav, Cursor.downLeft, Cursor.downLeftForce, hl.isSome, assert] at hok
        obtain ⟨e1, e2, e3, e4, e5⟩ := downRightAllC_cost hl (d := false) low1 (by omega)
        obtain ⟨v, d2⟩ := downRightAll_leaf hl false lf ((d, ⟨lv, nm, TreeData.branch (metaOf lv nm l) (metaOf lv nm r), l, r⟩) :: rf)
        generalize downRightAll ⟨false, lf, l, (d, ⟨lv, nm, TreeData.branch (metaOf lv nm l) (metaOf lv nm r), l, r⟩) :: rf⟩ = c'' at hok e1 e2 e3 e4 e5 d2
        have hp : c''.peek = some (.leaf v) := by simp [Cursor.peek, d2, Tree.peek?]
        unfold RazTree.focusLoop at hok
        simp [hp, unwrap, bind, Except.bind] at hok
        subst hok
        refine ⟨0 + (0 + (1 + (0 + (c''.lForest.length + 1 - lf.length + (0 + 0))))), pk.bind ((Costs.still hnav).bind ?_), by omega, ?_⟩
        · refine Costs.bind (a := (⟨false, lf, l, (d, ⟨lv, nm, TreeData.branch (metaOf lv nm l) (metaOf lv nm r), l, r⟩) :: rf⟩, true)) (k := 1) ?_ ?_
          · refine Costs.eq (Costs.move (k := 0) ?_) rfl
            simp only [Cursor.downLeftForce, hl.isSome]
            exact Costs.pure _
          · refine Costs.bind (a := ()) (Costs.still rfl) (e1.bind ?_)
            unfold RazTree.focusLoopC
            exact (Costs.still (a := TreeData.leaf v) (by rw [hp]; rfl)).bind (Costs.pure _)
        · intro c' i' h
          cases h
          rw [e4]
          simp only [List.length_cons]
          exact ⟨by omega, by omega, e5⟩
      | .ok .nowhere =>
        simp [hnav] at hok
        subst hok
        exact ⟨0 + (0 + 0), pk.bind ((Costs.still hnav).bind (Costs.pure _)), by omega, fun c' i' h => by cases h⟩

theorem focusC_cost {t : RazTree E M} (ht : WFo t.tree) {i : RazMeta.Index E M} {o : Option (Raz E M)} (h : t.focus i = .ok o) :
    ∃ k, Costs (t.focusC i) o k ∧ k ≤ t.tree.depth + 1 ∧
      ∀ z, o = some z → (k ≤ z.path + 1 ∧ z.path ≤ k) ∧ z.path ≤ t.tree.depth ∧ Low t.tree.depth z.lForest.lForest z.rForest.rForest ∧ z.lStack.archived = [] ∧ z.rStack.archived = [] := by
  obtain ⟨info, tree⟩ := t
  dsimp only at ht ⊢
  rcases ht with rfl | ht
  · cases h
    exact ⟨0, Costs.pure _, Nat.zero_le _, fun z hz => by cases hz; exact ⟨⟨Nat.zero_le _, Nat.zero_le _⟩, Nat.zero_le _, ⟨fun p hp => (by cases hp), fun p hp => (by cases hp)⟩, rfl, rfl⟩⟩
  · cases htr : tree with
    | nil => rw [htr] at ht; cases ht
    | node lv nm x l r =>
      subst htr
      unfold RazTree.focus at h
      unfold RazTree.focusC
      dsimp only at h ⊢
      obtain ⟨o1, h1, h2⟩ := bind_ok.1 h
      obtain ⟨k, k1, k2, k3⟩ := focusLoopC_cost ht _ _ _ _ i o1 _ ⟨fun p hp => (by cases hp), fun p hp => (by cases hp)⟩ (Nat.le_refl _) (Nat.le_refl _) h1
      rcases o1 with _ | ⟨c, j⟩
      · cases h2
        exact ⟨k + 0, Costs.bind k1 (Costs.pure _), k2, fun z hz => by cases hz⟩
      · obtain ⟨a, b, low⟩ := k3 c j rfl
        obtain ⟨d, lf, tr, rf⟩ := c
        cases tr with
        | nil => cases h2
        | node lv' nm' y l' r' =>
          cases y with
          | branch _ _ => cases h2
          | dummy => cases h2
          | leaf v =>
            dsimp only [Cursor.split] at h2
            obtain ⟨⟨va, vb⟩, h3, h4⟩ := bind_ok.1 h2
            cases h4
            refine ⟨k + (0 + 0), Costs.bind k1 ((Costs.still h3).bind (Costs.pure _)), k2, fun z hz => ?_⟩
            cases hz
            simp only [List.length_nil] at a b
            refine ⟨?_, ?_, low, rfl, rfl⟩
            · simp only [Raz.path]
              omega
            · simp only [Raz.path]
              omega

/-! ### Pops -/

omit [RazMeta E M] in
theorem pop_archived {s s' : AStack E Nat} {o} (h : s.pop = .ok (s', o)) : s'.archived.length ≤ s.archived.length := by
  obtain ⟨cur, arch⟩ := s
  unfold AStack.pop at h
  split at h
  · cases h; exact Nat.le_refl _
  · unfold AStack.retrieve at h
    split at h
    · rcases arch with _ | ⟨⟨n, m, v⟩, t⟩
      · cases h
      · simp only [Stack.peek, Stack.pull, unwrap, bind, Except.bind, pure, Except.pure, AStack.popCurrent] at h
        cases h
        exact Nat.le_succ _
    · simp only [bind, Except.bind, pure, Except.pure, AStack.popCurrent] at h
      cases h; exact Nat.le_refl _

omit [RazMeta E M] in
theorem archive_archived (s : AStack E Nat) (n : Option Name) (m : Nat) : (s.archive n m).1.archived.length ≤ 1 + s.archived.length := by
  unfold AStack.archive
  split
  · exact Nat.le_add_left _ _
  · simp [Stack.push, Nat.add_comm]

/-- The archive points that were made since the last `focus` and still stand. -/
def Raz.pending (z : Raz E M) : Nat := z.lStack.archived.length + z.rStack.archived.length

theorem popLeftC_cost {z z' : Raz E M} {o : Option E} (hi : ZInv z) (h : z.popLeft = .ok (z', o)) {D : Nat} (hd : Low D z.lForest.lForest z.rForest.rForest) :
    ∃ k, Costs z.popLeftC (z', o) k ∧ (k + z'.path ≤ z.path + 1 + (if atMark z.left then 1 else 0) * (2 * D) ∧ z.path ≤ k + z'.path) ∧ Low D z'.lForest.lForest z'.rForest.rForest ∧
      z'.pending ≤ z.pending := by
  unfold Raz.popLeft at h
  unfold Raz.popLeftC
  cases he : z.lStack.isEmpty with
  | true =>
    rw [if_pos he] at h
    rw [if_pos rfl]
    cases hlf : z.lForest.lForest with
    | nil =>
      rw [hi.lf.up_nil hlf] at h
      cases h
      refine ⟨1 + 0, (upC_cost (hi.lf.up_nil hlf)).bind (Costs.pure _), ?_, hd, Nat.le_refl _⟩
      simp only [Raz.path]
      omega
    | cons p us =>
      obtain ⟨d, u⟩ := p
      obtain ⟨lf', a, b, T, u1, u2, u3, u4, ⟨-, u6, -⟩, -⟩ := hi.lf.up_cons hlf
      rw [u1] at h
      simp only [bind, Except.bind, reduceCtorEq, if_false] at h
      have hdl : lf'.downLeftForce .discard = (⟨true, us, u.l, []⟩, true) := by
        obtain ⟨d', l', t', r'⟩ := lf'
        simp only at u2 u3 u4
        subst u2 u3 u4
        simp [Cursor.downLeftForce]
      have hm : atMark z.left = true := by rw [Raz.left, side_empty he, hlf]; rfl
      have hud : u.l.depth + 1 ≤ D := hd.l (d, u) (by rw [hlf]; exact List.mem_cons_self)
      obtain ⟨e1, e2, e3, e4, e5⟩ := downRightAllC_cost u6 (d := true) (lf := us) (rf := []) (D := D)
        ⟨fun p hp => hd.l p (by rw [hlf]; exact List.mem_cons_of_mem _ hp), fun p hp => (by cases hp)⟩ (by omega)
      obtain ⟨v, d2⟩ := downRightAll_leaf u6 true us []
      rw [hdl] at h
      dsimp only at h
      generalize hc : downRightAll ⟨true, us, u.l, []⟩ = c at h e1 e2 e3 e4 e5 d2
      have hp : c.peek = some (.leaf v) := by simp [Cursor.peek, d2, Tree.peek?]
      rw [hp] at h
      dsimp only at h
      split at h
      · cases h
      · rename_i x heq
        obtain ⟨s', o'⟩ := x
        cases h
        refine ⟨1 + (1 + (c.lForest.length + 1 - us.length + (0 + 0))), (upC_cost u1).bind ?_, ?_, ⟨e5.l, hd.r⟩, ?_⟩
        · dsimp only
          rw [if_neg (by decide)]
          refine Costs.bind (a := (⟨true, us, u.l, []⟩, true)) (k := 1) ?_ (e1.bind ?_)
          · refine Costs.eq (Costs.move (k := 0) ?_) rfl
            rw [hdl]
            exact Costs.pure _
          · rw [hp]
            exact (Costs.still heq).bind (Costs.pure _)
        · rw [hm]
          simp only [Raz.path, hlf, List.length_cons, if_true]
          omega
        · have : s'.archived.length ≤ (z.lStack.extend v).archived.length := pop_archived heq
          simp only [AStack.extend] at this
          simp only [Raz.pending]
          omega
  | false =>
    rw [if_neg (by simp [he])] at h
    obtain ⟨⟨s, x⟩, h2, h⟩ := bind_ok.1 h
    cases h
    rw [if_neg (by decide)]
    refine ⟨0 + 0, (Costs.still h2).bind (Costs.pure _), ?_, hd, ?_⟩
    · simp only [Raz.path]
      omega
    · have := pop_archived h2
      simp only [Raz.pending]
      omega

theorem popRightC_cost {z z' : Raz E M} {o : Option E} (hi : ZInv z) (h : z.popRight = .ok (z', o)) {D : Nat} (hd : Low D z.lForest.lForest z.rForest.rForest) :
    ∃ k, Costs z.popRightC (z', o) k ∧ (k + z'.path ≤ z.path + 1 + (if atMark z.right then 1 else 0) * (2 * D) ∧ z.path ≤ k + z'.path) ∧ Low D z'.lForest.lForest z'.rForest.rForest ∧
      z'.pending ≤ z.pending := by
  unfold Raz.popRight at h
  unfold Raz.popRightC
  cases he : z.rStack.isEmpty with
  | true =>
    rw [if_pos he] at h
    rw [if_pos rfl]
    cases hlf : z.rForest.rForest with
    | nil =>
      rw [hi.rf.up_nil hlf] at h
      cases h
      refine ⟨1 + 0, (upC_cost (hi.rf.up_nil hlf)).bind (Costs.pure _), ?_, hd, Nat.le_refl _⟩
      simp only [Raz.path]
      omega
    | cons p us =>
      obtain ⟨d, u⟩ := p
      obtain ⟨lf', a, b, T, u1, u2, u3, u4, ⟨-, u6, -⟩, -⟩ := hi.rf.up_cons hlf
      rw [u1] at h
      simp only [bind, Except.bind, reduceCtorEq, if_false] at h
      have hdl : lf'.downRightForce .discard = (⟨true, [], u.r, us⟩, true) := by
        obtain ⟨d', l', t', r'⟩ := lf'
        simp only at u2 u3 u4
        subst u2 u3 u4
        simp [Cursor.downRightForce]
      have hm : atMark z.right = true := by rw [Raz.right, side_empty he, hlf]; rfl
      have hud : u.r.depth + 1 ≤ D := hd.r (d, u) (by rw [hlf]; exact List.mem_cons_self)
      obtain ⟨e1, e2, e3, e4, e5⟩ := downLeftAllC_cost u6 (d := true) (lf := []) (rf := us) (D := D)
        ⟨fun p hp => (by cases hp), fun p hp => hd.r p (by rw [hlf]; exact List.mem_cons_of_mem _ hp)⟩ (by omega)
      obtain ⟨v, d2⟩ := downLeftAll_leaf u6 true [] us
      rw [hdl] at h
      dsimp only at h
      generalize hc : downLeftAll ⟨true, [], u.r, us⟩ = c at h e1 e2 e3 e4 e5 d2
      have hp : c.peek = some (.leaf v) := by simp [Cursor.peek, d2, Tree.peek?]
      rw [hp] at h
      dsimp only at h
      split at h
      · cases h
      · rename_i x heq
        obtain ⟨s', o'⟩ := x
        cases h
        refine ⟨1 + (1 + (c.rForest.length + 1 - us.length + (0 + 0))), (upC_cost u1).bind ?_, ?_, ⟨hd.l, e5.r⟩, ?_⟩
        · dsimp only
          rw [if_neg (by decide)]
          refine Costs.bind (a := (⟨true, [], u.r, us⟩, true)) (k := 1) ?_ (e1.bind ?_)
          · refine Costs.eq (Costs.move (k := 0) ?_) rfl
            rw [hdl]
            exact Costs.pure _
          · rw [hp]
            exact (Costs.still heq).bind (Costs.pure _)
        · rw [hm]
          simp only [Raz.path, hlf, List.length_cons, if_true]
          omega
        · have : s'.archived.length ≤ (z.rStack.extendRev v).archived.length := pop_archived heq
          simp only [AStack.extendRev] at this
          simp only [Raz.pending]
          omega
  | false =>
    rw [if_neg (by simp [he])] at h
    obtain ⟨⟨s, x⟩, h2, h⟩ := bind_ok.1 h
    cases h
    rw [if_neg (by decide)]
    refine ⟨0 + 0, (Costs.still h2).bind (Costs.pure _), ?_, hd, ?_⟩
    · simp only [Raz.path]
      omega
    · have := pop_archived h2
      simp only [Raz.pending]
      omega

/-! ### Calls -/

/-- 1 for a pop. -/
def LOp.pop1 : LOp E → Nat
  | .popL => 1
  | .popR => 1
  | _ => 0
/-- 1 for a new archive point. -/
def LOp.arch1 : LOp E → Nat
  | .archL _ _ => 1
  | .archR _ _ => 1
  | _ => 0

omit [RazMeta E M] in
theorem LOp.pops_cons (op : LOp E) (l : List (LOp E)) : LOp.pops (op :: l) = op.pop1 + LOp.pops l := by
  cases op <;> simp [LOp.pops, LOp.pop1]
omit [RazMeta E M] in
theorem LOp.archs_cons (op : LOp E) (l : List (LOp E)) : LOp.archs (op :: l) = op.arch1 + LOp.archs l := by
  cases op <;> simp [LOp.archs, LOp.arch1]

theorem lopC_cost {z : Raz E M} (hi : ZInv z) (hc : ZC z) {D : Nat} (hd : Low D z.lForest.lForest z.rForest.rForest) {op : LOp E} (hl : op.Lifts) :
    ∃ z' k, z.lop op = .ok z' ∧ Costs (z.lopC op) z' k ∧ (k + z'.path ≤ z.path + op.pop1 + op.crosses z * (2 * D) ∧ z.path ≤ k + z'.path) ∧ ZInv z' ∧ ZC z' ∧
      Low D z'.lForest.lForest z'.rForest.rForest ∧ z'.pending ≤ z.pending + op.arch1 := by
  obtain ⟨z', h1, h2, -⟩ := lop_sides hi hl
  refine ⟨z', ?_⟩
  cases op with
  | pushL x =>
    cases h1
    exact ⟨0, rfl, Costs.pure _, by simp only [Raz.path, Raz.pushLeft]; omega, h2, ⟨hc.l, hc.r⟩, hd, Nat.le_refl _⟩
  | pushR x =>
    cases h1
    exact ⟨0, rfl, Costs.pure _, by simp only [Raz.path, Raz.pushRight]; omega, h2, ⟨hc.l, hc.r⟩, hd, Nat.le_refl _⟩
  | archL lev nm =>
    cases h1
    refine ⟨0, rfl, Costs.pure _, by simp only [Raz.path, Raz.archiveLeft]; omega, h2, ⟨hc.l, hc.r⟩, hd, ?_⟩
    have := archive_archived z.lStack nm lev
    simp only [Raz.pending, Raz.archiveLeft, LOp.arch1]
    omega
  | archR lev nm =>
    cases h1
    refine ⟨0, rfl, Costs.pure _, by simp only [Raz.path, Raz.archiveRight]; omega, h2, ⟨hc.l, hc.r⟩, hd, ?_⟩
    have := archive_archived z.rStack nm lev
    simp only [Raz.pending, Raz.archiveRight, LOp.arch1]
    omega
  | popL =>
    have hp := h1
    obtain ⟨⟨z1, o⟩, h3, h4⟩ := bind_ok.1 hp
    cases h4
    obtain ⟨k, k1, k2, k3, k4⟩ := popLeftC_cost hi h3 hd
    exact ⟨k + 0, h1, k1.bind (Costs.pure _), k2, h2, popLeft_canon hi hc h3, k3, k4⟩
  | popR =>
    have hp := h1
    obtain ⟨⟨z1, o⟩, h3, h4⟩ := bind_ok.1 hp
    cases h4
    obtain ⟨k, k1, k2, k3, k4⟩ := popRightC_cost hi h3 hd
    exact ⟨k + 0, h1, k1.bind (Costs.pure _), k2, h2, popRight_canon hi hc h3, k3, k4⟩

/-- Calls and then `unfocus`. -/
theorem lopsC_cost {D : Nat} : ∀ (ops : List (LOp E)) {z : Raz E M}, ZInv z → ZC z → Low D z.lForest.lForest z.rForest.rForest → (∀ op ∈ ops, op.Lifts) →
    ∃ t k, Costs (z.lopsC ops >>= Raz.unfocusC) t k ∧ k ≤ z.path + z.crossings ops * (4 * D) + LOp.pops ops + 8 * (z.pending + LOp.archs ops) + 8 ∧ z.path ≤ k
  | [], z, hi, hc, hd, _ => by
    obtain ⟨t, k, h1, h2⟩ := unfocusC_cost hi hc (D := D) (fun p hp => Nat.le_of_succ_le (hd.l p hp)) (fun p hp => Nat.le_of_succ_le (hd.r p hp))
    refine ⟨t, 0 + k, Costs.bind (Costs.pure _) h1, ?_⟩
    have : (if z.lStack.isEmpty ∧ z.rStack.isEmpty then 4 * D else 0) = z.crossings [] * (4 * D) := by
      simp only [Raz.crossings, hand_left, hand_right]
      cases z.lStack.isEmpty <;> cases z.rStack.isEmpty <;> simp
    rw [this] at h2
    simp only [Raz.pending, LOp.pops, LOp.archs]
    omega
  | op :: l, z, hi, hc, hd, hl => by
    obtain ⟨z1, k1, a1, a2, a3, a4, a5, a6, a7⟩ := lopC_cost hi hc hd (hl op List.mem_cons_self)
    obtain ⟨t, k2, b1, b2⟩ := lopsC_cost l a4 a5 a6 (fun o ho => hl o (List.mem_cons_of_mem _ ho))
    refine ⟨t, k1 + k2, ?_, ?_⟩
    · show Costs ((z.lopC op >>= fun z' => z'.lopsC l) >>= Raz.unfocusC) t _
      rw [bind_assoc]
      exact a2.bind b1
    · rw [LOp.pops_cons, LOp.archs_cons]
      have : z.crossings (op :: l) = op.crosses z + z1.crossings l := by simp only [Raz.crossings, a1]
      rw [this, Nat.add_mul]
      have : op.crosses z * (2 * D) ≤ op.crosses z * (4 * D) := Nat.mul_le_mul_left _ (by omega)
      omega

end Iodyn
