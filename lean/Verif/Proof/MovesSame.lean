import Verif.Spec.Moves
import Verif.Proof.Cursor
/-
Counting moves changes no result.
-/
namespace Iodyn
variable {A B : Type}

theorem Same.pure (a : A) : Same (Pure.pure a : Counting A) (.ok a) := fun _ => rfl
theorem Same.still (x : P A) : Same (Iodyn.still x) x := fun n => by cases x <;> rfl

theorem Same.bind {m : Counting A} {p : P A} {f : A → Counting B} {g : A → P B} (h : Same m p) (hf : ∀ a, Same (f a) (g a)) : Same (m >>= f) (p >>= g) := fun n => by
  have h' := h n
  show ((m n >>= fun x => f x.1 x.2 : P (B × Nat))).map _ = _
  cases hm : m n with
  | error q => rw [hm] at h'; rw [← h']; rfl
  | ok x =>
    rw [hm] at h'
    rw [← h']
    exact hf x.1 x.2

theorem Same.move {m : Counting A} {p : P A} (h : Same m p) : Same (Iodyn.move >>= fun _ => m) p := fun n => h (n + 1)

/-- A pure step of the uncounted computation. -/
theorem Same.let {m : Counting A} {a : A} {f : A → Counting B} {q : P B} (h : Same m (.ok a)) (hf : Same (f a) q) : Same (m >>= f) q := fun n => by
  have h' := h n
  show ((m n >>= fun x => f x.1 x.2 : P (B × Nat))).map _ = _
  cases hm : m n with
  | error q => rw [hm] at h'; cases h'
  | ok x =>
    rw [hm] at h'
    obtain ⟨y, k⟩ := x
    cases h'
    exact hf k

namespace Cursor
variable {E : Type}

theorem up_same [TreeUpdate E] (c : Cursor E) : Same c.upC c.up := (Same.still _).move
theorem downLeftForce_same (f : Force) (c : Cursor E) : Same (c.downLeftForceC f) (.ok (c.downLeftForce f)) := (Same.pure _).move
theorem downRightForce_same (f : Force) (c : Cursor E) : Same (c.downRightForceC f) (.ok (c.downRightForce f)) := (Same.pure _).move

theorem upUntil_same [TreeUpdate E] (stop : Cursor E → Bool) : ∀ (n : Nat) (c : Cursor E), Same (upUntilC stop n c) (upUntil stop n c)
  | 0, c => by
    unfold upUntilC upUntil
    split
    · exact Same.pure _
    · exact Same.still _
  | n+1, c => by
    unfold upUntilC upUntil
    split
    · exact Same.pure _
    · refine (up_same c).bind fun ⟨c', res⟩ => ?_
      dsimp only
      split
      · exact Same.still _
      · exact upUntil_same stop n c'

theorem upAll_same [TreeUpdate E] : ∀ (n : Nat) (c : Cursor E), Same (upAllC n c) (upAll n c)
  | 0, c => (Same.pure _).move
  | n+1, c => by
    unfold upAllC upAll
    refine (up_same c).bind fun ⟨c', res⟩ => ?_
    dsimp only
    split
    · exact Same.pure _
    · exact upAll_same n c'

theorem descendRightC_nil (level d lf rf) : descendRightC level (⟨d, lf, .nil, rf⟩ : Cursor E) = pure ⟨d, lf, .nil, rf⟩ := by
  unfold descendRightC; rfl
theorem descendLeftC_nil (level d lf rf) : descendLeftC level (⟨d, lf, .nil, rf⟩ : Cursor E) = pure ⟨d, lf, .nil, rf⟩ := by
  unfold descendLeftC; rfl

theorem descendRightC_node (level d lf lv nm) (x : E) (l r rf) :
    descendRightC level ⟨d, lf, .node lv nm x l r, rf⟩ =
      if lv < level then pure ⟨d, lf, .node lv nm x l r, rf⟩
      else move >>= fun _ => descendRightC level ⟨false, (d, ⟨lv, nm, x, l, r⟩) :: lf, r, rf⟩ := by
  conv => lhs; unfold descendRightC
  simp only
  split
  · rfl
  · congr 1
    funext u
    split
    · rename_i heq
      simp [downRightForce] at heq
      rw [heq]
    · rename_i heq
      simp [downRightForce] at heq

theorem descendLeftC_node (level d lf lv nm) (x : E) (l r rf) :
    descendLeftC level ⟨d, lf, .node lv nm x l r, rf⟩ =
      if lv ≤ level then pure ⟨d, lf, .node lv nm x l r, rf⟩
      else move >>= fun _ => descendLeftC level ⟨false, lf, l, (d, ⟨lv, nm, x, l, r⟩) :: rf⟩ := by
  conv => lhs; unfold descendLeftC
  simp only
  split
  · rfl
  · congr 1
    funext u
    split
    · rename_i heq
      simp [downLeftForce] at heq
      rw [heq]
    · rename_i heq
      simp [downLeftForce] at heq

theorem descendRight_same (level : Nat) : ∀ (t : Tree E) (d lf rf), Same (descendRightC level ⟨d, lf, t, rf⟩) (descendRight level ⟨d, lf, t, rf⟩)
  | .nil, d, lf, rf => by
    rw [descendRightC_nil]
    unfold descendRight
    exact Same.pure _
  | .node lv nm x l r, d, lf, rf => by
    rw [descendRightC_node, descendRight_node]
    split
    · exact Same.pure _
    · exact (descendRight_same level r _ _ _).move

theorem descendLeft_same (level : Nat) : ∀ (t : Tree E) (d lf rf), Same (descendLeftC level ⟨d, lf, t, rf⟩) (descendLeft level ⟨d, lf, t, rf⟩)
  | .nil, d, lf, rf => by
    rw [descendLeftC_nil]
    unfold descendLeft
    exact Same.pure _
  | .node lv nm x l r, d, lf, rf => by
    rw [descendLeftC_node, descendLeft_node]
    split
    · exact Same.pure _
    · exact (descendLeft_same level l _ _ _).move

theorem downRightAllC_nil (d lf rf) : downRightAllC (⟨d, lf, .nil, rf⟩ : Cursor E) = move >>= fun _ => pure ⟨d, lf, .nil, rf⟩ := by
  unfold downRightAllC
  congr 1
theorem downLeftAllC_nil (d lf rf) : downLeftAllC (⟨d, lf, .nil, rf⟩ : Cursor E) = move >>= fun _ => pure ⟨d, lf, .nil, rf⟩ := by
  unfold downLeftAllC
  congr 1

theorem downRightAllC_node (d lf lv nm) (x : E) (l r rf) :
    downRightAllC ⟨d, lf, .node lv nm x l r, rf⟩ = move >>= fun _ =>
      if r.isSome then downRightAllC ⟨false, (d, ⟨lv, nm, x, l, r⟩) :: lf, r, rf⟩ else pure ⟨d, lf, .node lv nm x l r, rf⟩ := by
  conv => lhs; unfold downRightAllC
  congr 1
  funext u
  split
  · rename_i heq
    cases hr : r.isSome <;> simp [downRight, downRightForce, hr] at heq
    simp [heq]
  · rename_i heq
    cases hr : r.isSome <;> simp [downRight, downRightForce, hr] at heq
    simp

theorem downLeftAllC_node (d lf lv nm) (x : E) (l r rf) :
    downLeftAllC ⟨d, lf, .node lv nm x l r, rf⟩ = move >>= fun _ =>
      if l.isSome then downLeftAllC ⟨false, lf, l, (d, ⟨lv, nm, x, l, r⟩) :: rf⟩ else pure ⟨d, lf, .node lv nm x l r, rf⟩ := by
  conv => lhs; unfold downLeftAllC
  congr 1
  funext u
  split
  · rename_i heq
    cases hr : l.isSome <;> simp [downLeft, downLeftForce, hr] at heq
    simp [heq]
  · rename_i heq
    cases hr : l.isSome <;> simp [downLeft, downLeftForce, hr] at heq
    simp

theorem downRightAll_same : ∀ (t : Tree E) (d lf rf), Same (downRightAllC ⟨d, lf, t, rf⟩) (.ok (downRightAll ⟨d, lf, t, rf⟩))
  | .nil, d, lf, rf => by
    rw [downRightAllC_nil]
    unfold downRightAll
    exact (Same.pure _).move
  | .node lv nm x l r, d, lf, rf => by
    rw [downRightAllC_node, downRightAll_node]
    refine Same.move ?_
    split
    · exact downRightAll_same r _ _ _
    · exact Same.pure _

theorem downLeftAll_same : ∀ (t : Tree E) (d lf rf), Same (downLeftAllC ⟨d, lf, t, rf⟩) (.ok (downLeftAll ⟨d, lf, t, rf⟩))
  | .nil, d, lf, rf => by
    rw [downLeftAllC_nil]
    unfold downLeftAll
    exact (Same.pure _).move
  | .node lv nm x l r, d, lf, rf => by
    rw [downLeftAllC_node, downLeftAll_node]
    refine Same.move ?_
    split
    · exact downLeftAll_same l _ _ _
    · exact Same.pure _

theorem join_same [TreeUpdate E] (lc : Cursor E) (level : Nat) (name : Option Name) (data : E) (rc : Cursor E) :
    Same (joinC lc level name data rc) (join lc level name data rc) := by
  unfold joinC join
  refine (upUntil_same _ _ _).bind fun l1 => (upUntil_same _ _ _).bind fun r1 => (upUntil_same _ _ _).bind fun l2 => ?_
  refine (descendRight_same level l2.tree _ _ _).bind fun l3 => (upUntil_same _ _ _).bind fun r2 => ?_
  exact (descendLeft_same level r2.tree _ _ _).bind fun r3 => (Same.still _).bind fun d => Same.pure _

end Cursor

variable {E M : Type} [RazMeta E M]
namespace RazTree

theorem focusLoop_same : ∀ (n : Nat) (c : Cursor (TreeData E M)) (i : RazMeta.Index E M), Same (focusLoopC n c i) (focusLoop n c i)
  | n, c, i => by
    unfold focusLoopC focusLoop
    refine (Same.still _).bind fun d => ?_
    cases d with
    | leaf v => exact Same.pure _
    | dummy => exact Same.pure _
    | branch l r =>
      cases n with
      | zero => exact Same.pure _
      | succ n =>
        refine (Same.still _).bind fun s => ?_
        cases s with
        | left j => exact Same.let (Cursor.downLeftForce_same _ _) ((Same.still _).bind fun _ => focusLoop_same n _ j)
        | right j => exact Same.let (Cursor.downRightForce_same _ _) ((Same.still _).bind fun _ => focusLoop_same n _ j)
        | here =>
          refine Same.let (Cursor.downLeftForce_same _ _) ((Same.still _).bind fun _ => ?_)
          exact Same.let (Cursor.downRightAll_same _ _ _ _) (focusLoop_same n _ _)
        | nowhere => exact Same.pure _

theorem focus_same (t : RazTree E M) (i : RazMeta.Index E M) : Same (t.focusC i) (t.focus i) := by
  obtain ⟨info, tree⟩ := t
  unfold focusC focus
  cases tree
  · exact Same.pure _
  · refine (focusLoop_same _ _ _).bind fun o => ?_
    cases o with
    | none => exact Same.pure _
    | some p =>
      obtain ⟨c, j⟩ := p
      dsimp only
      generalize c.split = x
      obtain ⟨lc, tree, rc⟩ := x
      rcases tree with _ | ⟨lv, nm, _ | _ | v, l, r⟩
      · exact Same.still _
      · exact Same.still _
      · exact Same.still _
      · exact (Same.still _).bind fun _ => Same.pure _

omit [RazMeta E M] in
theorem focusLeft_same (t : RazTree E M) : Same t.focusLeftC t.focusLeft := by
  obtain ⟨info, tree⟩ := t
  unfold focusLeftC focusLeft
  cases tree with
  | nil => exact Same.pure _
  | node lv nm d l r =>
    refine Same.let (Cursor.downLeftAll_same _ _ _ _) ?_
    simp only [Cursor.ofTree]
    generalize Cursor.split _ = x
    obtain ⟨lc, tree, rc⟩ := x
    rcases tree with _ | ⟨lv, nm, _ | _ | v, l, r⟩
    · exact Same.still _
    · exact Same.still _
    · exact Same.still _
    · exact Same.pure _

end RazTree

namespace Raz

theorem joinLeftLoopC_none {s s' : AStack E Nat} (h : s.nextArchive = (s', none)) (c : Cursor (TreeData E M)) (lev : Option Nat) (n1 n2 : Option Name) :
    joinLeftLoopC s c lev n1 n2 = pure c := by
  unfold joinLeftLoopC
  split
  · rfl
  · rename_i heq; rw [h] at heq; cases heq

theorem joinLeftLoopC_some {s s' : AStack E Nat} {v : List E} {lev' : Option Nat} (h : s.nextArchive = (s', some (v, lev'))) (c : Cursor (TreeData E M)) (lev : Option Nat)
    (n1 n2 : Option Name) : joinLeftLoopC s c lev n1 n2 = (still (unwrap lev) >>= fun l => Cursor.joinC (Cursor.ofTree (leaf v none)) l n1 .dummy c >>= fun c' =>
      joinLeftLoopC s' c' lev' n2 (treeName s')) := by
  conv => lhs; unfold joinLeftLoopC
  split
  · rename_i heq; rw [h] at heq; cases heq
  · rename_i heq; rw [h] at heq; cases heq; rfl

theorem joinLeftLoop_none {s s' : AStack E Nat} (h : s.nextArchive = (s', none)) (c : Cursor (TreeData E M)) (lev : Option Nat) (n1 n2 : Option Name) :
    joinLeftLoop s c lev n1 n2 = .ok c := by
  unfold joinLeftLoop
  split
  · rfl
  · rename_i heq; rw [h] at heq; cases heq

theorem joinLeftLoop_some {s s' : AStack E Nat} {v : List E} {lev' : Option Nat} (h : s.nextArchive = (s', some (v, lev'))) (c : Cursor (TreeData E M)) (lev : Option Nat)
    (n1 n2 : Option Name) : joinLeftLoop s c lev n1 n2 = (unwrap lev >>= fun l => Cursor.join (Cursor.ofTree (leaf v none)) l n1 .dummy c >>= fun c' =>
      joinLeftLoop s' c' lev' n2 (treeName s')) := by
  conv => lhs; unfold joinLeftLoop
  split
  · rename_i heq; rw [h] at heq; cases heq
  · rename_i heq; rw [h] at heq; cases heq; rfl

theorem joinLeftLoop_same (s : AStack E Nat) (c : Cursor (TreeData E M)) (lev : Option Nat) (n1 n2 : Option Name) :
    Same (joinLeftLoopC s c lev n1 n2) (joinLeftLoop s c lev n1 n2) := by
  rcases h : s.nextArchive with ⟨s', _ | ⟨v, lev'⟩⟩
  · rw [joinLeftLoopC_none h, joinLeftLoop_none h]
    exact Same.pure _
  · have := AStack.nextArchive_weight h
    rw [joinLeftLoopC_some h, joinLeftLoop_some h]
    exact (Same.still _).bind fun l => (Cursor.join_same _ _ _ _ _).bind fun c' => joinLeftLoop_same s' c' lev' n2 _
termination_by s.weight

theorem joinRightLoopC_none {s s' : AStack E Nat} (h : s.nextArchive = (s', none)) (c : Cursor (TreeData E M)) (lev : Option Nat) (n1 n2 : Option Name) :
    joinRightLoopC s c lev n1 n2 = pure c := by
  unfold joinRightLoopC
  split
  · rfl
  · rename_i heq; rw [h] at heq; cases heq

theorem joinRightLoopC_some {s s' : AStack E Nat} {v : List E} {lev' : Option Nat} (h : s.nextArchive = (s', some (v, lev'))) (c : Cursor (TreeData E M)) (lev : Option Nat)
    (n1 n2 : Option Name) : joinRightLoopC s c lev n1 n2 = (still (unwrap lev) >>= fun l => Cursor.joinC c l n1 .dummy (Cursor.ofTree (leaf v.reverse none)) >>= fun c' =>
      joinRightLoopC s' c' lev' n2 (treeName s')) := by
  conv => lhs; unfold joinRightLoopC
  split
  · rename_i heq; rw [h] at heq; cases heq
  · rename_i heq; rw [h] at heq; cases heq; rfl

theorem joinRightLoop_none {s s' : AStack E Nat} (h : s.nextArchive = (s', none)) (c : Cursor (TreeData E M)) (lev : Option Nat) (n1 n2 : Option Name) :
    joinRightLoop s c lev n1 n2 = .ok c := by
  unfold joinRightLoop
  split
  · rfl
  · rename_i heq; rw [h] at heq; cases heq

theorem joinRightLoop_some {s s' : AStack E Nat} {v : List E} {lev' : Option Nat} (h : s.nextArchive = (s', some (v, lev'))) (c : Cursor (TreeData E M)) (lev : Option Nat)
    (n1 n2 : Option Name) : joinRightLoop s c lev n1 n2 = (unwrap lev >>= fun l => Cursor.join c l n1 .dummy (Cursor.ofTree (leaf v.reverse none)) >>= fun c' =>
      joinRightLoop s' c' lev' n2 (treeName s')) := by
  conv => lhs; unfold joinRightLoop
  split
  · rename_i heq; rw [h] at heq; cases heq
  · rename_i heq; rw [h] at heq; cases heq; rfl

theorem joinRightLoop_same (s : AStack E Nat) (c : Cursor (TreeData E M)) (lev : Option Nat) (n1 n2 : Option Name) :
    Same (joinRightLoopC s c lev n1 n2) (joinRightLoop s c lev n1 n2) := by
  rcases h : s.nextArchive with ⟨s', _ | ⟨v, lev'⟩⟩
  · rw [joinRightLoopC_none h, joinRightLoop_none h]
    exact Same.pure _
  · have := AStack.nextArchive_weight h
    rw [joinRightLoopC_some h, joinRightLoop_some h]
    exact (Same.still _).bind fun l => (Cursor.join_same _ _ _ _ _).bind fun c' => joinRightLoop_same s' c' lev' n2 _
termination_by s.weight

theorem centerTree_same (ce : Center E) (lf rf : Cursor (TreeData E M)) : Same (centerTreeC ce lf rf) (centerTree ce lf rf) := by
  unfold centerTreeC centerTree
  cases ce.vec with
  | some v =>
    dsimp only
    refine (joinLeftLoop_same _ _ _ _ _).bind fun c1 => (joinRightLoop_same _ _ _ _ _).bind fun c2 => ?_
    exact (Cursor.upAll_same c2.height c2).bind fun c3 => (Same.still _).bind fun _ => Same.pure _
  | none =>
    dsimp only
    refine (Cursor.up_same _).bind fun ⟨c, res⟩ => ?_
    dsimp only
    split
    · refine (Cursor.up_same _).bind fun ⟨c, res⟩ => ?_
      dsimp only
      split
      · exact Same.pure _
      · exact (Same.still _).bind fun _ => Same.pure _
    · exact (Same.still _).bind fun _ => Same.pure _

theorem joinLeftForest_same (lf jc : Cursor (TreeData E M)) : Same (joinLeftForestC lf jc) (joinLeftForest lf jc) := by
  unfold joinLeftForestC joinLeftForest
  refine (Cursor.up_same _).bind fun ⟨c, res⟩ => ?_
  dsimp only
  split
  · exact (Same.still _).bind fun _ => Same.let (Cursor.downLeftForce_same _ _) (Cursor.join_same _ _ _ _ _)
  · exact Same.pure _

theorem joinRightForest_same (jc rf : Cursor (TreeData E M)) : Same (joinRightForestC jc rf) (joinRightForest jc rf) := by
  unfold joinRightForestC joinRightForest
  refine (Cursor.up_same _).bind fun ⟨c, res⟩ => ?_
  dsimp only
  split
  · exact (Same.still _).bind fun _ => Same.let (Cursor.downRightForce_same _ _) (Cursor.join_same _ _ _ _ _)
  · exact Same.pure _

theorem joinForests_same (t : Tree (TreeData E M)) (lf rf : Cursor (TreeData E M)) : Same (joinForestsC t lf rf) (joinForests t lf rf) := by
  unfold joinForestsC joinForests
  exact (joinLeftForest_same _ _).bind fun _ => (joinRightForest_same _ _).bind fun _ => (Cursor.upAll_same _ _).bind fun _ => Same.still _

theorem unfocus_same (z : Raz E M) : Same z.unfocusC z.unfocus := by
  unfold unfocusC unfocus
  refine (Same.still _).bind fun c => (centerTree_same _ _ _).bind fun o => ?_
  rcases o with _ | ⟨t, lf, rf⟩
  · exact Same.still _
  · exact joinForests_same _ _ _

theorem popLeft_same (z : Raz E M) : Same z.popLeftC z.popLeft := by
  unfold popLeftC popLeft
  split
  · refine (Cursor.up_same _).bind fun ⟨c, res⟩ => ?_
    dsimp only
    split
    · exact Same.pure _
    · refine Same.let (Cursor.downLeftForce_same _ _) (Same.let (Cursor.downRightAll_same _ _ _ _) ?_)
      split
      · rename_i h
        simp only [h]
        exact (Same.still _).bind fun ⟨_, _⟩ => Same.pure _
      · rename_i h
        split
        · rename_i h'; exact absurd h' (h _)
        · exact Same.still _
  · exact (Same.still _).bind fun ⟨_, _⟩ => Same.pure _

theorem popRight_same (z : Raz E M) : Same z.popRightC z.popRight := by
  unfold popRightC popRight
  split
  · refine (Cursor.up_same _).bind fun ⟨c, res⟩ => ?_
    dsimp only
    split
    · exact Same.pure _
    · refine Same.let (Cursor.downRightForce_same _ _) (Same.let (Cursor.downLeftAll_same _ _ _ _) ?_)
      split
      · rename_i h
        simp only [h]
        exact (Same.still _).bind fun ⟨_, _⟩ => Same.pure _
      · rename_i h
        split
        · rename_i h'; exact absurd h' (h _)
        · exact Same.still _
  · exact (Same.still _).bind fun ⟨_, _⟩ => Same.pure _

theorem lop_same (z : Raz E M) (op : LOp E) : Same (z.lopC op) (z.lop op) := by
  cases op with
  | popL => exact (popLeft_same z).bind fun ⟨_, _⟩ => Same.pure _
  | popR => exact (popRight_same z).bind fun ⟨_, _⟩ => Same.pure _
  | _ => exact Same.pure _

theorem lops_same : ∀ (ops : List (LOp E)) (z : Raz E M), Same (z.lopsC ops) (z.lops ops)
  | [], _ => Same.pure _
  | op :: l, z => (lop_same z op).bind fun z' => lops_same l z'

end Raz

theorem RazTree.edit_same (t : RazTree E M) (i : RazMeta.Index E M) (ops : List (LOp E)) : Same (t.editC i ops) (t.edit i ops) :=
  (RazTree.focus_same t i).bind fun _ => (Same.still _).bind fun _ => (Raz.lops_same _ _).bind fun _ => Raz.unfocus_same _

end Iodyn
