import Verif.Spec.HeapNs
/-
A result over the store does not depend on the bound for loops, once there is one.
-/
namespace Iodyn.Heap
variable {D X E M A B : Type}

/-- A result of `m` is a result of `m'` with more iterations. -/
def Upto (m m' : H D X A) : Prop := ∀ f f' σ r, f ≤ f' → m f σ = .ok r → m' f' σ = .ok r

/-- The result stays. -/
structure Settles (m : H D X A) : Prop where
  upto : Upto m m

theorem Upto.bind {m m' : H D X A} {k k' : A → H D X B} (h : Upto m m') (hk : ∀ a, Upto (k a) (k' a)) : Upto (m >>= k) (m' >>= k') := by
  intro f f' σ r hf hr
  simp only [Bind.bind] at hr ⊢
  cases hm : m f σ with
  | error p => rw [hm] at hr; cases hr
  | ok x =>
    rw [hm] at hr
    rw [h f f' σ x hf hm]
    exact hk x.1 f f' x.2 r hf hr

theorem Settles.bind {m : H D X A} {k : A → H D X B} (h : Settles m) (hk : ∀ a, Settles (k a)) : Settles (m >>= k) := ⟨Upto.bind h.upto fun a => (hk a).upto⟩

theorem Settles.pure (a : A) : Settles (Pure.pure a : H D X A) := ⟨fun _ _ _ _ _ h => h⟩

theorem settles_liftP (x : P A) : Settles (liftP x : H D X A) := ⟨fun _ _ _ _ _ h => h⟩

theorem Upto.diverge (m : H D X A) : Upto diverge m := fun _ _ _ _ _ h => by cases h

theorem Settles.loop {m : Nat → H D X A} (h : ∀ n n', n ≤ n' → Upto (m n) (m n')) : Settles (fun f => m f f) :=
  ⟨fun f f' σ r hf hr => h f f' hf f f' σ r hf hr⟩

theorem Settles.ns {m : H D X A} (h : Settles m) (n : Name) : Settles (ns n m) := by
  refine ⟨fun f f' σ r hf hr => ?_⟩
  simp only [Heap.ns] at hr ⊢
  cases hm : m f { σ with path := n :: σ.path } with
  | error p => rw [hm] at hr; cases hr
  | ok x => rw [hm] at hr; rw [h.upto f f' _ x hf hm]; exact hr

theorem Settles.inNs : ∀ (p : NsPath) {m : H D X A}, Settles m → Settles (inNs p m) := by
  intro p
  induction p with
  | nil => intro m h; exact h
  | cons n p ih => intro m h; exact ih (h.ns n)

theorem settles_forceNode (l : Loc) : Settles (forceNode l : H D X _) := ⟨fun _ _ _ _ _ h => h⟩
theorem settles_newTree (e : Engine) (level : Nat) (name : Option Name) (data : D) (l r : Option Tr) :
    Settles (newTree e level name data l r : H D X _) := ⟨fun _ _ _ _ _ h => h⟩
theorem settles_forceBody (l : Loc) : Settles (forceBody l : H D X _) := ⟨fun _ _ _ _ _ h => h⟩
theorem settles_pushOnto (e : Engine) (tail : Option Head) (name : Option Name) (elem : X) : Settles (pushOnto e tail name elem : H D X _) :=
  ⟨fun _ _ _ _ _ h => h⟩

/-- Goes through the statements of a function. -/
syntax "settle" "[" term,* "]" : tactic
macro_rules
  | `(tactic| settle [$ts,*]) => do
    let ts := ts.getElems
    `(tactic| repeat (first | exact Settles.pure _ | exact settles_liftP _ | exact settles_forceNode _ | exact settles_newTree _ _ _ _ _ _ |
      exact settles_forceBody _ | exact settles_pushOnto _ _ _ _ | assumption | (first $[| apply $ts:term]* | fail) | apply Settles.bind | intro _ | split))

theorem settles_lTree (t : Tr) : Settles (t.lTree : H D X _) := by unfold Tr.lTree; settle []
theorem settles_rTree (t : Tr) : Settles (t.rTree : H D X _) := by unfold Tr.rTree; settle []
theorem settles_peekT (t : Tr) : Settles (t.peek : H D X _) := by unfold Tr.peek; settle []
theorem settles_peekOp (t : Option Tr) : Settles (peekOp t : H D X _) := by unfold peekOp; settle [settles_peekT]
theorem settles_leftTree (c : Cur) : Settles (c.leftTree : H D X _) := by unfold Cur.leftTree; settle [settles_lTree]
theorem settles_rightTree (c : Cur) : Settles (c.rightTree : H D X _) := by unfold Cur.rightTree; settle [settles_rTree]
theorem settles_split (c : Cur) : Settles (c.split : H D X _) := by unfold Cur.split; settle [settles_leftTree, settles_rightTree]
theorem settles_peek (c : Cur) : Settles (c.peek : H D X _) := by unfold Cur.peek; settle [settles_peekOp]
theorem settles_downLeft (fc : Force) (c : Cur) : Settles (c.downLeftForce fc : H D X _) := by unfold Cur.downLeftForce; settle [settles_lTree]
theorem settles_downRight (fc : Force) (c : Cur) : Settles (c.downRightForce fc : H D X _) := by unfold Cur.downRightForce; settle [settles_rTree]
theorem settles_up [TreeUpdate D] (e : Engine) (c : Cur) : Settles (c.up e : H D X _) := by
  unfold Cur.up; settle [settles_lTree, settles_rTree, settles_peekT, settles_peekOp]
theorem settles_upUntil [TreeUpdate D] (e : Engine) (stop : Cur → Bool) (n : Nat) : ∀ c : Cur, Settles (Cur.upUntil e stop n c : H D X _) := by
  induction n with
  | zero => intro c; unfold Cur.upUntil; settle []
  | succ n ih => intro c; unfold Cur.upUntil; settle [settles_up, ih]
theorem settles_upAll [TreeUpdate D] (e : Engine) (n : Nat) : ∀ c : Cur, Settles (Cur.upAll e n c : H D X _) := by
  induction n with
  | zero => intro c; unfold Cur.upAll; settle []
  | succ n ih => intro c; unfold Cur.upAll; settle [settles_up, ih]

theorem settles_descendRight (level : Nat) (c : Cur) : Settles (c.descendRight level : H D X _) := by
  refine Settles.loop (m := fun n => Cur.descendRightN level n c) (fun n => ?_)
  induction n generalizing c with
  | zero => intro n' _; exact Upto.diverge _
  | succ n ih =>
    intro n' hn
    obtain ⟨m, rfl⟩ : ∃ m, n' = m + 1 := ⟨n' - 1, by omega⟩
    unfold Cur.descendRightN
    cases c.peekLevel with
    | none => exact (Settles.pure _).upto
    | some h =>
      simp only
      split
      · exact (Settles.pure _).upto
      · exact Upto.bind (settles_downRight _ _).upto fun x => Upto.bind (settles_liftP _).upto fun _ => ih _ m (by omega)

theorem settles_descendLeft (level : Nat) (c : Cur) : Settles (c.descendLeft level : H D X _) := by
  refine Settles.loop (m := fun n => Cur.descendLeftN level n c) (fun n => ?_)
  induction n generalizing c with
  | zero => intro n' _; exact Upto.diverge _
  | succ n ih =>
    intro n' hn
    obtain ⟨m, rfl⟩ : ∃ m, n' = m + 1 := ⟨n' - 1, by omega⟩
    unfold Cur.descendLeftN
    cases c.peekLevel with
    | none => exact (Settles.pure _).upto
    | some h =>
      simp only
      split
      · exact (Settles.pure _).upto
      · exact Upto.bind (settles_downLeft _ _).upto fun x => Upto.bind (settles_liftP _).upto fun _ => ih _ m (by omega)

theorem settles_downRightAll (c : Cur) : Settles (c.downRightAll : H D X _) := by
  refine Settles.loop (m := fun n => Cur.downRightAllN n c) (fun n => ?_)
  induction n generalizing c with
  | zero => intro n' _; exact Upto.diverge _
  | succ n ih =>
    intro n' hn
    obtain ⟨m, rfl⟩ : ∃ m, n' = m + 1 := ⟨n' - 1, by omega⟩
    refine Upto.bind (settles_downRight _ _).upto fun x => ?_
    obtain ⟨c', ok⟩ := x
    cases ok
    · exact (Settles.pure _).upto
    · exact ih _ m (by omega)

theorem settles_downLeftAll (c : Cur) : Settles (c.downLeftAll : H D X _) := by
  refine Settles.loop (m := fun n => Cur.downLeftAllN n c) (fun n => ?_)
  induction n generalizing c with
  | zero => intro n' _; exact Upto.diverge _
  | succ n ih =>
    intro n' hn
    obtain ⟨m, rfl⟩ : ∃ m, n' = m + 1 := ⟨n' - 1, by omega⟩
    refine Upto.bind (settles_downLeft _ _).upto fun x => ?_
    obtain ⟨c', ok⟩ := x
    cases ok
    · exact (Settles.pure _).upto
    · exact ih _ m (by omega)

theorem settles_joinC [TreeUpdate D] (e : Engine) (lc : Cur) (level : Nat) (name : Option Name) (data : D) (rc : Cur) :
    Settles (Cur.join e lc level name data rc : H D X _) := by
  unfold Cur.join; settle [settles_upUntil, settles_descendRight, settles_descendLeft, settles_peekOp]

theorem settles_stackPeek (h : Option Head) : Settles (stackPeek h : H D X _) := by unfold stackPeek; settle []
theorem settles_stackPull (h : Option Head) : Settles (stackPull h : H D X _) := by unfold stackPull; settle []
theorem settles_retrieve (s : ASt E) : Settles (s.retrieve : H D _ _) := by unfold ASt.retrieve; settle [settles_stackPeek, settles_stackPull]
theorem settles_pop (s : ASt E) : Settles (s.pop : H D _ _) := by unfold ASt.pop; settle [settles_retrieve]
theorem settles_nextArchive (s : ASt E) : Settles (s.nextArchive : H D _ _) := by unfold ASt.nextArchive; settle [settles_stackPeek, settles_stackPull]
theorem settles_peekS (s : ASt E) : Settles (s.peek : H D _ _) := by unfold ASt.peek; settle [settles_stackPeek]
theorem settles_archive (e : Engine) (s : ASt E) (name : Option Name) (m : Nat) : Settles (s.archive e name m : H D _ _) := by unfold ASt.archive; settle []

section
variable [RazMeta E M]

theorem settles_treetopMeta (t : Option Tr) : Settles (treetopMeta t : HR E M M) := by unfold treetopMeta; settle [settles_peekT]
theorem settles_mkTree (t : Option Tr) : Settles (mkTree t : HR E M _) := by unfold mkTree; settle [settles_treetopMeta]
theorem settles_bin (e : Engine) (t1 : Tr) (l : Nat) (n : Option Name) (t2 : Tr) : Settles (bin e t1 l n t2 : HR E M _) := by unfold bin; settle [settles_peekT]
theorem settles_join (e : Engine) (lt : HTree M) (level : Nat) (name : Option Name) (rt : HTree M) : Settles (lt.join e level name rt : HR E M _) := by
  unfold HTree.join; settle [settles_bin, settles_mkTree]
theorem settles_fromVec (e : Engine) (v : List E) : Settles (HTree.fromVec e v : HR E M _) := by
  unfold HTree.fromVec leaf; settle [settles_mkTree]

theorem settles_focusLoop (c : Cur) (i : RazMeta.Index E M) : Settles (fun f => HTree.focusLoopN f c i f : HR E M _) := by
  refine Settles.loop (m := fun n => HTree.focusLoopN n c i) (fun n => ?_)
  induction n generalizing c i with
  | zero => intro n' _; exact Upto.diverge _
  | succ n ih =>
    intro n' hn
    obtain ⟨m, rfl⟩ : ∃ m, n' = m + 1 := ⟨n' - 1, by omega⟩
    refine Upto.bind (settles_peek _).upto fun o => Upto.bind (settles_liftP _).upto fun d => ?_
    cases d with
    | dummy => exact (Settles.pure _).upto
    | leaf v => exact (Settles.pure _).upto
    | branch l r =>
      refine Upto.bind (settles_liftP _).upto fun nav => ?_
      cases nav with
      | nowhere => exact (Settles.pure _).upto
      | left j => exact Upto.bind (settles_downLeft _ _).upto fun x => Upto.bind (settles_liftP _).upto fun _ => ih _ _ m (by omega)
      | right j => exact Upto.bind (settles_downRight _ _).upto fun x => Upto.bind (settles_liftP _).upto fun _ => ih _ _ m (by omega)
      | here => exact Upto.bind (settles_downLeft _ _).upto fun x => Upto.bind (settles_liftP _).upto fun _ =>
          Upto.bind (settles_downRightAll _).upto fun _ => ih _ _ m (by omega)

theorem settles_focus (t : HTree M) (i : RazMeta.Index E M) : Settles (t.focus i : HR E M _) := by
  unfold HTree.focus; settle [settles_focusLoop, settles_split, settles_peekT]

omit [RazMeta E M] in
theorem settles_focusLeft (t : HTree M) : Settles (t.focusLeft : HR E M _) := by
  unfold HTree.focusLeft; settle [settles_downLeftAll, settles_split, settles_peekT]

theorem settles_joinLeftLoop (e : Engine) (s : ASt E) (c : Cur) (l : Option Nat) (n1 n2 : Option Name) :
    Settles (fun f => HRaz.joinLeftLoopN e f s c l n1 n2 f : HR E M _) := by
  refine Settles.loop (m := fun n => HRaz.joinLeftLoopN e n s c l n1 n2) (fun n => ?_)
  induction n generalizing s c l n1 n2 with
  | zero => intro n' _; exact Upto.diverge _
  | succ n ih =>
    intro n' hn
    obtain ⟨m, rfl⟩ : ∃ m, n' = m + 1 := ⟨n' - 1, by omega⟩
    refine Upto.bind (settles_nextArchive _).upto fun x => ?_
    obtain ⟨s', o⟩ := x
    cases o with
    | none => exact (Settles.pure _).upto
    | some o => exact Upto.bind (settles_newTree _ _ _ _ _ _).upto fun _ => Upto.bind (settles_liftP _).upto fun _ =>
        Upto.bind (settles_joinC _ _ _ _ _ _).upto fun _ => ih _ _ _ _ _ m (by omega)

theorem settles_joinRightLoop (e : Engine) (s : ASt E) (c : Cur) (l : Option Nat) (n1 n2 : Option Name) :
    Settles (fun f => HRaz.joinRightLoopN e f s c l n1 n2 f : HR E M _) := by
  refine Settles.loop (m := fun n => HRaz.joinRightLoopN e n s c l n1 n2) (fun n => ?_)
  induction n generalizing s c l n1 n2 with
  | zero => intro n' _; exact Upto.diverge _
  | succ n ih =>
    intro n' hn
    obtain ⟨m, rfl⟩ : ∃ m, n' = m + 1 := ⟨n' - 1, by omega⟩
    refine Upto.bind (settles_nextArchive _).upto fun x => ?_
    obtain ⟨s', o⟩ := x
    cases o with
    | none => exact (Settles.pure _).upto
    | some o => exact Upto.bind (settles_newTree _ _ _ _ _ _).upto fun _ => Upto.bind (settles_liftP _).upto fun _ =>
        Upto.bind (settles_joinC _ _ _ _ _ _).upto fun _ => ih _ _ _ _ _ m (by omega)

omit [RazMeta E M] in
theorem settles_openSide (s : ASt E) : Settles (HRaz.openSide s : HR E M _) := by unfold HRaz.openSide; settle [settles_nextArchive]
omit [RazMeta E M] in
theorem settles_center (a b : ASt E) : Settles (HRaz.center a b : HR E M _) := by unfold HRaz.center; settle [settles_nextArchive, settles_openSide]
theorem settles_centerTree (e : Engine) (c : HRaz.Center E) (lf rf : Cur) : Settles (HRaz.centerTree e c lf rf : HR E M _) := by
  unfold HRaz.centerTree; settle [settles_joinLeftLoop, settles_joinRightLoop, settles_upAll, settles_up, settles_rightTree, settles_leftTree]
theorem settles_joinLeftForest (e : Engine) (lf jc : Cur) : Settles (HRaz.joinLeftForest e lf jc : HR E M _) := by
  unfold HRaz.joinLeftForest; settle [settles_up, settles_downLeft, settles_joinC]
theorem settles_joinRightForest (e : Engine) (lf jc : Cur) : Settles (HRaz.joinRightForest e lf jc : HR E M _) := by
  unfold HRaz.joinRightForest; settle [settles_up, settles_downRight, settles_joinC]
theorem settles_unfocus (e : Engine) (z : HRaz E) : Settles (z.unfocus e : HR E M _) := by
  unfold HRaz.unfocus; settle [settles_center, settles_centerTree, settles_joinLeftForest, settles_joinRightForest, settles_upAll, settles_mkTree]
theorem settles_peekLeft (e : Engine) (z : HRaz E) : Settles (z.peekLeft e : HR E M _) := by
  unfold HRaz.peekLeft; settle [settles_up, settles_downLeft, settles_downRightAll, settles_peek, settles_peekS]
theorem settles_peekRight (e : Engine) (z : HRaz E) : Settles (z.peekRight e : HR E M _) := by
  unfold HRaz.peekRight; settle [settles_up, settles_downRight, settles_downLeftAll, settles_peek, settles_peekS]
theorem settles_popLeft (e : Engine) (z : HRaz E) : Settles (z.popLeft e : HR E M _) := by
  unfold HRaz.popLeft; settle [settles_up, settles_downLeft, settles_downRightAll, settles_peek, settles_pop]
theorem settles_popRight (e : Engine) (z : HRaz E) : Settles (z.popRight e : HR E M _) := by
  unfold HRaz.popRight; settle [settles_up, settles_downRight, settles_downLeftAll, settles_peek, settles_pop]

theorem settles_step (e : Engine) (s : HSt E M) (o : ApiOp E (RazMeta.Index E M)) : Settles (s.step e o) := by
  unfold HSt.step HRaz.archiveLeft HRaz.archiveRight
  settle [settles_popLeft, settles_popRight, settles_peekLeft, settles_peekRight, settles_archive, settles_unfocus, settles_focus, settles_focusLeft]

theorem settles_vars (e : Engine) (vs : HVars E M) (c : Cmd E (RazMeta.Index E M)) : Settles (vs.step e c) := by
  unfold HVars.step
  settle [settles_fromVec, settles_step, settles_join]

theorem settles_run (e : Engine) : ∀ (cs : List (Cmd E (RazMeta.Index E M))) (vs : HVars E M), Settles (vs.run e cs) := by
  intro cs
  induction cs with
  | nil => intro vs; exact Settles.pure _
  | cons c cs ih => intro vs; exact (settles_vars e vs c).bind fun _ => (ih _).bind fun _ => Settles.pure _

theorem settles_runNs (e : Engine) : ∀ (cs : List (NsPath × Cmd E (RazMeta.Index E M))) (vs : HVars E M), Settles (vs.runNs e cs) := by
  intro cs
  induction cs with
  | nil => intro vs; exact Settles.pure _
  | cons c cs ih => intro vs; exact ((settles_vars e vs c.2).inNs c.1).bind fun _ => (ih _).bind fun _ => Settles.pure _

theorem Answers.of_run {e : Engine} {cs : List (Cmd E (RazMeta.Index E M))} (f : Nat) {os : List (Out E)}
    (h : (HVars.run (M := M) e [] cs f Store.empty).map (fun x => x.1.2) = .ok os) : Answers (M := M) e cs (.ok os) := by
  refine ⟨f, fun f' hf => ?_⟩
  cases hr : HVars.run (M := M) e [] cs f Store.empty with
  | error p => rw [hr] at h; cases h
  | ok r => rw [hr] at h; rw [(settles_run e cs []).upto f f' _ r hf hr]; exact h

theorem AnswersNs.of_run {e : Engine} {cs : List (NsPath × Cmd E (RazMeta.Index E M))} (f : Nat) {os : List (Out E)}
    (h : (HVars.runNs (M := M) e [] cs f Store.empty).map (fun x => x.1.2) = .ok os) : AnswersNs (M := M) e cs (.ok os) := by
  refine ⟨f, fun f' hf => ?_⟩
  cases hr : HVars.runNs (M := M) e [] cs f Store.empty with
  | error p => rw [hr] at h; cases h
  | ok r => rw [hr] at h; rw [(settles_runNs e cs []).upto f f' _ r hf hr]; exact h

end
end Iodyn.Heap
