import Verif.Props.Examples
/-
C01 zipper edits, C02 `unfocus` keeps the elements, C23 archiving, C24 archive points survive.
-/
namespace Iodyn
variable {E M : Type} [RazMeta E M]

/-- One call from a reachable state gives a reachable state and the results of the plain lists. -/
theorem C01_step [LawfulMeta E M] {s s' : St E M} {op : ApiOp E (RazMeta.Index E M)} {o : Out E}
    (h : s.Reachable .full) (hl : op.LevelOK) (hs : s.step op = .ok (s', o)) :
    LStep s.read op o s'.read ∧ s'.Reachable .full := by
  cases s with
  | cursor z =>
    have hz := Reach.z h
    have ht := hz.tidy rfl
    cases op with
    | pushL e =>
      simp only [St.step, Except.ok.injEq, Prod.mk.injEq] at hs
      obtain ⟨rfl, rfl⟩ := hs
      obtain ⟨-, h2, h3⟩ := pushLeft_ok hz.inv e
      refine ⟨?_, .pushL e h⟩
      simp only [St.read, Raz.leftElems, Raz.rightElems, h2, h3]
      exact .pushL ..
    | pushR e =>
      simp only [St.step, Except.ok.injEq, Prod.mk.injEq] at hs
      obtain ⟨rfl, rfl⟩ := hs
      obtain ⟨-, h2, h3⟩ := pushRight_ok hz.inv e
      refine ⟨?_, .pushR e h⟩
      simp only [St.read, Raz.leftElems, Raz.rightElems, h2, h3]
      exact .pushR ..
    | popL =>
      obtain ⟨z', h1, -, h3, h4⟩ := popLeft_ok hz.inv
      simp only [St.step, h1, bind, Except.bind, pure, Except.pure, Except.ok.injEq, Prod.mk.injEq] at hs
      obtain ⟨rfl, rfl⟩ := hs
      refine ⟨?_, .popL h h1⟩
      obtain ⟨p1, p2⟩ := popSide_elems ht.1
      simp only [St.read, Raz.leftElems, Raz.rightElems, h3, h4, p1, p2]
      exact .popL ..
    | popR =>
      obtain ⟨z', h1, -, h3, h4⟩ := popRight_ok hz.inv
      simp only [St.step, h1, bind, Except.bind, pure, Except.pure, Except.ok.injEq, Prod.mk.injEq] at hs
      obtain ⟨rfl, rfl⟩ := hs
      refine ⟨?_, .popR h h1⟩
      obtain ⟨p1, p2⟩ := popSide_elems ht.2
      simp only [St.read, Raz.leftElems, Raz.rightElems, h3, h4, p1, p2]
      exact .popR ..
    | peekL =>
      have h1 := peekLeft_ok hz.inv
      simp only [St.step, h1, bind, Except.bind, pure, Except.pure, Except.ok.injEq, Prod.mk.injEq] at hs
      obtain ⟨rfl, rfl⟩ := hs
      refine ⟨?_, h⟩
      rw [(popSide_elems ht.1).1]
      exact .peekL ..
    | peekR =>
      have h1 := peekRight_ok hz.inv
      simp only [St.step, h1, bind, Except.bind, pure, Except.pure, Except.ok.injEq, Prod.mk.injEq] at hs
      obtain ⟨rfl, rfl⟩ := hs
      refine ⟨?_, h⟩
      rw [(popSide_elems ht.2).1]
      exact .peekR ..
    | archL lev nm =>
      simp only [St.step, Except.ok.injEq, Prod.mk.injEq] at hs
      obtain ⟨rfl, rfl⟩ := hs
      obtain ⟨-, h2, h3⟩ := archiveLeft_ok hz.inv hl nm
      refine ⟨?_, .archL nm hl h⟩
      simp only [St.read, Raz.leftElems, Raz.rightElems, h2, h3, archiveSide_elems]
      exact .archL ..
    | archR lev nm =>
      simp only [St.step, Except.ok.injEq, Prod.mk.injEq] at hs
      obtain ⟨rfl, rfl⟩ := hs
      obtain ⟨-, h2, h3⟩ := archiveRight_ok hz.inv hl nm
      refine ⟨?_, .archR nm hl h⟩
      simp only [St.read, Raz.leftElems, Raz.rightElems, h2, h3, archiveSide_elems]
      exact .archR ..
    | unfocus =>
      obtain ⟨t, h1, -, h3⟩ := unfocus_inv hz.inv
      simp only [St.step, h1, bind, Except.bind, pure, Except.pure, Except.ok.injEq, Prod.mk.injEq] at hs
      obtain ⟨rfl, rfl⟩ := hs
      refine ⟨?_, .unfocus h h1⟩
      simp only [St.read, RazTree.elems, h3, elemsOf_settle, glue_elems]
      exact .unfocus ..
    | focus i =>
      simp only [St.step, Except.ok.injEq, Prod.mk.injEq] at hs
      obtain ⟨rfl, rfl⟩ := hs
      exact ⟨.ignoreC _ _ _ (.inl ⟨i, rfl⟩), h⟩
    | focusLeft =>
      simp only [St.step, Except.ok.injEq, Prod.mk.injEq] at hs
      obtain ⟨rfl, rfl⟩ := hs
      exact ⟨.ignoreC _ _ _ (.inr rfl), h⟩
  | tree t =>
    have ht := Reach.t h
    cases op with
    | focus i =>
      simp only [St.step] at hs
      obtain ⟨oz, h1, hs⟩ := bind_ok.1 hs
      cases oz with
      | none =>
        simp [pure, Except.pure] at hs
        obtain ⟨rfl, rfl⟩ := hs
        exact ⟨.nofocus .., h⟩
      | some z =>
        simp [pure, Except.pure] at hs
        obtain ⟨rfl, rfl⟩ := hs
        refine ⟨?_, .focus h h1⟩
        obtain ⟨-, h2, -⟩ := focus_ok ht.inv.wf h1
        have : t.elems = z.leftElems.reverse ++ z.rightElems := by
          simp only [RazTree.elems, ← h2, Raz.leftElems, Raz.rightElems, elemsOf_append, elemsOf_reverse]
        exact .focus _ _ _ _ this
    | focusLeft =>
      obtain ⟨z, h1, -, h3, h4⟩ := focusLeft_ok ht.inv.wf
      simp only [St.step, h1, bind, Except.bind, pure, Except.pure, Except.ok.injEq, Prod.mk.injEq] at hs
      obtain ⟨rfl, rfl⟩ := hs
      refine ⟨?_, .focusLeft h h1⟩
      simp only [St.read, Raz.leftElems, Raz.rightElems, h3, h4]
      exact .focusLeft ..
    | _ =>
      simp only [St.step, Except.ok.injEq, Prod.mk.injEq] at hs
      obtain ⟨rfl, rfl⟩ := hs
      exact ⟨.ignoreT _ _ (by simp), h⟩

/-- **C01.** Every history of calls returns what the plain pair of lists returns. -/
theorem C01_zipper_histories [LawfulMeta E M] (ops : List (ApiOp E (RazMeta.Index E M))) {s s' : St E M}
    {outs : List (Out E)} (h : s.Reachable .full) (hl : ∀ op ∈ ops, op.LevelOK)
    (hr : s.run ops = .ok (s', outs)) : LRun s.read ops outs s'.read ∧ s'.Reachable .full := by
  induction ops generalizing s outs with
  | nil =>
    simp only [St.run, Except.ok.injEq, Prod.mk.injEq] at hr
    obtain ⟨rfl, rfl⟩ := hr
    exact ⟨.nil _, h⟩
  | cons op ops ih =>
    simp only [St.run] at hr
    obtain ⟨⟨s1, o⟩, h1, hr⟩ := bind_ok.1 hr
    obtain ⟨⟨s2, os⟩, h2, hr⟩ := bind_ok.1 hr
    simp only [pure, Except.pure, Except.ok.injEq, Prod.mk.injEq] at hr
    obtain ⟨rfl, rfl⟩ := hr
    obtain ⟨a, b⟩ := C01_step h (hl op (by simp)) h1
    obtain ⟨c, d⟩ := ih b (fun op ho => hl op (List.mem_cons_of_mem _ ho)) h2
    exact ⟨.cons a c, d⟩

/-- **C01, termination without panic**: a history without `focus` always runs to its end. -/
theorem C01_histories_run [LawfulMeta E M] (ops : List (ApiOp E (RazMeta.Index E M))) {s : St E M}
    (h : s.Reachable .full) (hl : ∀ op ∈ ops, op.LevelOK) (hf : ∀ op ∈ ops, ∀ i, op ≠ .focus i) :
    ∃ s' outs, s.run ops = .ok (s', outs) := by
  have key : ∀ (s : St E M) (op : ApiOp E (RazMeta.Index E M)), s.Reachable .full → op.LevelOK → (∀ i, op ≠ .focus i) →
      ∃ s' o, s.step op = .ok (s', o) := by
    intro s op h hl hf
    cases s with
    | cursor z =>
      have hz := Reach.z h
      cases op with
      | popL => obtain ⟨z', h1, -⟩ := popLeft_ok hz.inv; exact ⟨_, _, by simp only [St.step, h1]; rfl⟩
      | popR => obtain ⟨z', h1, -⟩ := popRight_ok hz.inv; exact ⟨_, _, by simp only [St.step, h1]; rfl⟩
      | peekL => exact ⟨_, _, by simp only [St.step, peekLeft_ok hz.inv]; rfl⟩
      | peekR => exact ⟨_, _, by simp only [St.step, peekRight_ok hz.inv]; rfl⟩
      | unfocus => obtain ⟨z', h1, -⟩ := unfocus_inv hz.inv; exact ⟨_, _, by simp only [St.step, h1]; rfl⟩
      | _ => exact ⟨_, _, rfl⟩
    | tree t =>
      have ht := Reach.t h
      cases op with
      | focus i => exact absurd rfl (hf i)
      | focusLeft => obtain ⟨z', h1, -⟩ := focusLeft_ok ht.inv.wf; exact ⟨_, _, by simp only [St.step, h1]; rfl⟩
      | _ => exact ⟨_, _, rfl⟩
  induction ops generalizing s with
  | nil => exact ⟨_, _, rfl⟩
  | cons op ops ih =>
    obtain ⟨s1, o, h1⟩ := key s op h (hl op (by simp)) (hf op (by simp))
    have h2 := (C01_step h (hl op (by simp)) h1).2
    obtain ⟨s2, os, h3⟩ := ih h2 (fun op ho => hl op (List.mem_cons_of_mem _ ho)) (fun op ho => hf op (List.mem_cons_of_mem _ ho))
    exact ⟨s2, o :: os, by simp only [St.run, h1, h3, bind, Except.bind]; rfl⟩

/-- A history with most kinds of calls. -/
def exOps : List (ApiOp Nat (RazMeta.Index Nat Count)) :=
  [.popR, .popR, .popR, .popL, .peekL, .archR 1 none, .unfocus, .focusLeft, .popR]

/-- The hypotheses of the two theorems can be met, and the specification then fixes the results. -/
example : ∃ (s' : St Nat Count) (outs : List (Out Nat)), (St.cursor (exCursor Count)).run exOps = .ok (s', outs) ∧
    outs = [.val (some 4), .val (some 5), .val none, .val (some 3), .val (some 2), .unit, .unit, .unit, .val (some 1)] ∧
    s'.read = .cursor [] [2] := by
  have h := exCursor_reach Count .full
  have hl : ∀ op ∈ exOps, op.LevelOK := by simp [exOps, ApiOp.LevelOK]
  obtain ⟨s', outs, h1⟩ := C01_histories_run exOps h hl (by simp [exOps])
  have h2 := (C01_zipper_histories _ h hl h1).1
  have h0 : (St.cursor (exCursor Count)).read = .cursor [3, 2, 1] [4, 5] := rfl
  rw [h0] at h2
  refine ⟨s', outs, h1, ?_⟩
  unfold exOps at h2
  generalize s'.read = x at *
  obtain _ | ⟨a, h2⟩ := h2
  cases a
  case ignoreC h => simp at h
  obtain _ | ⟨a, h2⟩ := h2
  cases a
  case ignoreC h => simp at h
  obtain _ | ⟨a, h2⟩ := h2
  cases a
  case ignoreC h => simp at h
  obtain _ | ⟨a, h2⟩ := h2
  cases a
  case ignoreC h => simp at h
  obtain _ | ⟨a, h2⟩ := h2
  cases a
  case ignoreC h => simp at h
  obtain _ | ⟨a, h2⟩ := h2
  cases a
  case ignoreC h => simp at h
  obtain _ | ⟨a, h2⟩ := h2
  cases a
  case ignoreC h => simp at h
  obtain _ | ⟨a, h2⟩ := h2
  cases a
  case ignoreT h => simp at h
  obtain _ | ⟨a, h2⟩ := h2
  cases a
  case ignoreC h => simp at h
  cases h2
  simp

/-- **C01, pop and peek agree**; `pop` returns `None` only when the whole side is empty. -/
theorem C01_pop_peek {z : Raz E M} (h : z.Reachable .full) :
    (∃ z' o, z.popLeft = .ok (z', o) ∧ z.peekLeft = .ok o ∧ o = z.leftElems.head? ∧ (o = none ↔ z.leftElems = [])) ∧
    (∃ z' o, z.popRight = .ok (z', o) ∧ z.peekRight = .ok o ∧ o = z.rightElems.head? ∧ (o = none ↔ z.rightElems = [])) := by
  have hz := Reach.z h
  have ht := hz.tidy rfl
  constructor
  · obtain ⟨z', h1, -⟩ := popLeft_ok hz.inv
    have e := (popSide_elems ht.1).1
    exact ⟨z', _, h1, peekLeft_ok hz.inv, e, by rw [e]; exact List.head?_eq_none_iff⟩
  · obtain ⟨z', h1, -⟩ := popRight_ok hz.inv
    have e := (popSide_elems ht.2).1
    exact ⟨z', _, h1, peekRight_ok hz.inv, e, by rw [e]; exact List.head?_eq_none_iff⟩

example : ∃ z : Raz Nat Names, z.Reachable .full ∧ z.leftElems = [3, 2, 1] := ⟨exCursor Names, exCursor_reach _ _, rfl⟩

/-- **C01, reported count**: `push` reports the number of elements since the last archive point on its side. -/
theorem C01_push_count {z : Raz E M} (h : z.Reachable .any) (e : E) :
    (z.pushLeft e).2 = (((z.pushLeft e).1.left).takeWhile (fun i => !i.isMark)).length ∧
    (z.pushRight e).2 = (((z.pushRight e).1.right).takeWhile (fun i => !i.isMark)).length := by
  let HeadMark (l : List (Item E)) : Prop := ∀ i, l.head? = some i → i.isMark = true
  have cv : ∀ l : List (Item E), MarkHead l → HeadMark l := by
    rintro l (rfl | ⟨lev, nm, r, rfl⟩) i hi
    · simp at hi
    · simp at hi; rw [← hi]; rfl
  have key : ∀ (v : List E) (rest : List (Item E)), HeadMark rest →
      ((v.map Item.elem ++ rest).takeWhile (fun i => !i.isMark)).length = v.length := by
    intro v rest hr
    induction v with
    | nil =>
      cases rest with
      | nil => rfl
      | cons i rest => have := hr i rfl; simp [this]
    | cons e v ih => simp [Item.isMark, -List.length_map] at ih ⊢; exact ih
  have hm : ∀ (arch : Stack (Nat × List E)) (rest : List (Item E)), HeadMark rest →
      HeadMark (AStack.side (⟨[], arch⟩ : AStack E Nat) ++ rest) := by
    intro arch rest hr
    cases arch with
    | nil => exact hr
    | cons p arch =>
      obtain ⟨nm, lev, v⟩ := p
      rw [side_arch]
      intro i hi
      simp at hi
      rw [← hi]; rfl
  constructor
  · obtain ⟨lf, ⟨cur, arch⟩, rs, rf⟩ := z
    simp only [Raz.pushLeft, Raz.left, AStack.push, AStack.activeLen]
    rw [side_mk, List.append_assoc, key _ _ (hm _ _ (cv _ (leftSide_markHead _)))]
    simp
  · obtain ⟨lf, ls, ⟨cur, arch⟩, rf⟩ := z
    simp only [Raz.pushRight, Raz.right, AStack.push, AStack.activeLen]
    rw [side_mk, List.append_assoc, key _ _ (hm _ _ (cv _ (rightSide_markHead _)))]
    simp

example : ((exCursor Unit).pushLeft 9).2 = 2 := rfl

/-- **C02.** `unfocus` succeeds and keeps every element in order, for every reachable cursor. -/
theorem C02_unfocus_elements {z : Raz E M} (h : z.Reachable .any) :
    ∃ t, z.unfocus = .ok t ∧ t.elems = z.leftElems.reverse ++ z.rightElems := by
  obtain ⟨t, h1, -, h3⟩ := unfocus_inv (Reach.z h).inv
  exact ⟨t, h1, by simp only [RazTree.elems, h3, elemsOf_settle, glue_elems, Raz.leftElems, Raz.rightElems]⟩

example : ∃ t, (exCursor Count).unfocus = .ok t ∧ t.elems = [1, 2, 3, 4, 5] :=
  C02_unfocus_elements (exCursor_reach Count .any)

omit [RazMeta E M] in
/-- **C23.** Archiving adds one archive point directly after an unarchived element, and does nothing else.
Holds for every level, including 0. -/
theorem C23_archive {z : Raz E M} (lev : Nat) (nm : Option Name) :
    ((z.archiveLeft lev nm).leftElems = z.leftElems ∧ (z.archiveLeft lev nm).rightElems = z.rightElems) ∧
    ((z.archiveRight lev nm).leftElems = z.leftElems ∧ (z.archiveRight lev nm).rightElems = z.rightElems) ∧
    ((z.archiveLeft lev nm).right = z.right ∧ (z.archiveRight lev nm).left = z.left) ∧
    ((∃ e r, z.left = .elem e :: r ∧ (z.archiveLeft lev nm).left = .pend lev nm :: z.left) ∨
      ((∀ e r, z.left ≠ .elem e :: r) ∧ (z.archiveLeft lev nm).left = z.left)) ∧
    ((∃ e r, z.right = .elem e :: r ∧ (z.archiveRight lev nm).right = .pend lev nm :: z.right) ∨
      ((∀ e r, z.right ≠ .elem e :: r) ∧ (z.archiveRight lev nm).right = z.right)) := by
  have hl : (z.archiveLeft lev nm).left = archiveSide lev nm z.left := side_archive _ _ _ _ (leftSide_markHead _)
  have hr : (z.archiveRight lev nm).right = archiveSide lev nm z.right := side_archive _ _ _ _ (rightSide_markHead _)
  have key : ∀ s : List (Item E), (∃ e r, s = .elem e :: r ∧ archiveSide lev nm s = .pend lev nm :: s) ∨
      ((∀ e r, s ≠ .elem e :: r) ∧ archiveSide lev nm s = s) := by
    intro s
    match s with
    | [] => exact .inr ⟨by simp, rfl⟩
    | .elem e :: r => exact .inl ⟨e, r, rfl, rfl⟩
    | .mark .. :: r => exact .inr ⟨by simp, rfl⟩
    | .pend .. :: r => exact .inr ⟨by simp, rfl⟩
  refine ⟨⟨?_, rfl⟩, ⟨rfl, ?_⟩, ⟨rfl, rfl⟩, ?_, ?_⟩
  · simp only [Raz.leftElems, hl, archiveSide_elems]
  · simp only [Raz.rightElems, hr, archiveSide_elems]
  · rw [hl]; exact key _
  · rw [hr]; exact key _

example : ((exCursor Unit).archiveLeft 0 (some (.str "c"))).left =
    [.pend 0 (some (.str "c")), .elem 3, .pend 2 (some (.str "a")), .elem 2, .elem 1] := rfl

/-- **C24.** The archive points after `unfocus` are those on the left and those on the right; exactly one
adjacent archive point is dropped if the cursor is not next to any element. (`settle` only adds the name suffix of
src/raz.rs:444 to the archive points made since the last `focus`.) -/
theorem C24_archive_points {z : Raz E M} (h : z.Reachable .any) :
    ∃ t, z.unfocus = .ok t ∧
      (((∃ e, z.left.head? = some (.elem e)) ∨ (∃ e, z.right.head? = some (.elem e))) →
        t.items = (z.left.reverse ++ z.right).map Item.settle) ∧
      (z.left = [] → z.right = [] → t.items = []) ∧
      ((∀ e, z.left.head? ≠ some (.elem e)) → (∀ e, z.right.head? ≠ some (.elem e)) → ¬ (z.left = [] ∧ z.right = []) →
        (∃ m l, z.left = m :: l ∧ m.isMark = true ∧ t.items = (l.reverse ++ z.right).map Item.settle) ∨
        (∃ m r, z.right = m :: r ∧ m.isMark = true ∧ t.items = (z.left.reverse ++ r).map Item.settle)) := by
  obtain ⟨t, h1, -, h3⟩ := unfocus_inv (Reach.z h).inv
  refine ⟨t, h1, ?_, ?_, ?_⟩
  · rw [h3]
    rintro (⟨e, he⟩ | ⟨e, he⟩)
    · cases hl : z.left with
      | nil => simp [hl] at he
      | cons i l =>
        simp [hl] at he
        subst he
        cases z.right <;> simp [glue, Item.isMark]
    · cases hr : z.right with
      | nil => simp [hr] at he
      | cons i r =>
        simp [hr] at he
        subst he
        cases z.left <;> simp [glue, Item.isMark]
  · intro a b
    rw [h3, a, b]; rfl
  · rw [h3]
    intro a b c
    have mk : ∀ {i : Item E}, (∀ e, i ≠ .elem e) → i.isMark = true := by
      intro i hi
      rcases isMark_or_elem i with h | ⟨e, rfl⟩
      · exact h
      · exact absurd rfl (hi e)
    cases hl : z.left with
    | nil =>
      cases hr : z.right with
      | nil => exact absurd ⟨hl, hr⟩ c
      | cons i r =>
        have hi : i.isMark = true := mk (fun e he => b e (by rw [hr, he]; rfl))
        exact .inr ⟨i, r, rfl, hi, by simp [glue, hi]⟩
    | cons i l =>
      have hi : i.isMark = true := mk (fun e he => a e (by rw [hl, he]; rfl))
      cases hr : z.right with
      | nil => exact .inl ⟨i, l, rfl, hi, by simp [glue, hi]⟩
      | cons j r =>
        have hj : j.isMark = true := mk (fun e he => b e (by rw [hr, he]; rfl))
        cases i with
        | elem => simp [Item.isMark] at hi
        | mark a b =>
          cases j with
          | elem => simp [Item.isMark] at hj
          | mark => exact .inl ⟨_, l, rfl, hi, by simp [glue, Item.isMark]⟩
          | pend => exact .inr ⟨_, r, rfl, hj, by simp [glue, Item.isMark]⟩
        | pend a b => exact .inl ⟨_, l, rfl, hi, by simp [glue, hj, hi]⟩

/-- Both cases occur: a cursor between elements, and one whose left neighbour is a fresh archive point at the
end of the sequence. -/
example : ∃ t, (exCursor Count).unfocus = .ok t ∧ t.items =
    [.elem 1, .elem 2, .mark 2 (some (.pair (.str "a") (.str "tree"))), .elem 3, .elem 4, .mark 1 none, .elem 5] := by
  obtain ⟨t, h1, h2, -⟩ := C24_archive_points (exCursor_reach Count .any)
  exact ⟨t, h1, h2 (.inl ⟨3, rfl⟩)⟩
example : ∃ z : Raz Nat Count, z.Reachable .any ∧ z.left = [.pend 3 none, .elem 1] ∧ z.right = [] ∧
    ∃ t, z.unfocus = .ok t ∧ t.items = [.elem 1] := by
  have h : ((Raz.new.pushLeft 1).1.archiveLeft 3 none : Raz Nat Count).Reachable .any := .archL _ (by decide) (.pushL _ .new)
  refine ⟨_, h, rfl, rfl, ?_⟩
  obtain ⟨t, h1, -, -, h4⟩ := C24_archive_points h
  refine ⟨t, h1, ?_⟩
  rcases h4 (by intro e; simp [Raz.left, Raz.new, Raz.pushLeft, Raz.archiveLeft, AStack.archive, AStack.side, RazTree.emptyRaz, AStack.push, AStack.new, Stack.push])
    (by intro e; simp [Raz.right, Raz.new, Raz.pushLeft, Raz.archiveLeft, RazTree.emptyRaz, AStack.side, AStack.new, Cursor.rightSide, Cursor.new]) (by decide) with ⟨m, l, a, b, c⟩ | ⟨m, l, a, b, c⟩
  · rw [c]
    have : l = [.elem 1] := by
      have a' : [Item.pend 3 none, .elem 1] = m :: l := a
      simp at a'; exact a'.2.symm
    subst this; rfl
  · have a' : ([] : List (Item Nat)) = m :: l := a
    simp at a'

/-- **C24, pop**: a pop removes an archive point only if it is directly at the cursor, and then exactly that one. If
the item behind it is an element, that is removed too and is the result, and otherwise the result is `None`. -/
theorem C24_pop {z : Raz E M} (h : z.Reachable .any) :
    (∃ z' o, z.popLeft = .ok (z', o) ∧ z'.right = z.right ∧ (z.left = [] → o = none ∧ z'.left = []) ∧
      (∀ e r, z.left = .elem e :: r → o = some e ∧ z'.left = r) ∧
      (∀ m r, z.left = m :: r → m.isMark = true →
        (∃ e, o = some e ∧ r = .elem e :: z'.left) ∨ (o = none ∧ z'.left = r ∧ ∀ e r', r ≠ .elem e :: r'))) ∧
    (∃ z' o, z.popRight = .ok (z', o) ∧ z'.left = z.left ∧ (z.right = [] → o = none ∧ z'.right = []) ∧
      (∀ e r, z.right = .elem e :: r → o = some e ∧ z'.right = r) ∧
      (∀ m r, z.right = m :: r → m.isMark = true →
        (∃ e, o = some e ∧ r = .elem e :: z'.right) ∨ (o = none ∧ z'.right = r ∧ ∀ e r', r ≠ .elem e :: r'))) := by
  have hz := Reach.z h
  have key : ∀ (s : List (Item E)) m r, s = m :: r → m.isMark = true →
      (∃ e, (popSide s).1 = some e ∧ r = .elem e :: (popSide s).2) ∨
        ((popSide s).1 = none ∧ (popSide s).2 = r ∧ ∀ e r', r ≠ .elem e :: r') := by
    rintro s m r rfl hm
    cases m with
    | elem => simp [Item.isMark] at hm
    | mark => rcases r with _ | ⟨_ | _ | _, r⟩ <;> simp [popSide]
    | pend => rcases r with _ | ⟨_ | _ | _, r⟩ <;> simp [popSide]
  constructor
  · obtain ⟨z', h1, -, h3, h4⟩ := popLeft_ok hz.inv
    refine ⟨z', _, h1, h4, fun h => by rw [h3, h]; exact ⟨rfl, rfl⟩, fun e r h => by rw [h3, h]; exact ⟨rfl, rfl⟩, fun m r h hm => ?_⟩
    rw [h3]; exact key _ m r h hm
  · obtain ⟨z', h1, -, h3, h4⟩ := popRight_ok hz.inv
    refine ⟨z', _, h1, h4, fun h => by rw [h3, h]; exact ⟨rfl, rfl⟩, fun e r h => by rw [h3, h]; exact ⟨rfl, rfl⟩, fun m r h hm => ?_⟩
    rw [h3]; exact key _ m r h hm

/-- In trees from editing a pop at an archive point always gives the element behind it. -/
theorem C24_pop_edited {z : Raz E M} (h : z.Reachable .full) :
    (∃ z' o, z.popLeft = .ok (z', o) ∧ ∀ m r, z.left = m :: r → m.isMark = true → ∃ e, o = some e ∧ r = .elem e :: z'.left) ∧
    (∃ z' o, z.popRight = .ok (z', o) ∧ ∀ m r, z.right = m :: r → m.isMark = true → ∃ e, o = some e ∧ r = .elem e :: z'.right) := by
  obtain ⟨⟨z1, o1, a1, -, -, -, a2⟩, z2, o2, b1, -, -, -, b2⟩ := C24_pop (Reach.any h)
  have ht := (Reach.z h).tidy rfl
  refine ⟨⟨z1, o1, a1, fun m r hl hm => ?_⟩, z2, o2, b1, fun m r hr hm => ?_⟩
  · rcases a2 m r hl hm with h' | ⟨-, -, h'⟩
    · exact h'
    · have := ht.1
      rw [hl, tidy_cons_mark hm] at this
      obtain ⟨⟨e, r', rfl⟩, -⟩ := this
      exact absurd rfl (h' e r')
  · rcases b2 m r hr hm with h' | ⟨-, -, h'⟩
    · exact h'
    · have := ht.2
      rw [hr, tidy_cons_mark hm] at this
      obtain ⟨⟨e, r', rfl⟩, -⟩ := this
      exact absurd rfl (h' e r')

example : ∃ z : Raz Nat Count, z.Reachable .full ∧ ∃ r, z.left = .pend 3 none :: r :=
  ⟨(Raz.new.pushLeft 1).1.archiveLeft 3 none, .archL _ (by decide) (.pushL _ .new), [.elem 1], rfl⟩

end Iodyn
