import Verif.Proof.Stack
import Verif.Spec.Reach
/-
Invariants of all reachable cursors and trees.
-/
namespace Iodyn
variable {E M F N : Type}

/-- Well-formed `RazTree`. -/
structure TInv [RazMeta E M] (t : RazTree E M) : Prop where
  wf : WFo t.tree
  info : t.info = metaOf 0 none t.tree

section
variable [RazMeta E M]

theorem TInv.mk' {t : Tree (TreeData E M)} (h : WFo t) : TInv ({ info := metaOf 0 none t, tree := t } : RazTree E M) := ⟨h, rfl⟩

theorem unfocus_inv {z : Raz E M} (h : ZInv z) :
    ∃ t, z.unfocus = .ok t ∧ TInv t ∧ t.items = (glue z.left z.right).map Item.settle := by
  obtain ⟨t, h1, h2, h3⟩ := unfocus_ok h
  exact ⟨_, h1, .mk' h2, h3⟩

/-- The mapping function of `RazTree::map`, src/raz.rs:295-307. -/
def mapF [RazMeta F N] (f : E → F) : TreeData E M → Nat → Option Name → Tree (TreeData F N) → Tree (TreeData F N) →
    P (TreeData F N) := fun d lev n l r =>
  match d with
  | .leaf v => .ok (.leaf (v.map f))
  | _ => TreeData.rebuild l.peek? .dummy lev n r.peek?

theorem map_wf [RazMeta F N] (f : E → F) {t : Tree (TreeData E M)} (h : WF t) :
    ∃ t' : Tree (TreeData F N), t.map (mapF f) = .ok t' ∧ WF t' ∧ t'.items = t.items.map (Item.map f) ∧
      t'.level? = t.level? ∧ (Canon t → Canon t') := by
  induction h with
  | leaf v =>
    refine ⟨leaf (v.map f) none, rfl, WF.leaf _, ?_, rfl, fun _ => canon_leaf _ _⟩
    simp [leaf, Item.map, Function.comp_def]
  | @branch lv nm l r hlv hl hr ihl ihr =>
    obtain ⟨l', l1, l2, l3, l4, l5⟩ := ihl
    obtain ⟨r', r1, r2, r3, r4, r5⟩ := ihr
    refine ⟨.node lv nm (.branch (metaOf lv nm l') (metaOf lv nm r')) l' r', ?_, WF.branch hlv l2 r2, ?_, rfl, ?_⟩
    · have := bin_eq (E := F) l2.peek_ne r2.peek_ne lv nm
      unfold bin at this
      obtain ⟨d, h1, h2⟩ := bind_ok.1 this
      simp only [pure, Except.pure, Except.ok.injEq, Tree.node.injEq, true_and, and_true] at h2
      subst h2
      simp only [Tree.map, l1, r1, bind, Except.bind, mapF, h1, pure, Except.pure]
    · simp [l3, r3, Item.map]
    · intro hc
      obtain ⟨c1, c2, c3, c4⟩ := hc
      exact ⟨by rw [l4]; exact c1, by rw [r4]; exact c2, l5 c3, r5 c4⟩

theorem razMap_ok [RazMeta F N] (f : E → F) {t : RazTree E M} (h : WFo t.tree) :
    ∃ t' : RazTree F N, t.map f = .ok t' ∧ TInv t' ∧ t'.items = t.items.map (Item.map f) ∧
      (Canon t.tree → Canon t'.tree) := by
  obtain ⟨info, tree⟩ := t
  rcases h with h | h
  · simp only at h
    subst h
    refine ⟨{ info := metaOf 0 none .nil, tree := .nil }, ?_, .mk' (.inl rfl), rfl, fun _ => trivial⟩
    have : (RazTree.mk info .nil : RazTree E M).map f = (mkRazTree .nil : P (RazTree F N)) := rfl
    rw [this]
    exact mkRazTree_wf (.inl rfl)
  · obtain ⟨t', h1, h2, h3, h4, h5⟩ := map_wf (N := N) f h
    refine ⟨{ info := metaOf 0 none t', tree := t' }, ?_, .mk' (.inr h2), h3, h5⟩
    unfold RazTree.map
    exact bind_ok.2 ⟨t', h1, mkRazTree_wf (.inr h2)⟩

theorem fromVec_ok {v : List E} (hv : v ≠ []) :
    ∃ t : RazTree E M, RazTree.fromVec v = .ok (some t) ∧ TInv t ∧ t.items = v.map .elem ∧ Canon t.tree := by
  refine ⟨{ info := metaOf 0 none (leaf v none), tree := leaf v none }, ?_, .mk' (.inr (WF.leaf v)), rfl, canon_leaf v none⟩
  unfold RazTree.fromVec
  rw [if_neg hv]
  exact bind_ok.2 ⟨_, mkRazTree_wf (.inr (WF.leaf v)), rfl⟩

theorem razJoin_ok {a b : RazTree E M} (ha : WFo a.tree) (hb : WFo b.tree) {lev : Nat} (hlev : 1 ≤ lev) (nm) :
    (a.tree ≠ .nil ∧ b.tree ≠ .nil → ∃ t, a.join lev nm b = .ok (some t) ∧ TInv t ∧
      t.items = a.items ++ .mark lev nm :: b.items) ∧
    (a.tree = .nil ∨ b.tree = .nil → a.join lev nm b = .ok none) := by
  obtain ⟨ia, ta⟩ := a
  obtain ⟨ib, tb⟩ := b
  simp only at ha hb
  constructor
  · rintro ⟨h1, h2⟩
    have ha := ha.resolve_left h1
    have hb := hb.resolve_left h2
    obtain ⟨t, b1, b2, b3, b4, -⟩ := bin_wf ha hb hlev nm
    refine ⟨{ info := metaOf 0 none t, tree := t }, ?_, .mk' (.inr b2), b4⟩
    have hm := mkRazTree_wf (t := t) (.inr b2)
    cases ta with
    | nil => exact absurd rfl h1
    | node =>
      cases tb with
      | nil => exact absurd rfl ‹_›
      | node => simp only [RazTree.join, b1, hm, bind, Except.bind]; rfl
  · rintro (h | h)
    · simp only at h; subst h; rfl
    · simp only at h; subst h
      cases ta <;> rfl

end

theorem TidySeq.join {a b : List (Item E)} (ha : TidySeq a) (hb : TidySeq b) (ha0 : a ≠ []) (hb0 : b ≠ []) (lev nm) :
    TidySeq (a ++ .mark lev nm :: b) := by
  have key : ∀ {l : List (Item E)}, TidySeq l → l ≠ [] → StartsElem l := by
    intro l hl hne
    cases l with
    | nil => exact absurd rfl hne
    | cons i l =>
      rcases isMark_or_elem i with hi | ⟨e, rfl⟩
      · have := hl.2
        rw [List.reverse_cons] at this
        have := Tidy.of_append this
        rw [tidy_cons_mark hi] at this
        obtain ⟨⟨e, r, h⟩, -⟩ := this
        simp at h
      · exact ⟨e, l, rfl⟩
  have half : ∀ {a b : List (Item E)}, TidySeq a → TidySeq b → a ≠ [] → b ≠ [] → Tidy (a ++ .mark lev nm :: b) := by
    intro a b ha hb ha0 hb0
    have : Tidy (Item.mark lev nm :: b) := ⟨key hb hb0, hb.1⟩
    have h := tidy_rev_append (l := a.reverse) ha.2 this ?_
    · simpa using h
    · intro m l' hl hm
      have : TidySeq a.reverse := ⟨ha.2, by simpa using ha.1⟩
      obtain ⟨e, r, h⟩ := key this (by simpa using ha0)
      rw [h] at hl
      simp at hl
      rw [← hl.1] at hm
      simp [Item.isMark] at hm
  refine ⟨half ha hb ha0 hb0, ?_⟩
  have := half hb.reverse ha.reverse (by simpa using hb0) (by simpa using ha0)
  simpa using this

theorem tidy_map (f : E → F) (l : List (Item E)) : Tidy (l.map (Item.map f)) ↔ Tidy l := by
  induction l with
  | nil => rfl
  | cons i l ih =>
    rcases isMark_or_elem i with hi | ⟨e, rfl⟩
    · have hi' : (Item.map f i).isMark = true := by cases i <;> simp_all [Item.map, Item.isMark]
      rw [List.map_cons, tidy_cons_mark hi', tidy_cons_mark hi, ih]
      constructor
      · rintro ⟨⟨e, r, h⟩, h2⟩
        refine ⟨?_, h2⟩
        cases l with
        | nil => simp at h
        | cons j l =>
          cases j <;> simp [Item.map] at h
          exact ⟨_, _, rfl⟩
      · rintro ⟨⟨e, r, rfl⟩, h2⟩
        exact ⟨⟨f e, r.map (Item.map f), rfl⟩, h2⟩
    · exact ih

theorem TidySeq.map (f : E → F) {l : List (Item E)} (h : TidySeq l) : TidySeq (l.map (Item.map f)) :=
  ⟨(tidy_map f l).2 h.1, by rw [← List.map_reverse]; exact (tidy_map f _).2 h.2⟩

theorem tidySeq_elems (v : List E) : TidySeq (v.map Item.elem) := by
  have : ∀ v : List E, Tidy (v.map Item.elem) := fun v => by
    have := (tidy_elems v []).2 trivial; simpa using this
  exact ⟨this v, by rw [← List.map_reverse]; exact this _⟩

/-- What holds of every reachable cursor. -/
structure ZAll [RazMeta E M] (u : Usage) (z : Raz E M) : Prop where
  inv : ZInv z
  tidy : u.emptyTop = false → Tidy z.left ∧ Tidy z.right
  canon : u.join = false → ZC z
/-- What holds of every reachable tree. -/
structure TAll [RazMeta E M] (u : Usage) (t : RazTree E M) : Prop where
  inv : TInv t
  tidy : u.emptyTop = false → TidySeq t.items ∧ (t.items = [] → t.tree = .nil)
  canon : u.join = false → Canon t.tree

theorem tidy_nil_of_elems {l : List (Item E)} (h : Tidy l) (he : elemsOf l = []) : l = [] := by
  cases l with
  | nil => rfl
  | cons i l =>
    rcases isMark_or_elem i with hi | ⟨e, rfl⟩
    · rw [tidy_cons_mark hi] at h
      obtain ⟨⟨e, r, rfl⟩, -⟩ := h
      rw [elemsOf_cons_mark hi] at he
      simp [elemsOf, Item.elem?] at he
    · simp [elemsOf, Item.elem?] at he

section
variable [RazMeta E M]

theorem unfocus_nil {z : Raz E M} (h : ZInv z) (hl : z.left = []) (hr : z.right = []) :
    z.unfocus = .ok { info := metaOf 0 none (.nil : Tree (TreeData E M)), tree := .nil } := by
  obtain ⟨lf, ls, rs, rf⟩ := z
  obtain ⟨dl, lfl, lt, lfr⟩ := lf
  obtain ⟨dr, rfl', rt, rfr⟩ := rf
  obtain ⟨lc, la⟩ := ls
  obtain ⟨rc, ra⟩ := rs
  have hlf := h.lf.r
  have hrf := h.rf.l
  simp only at hlf hrf
  subst hlf hrf
  simp only [Raz.left, List.append_eq_nil_iff] at hl
  simp only [Raz.right, List.append_eq_nil_iff] at hr
  have e1 : lc = [] ∧ la = [] := by
    have := hl.1
    simp only [AStack.side, List.append_eq_nil_iff, List.map_eq_nil_iff, List.reverse_eq_nil_iff] at this
    refine ⟨this.1, ?_⟩
    cases la with
    | nil => rfl
    | cons => simp at this
  have e2 : rc = [] ∧ ra = [] := by
    have := hr.1
    simp only [AStack.side, List.append_eq_nil_iff, List.map_eq_nil_iff, List.reverse_eq_nil_iff] at this
    refine ⟨this.1, ?_⟩
    cases ra with
    | nil => rfl
    | cons => simp at this
  have e3 : lfl = [] := by
    cases lfl with
    | nil => rfl
    | cons => simp [Cursor.leftSide] at hl
  have e4 : rfr = [] := by
    cases rfr with
    | nil => rfl
    | cons => simp [Cursor.rightSide] at hr
  obtain ⟨rfl, rfl⟩ := e1
  obtain ⟨rfl, rfl⟩ := e2
  subst e3 e4
  have : Raz.unfocus (⟨⟨dl, [], lt, []⟩, ⟨[], []⟩, ⟨[], []⟩, ⟨dr, [], rt, []⟩⟩ : Raz E M) = mkRazTree .nil := rfl
  rw [this]
  exact mkRazTree_wf (.inl rfl)

theorem unfocus_all {u : Usage} {z : Raz E M} {t} (h : ZAll u z) (hu : z.unfocus = .ok t) : TAll u t := by
  obtain ⟨t', h1, h2, h3⟩ := unfocus_inv h.inv
  rw [h1] at hu
  simp at hu
  subst hu
  refine ⟨h2, fun ht => ?_, fun hj => unfocus_canon h.inv (h.canon hj) h1⟩
  obtain ⟨tl, tr⟩ := h.tidy ht
  refine ⟨by rw [h3]; exact (glue_tidy tl tr).settle, fun he => ?_⟩
  rw [h3, List.map_eq_nil_iff] at he
  have := glue_elems z.left z.right
  rw [he] at this
  simp [elemsOf] at this
  have := unfocus_nil h.inv (tidy_nil_of_elems tl (by simpa [elemsOf] using this.1)) (tidy_nil_of_elems tr (by simpa [elemsOf] using this.2))
  rw [h1] at this
  simp at this
  rw [this]

end

/-- What holds of every reachable cursor or tree. -/
def SAll [RazMeta E M] (u : Usage) : St E M → Prop
  | .cursor z => ZAll u z
  | .tree t => TAll u t

theorem Reach.all {u : Usage} {E M : Type} {inst : RazMeta E M} {s : St E M} (h : Reach u E M inst s) :
    SAll u s := by
  induction h with
  | new => exact ⟨ZInv.empty, fun _ => ⟨trivial, trivial⟩, fun _ => ZC.empty⟩
  | pushL e h ih =>
    obtain ⟨a, b, c⟩ := pushLeft_ok ih.inv e
    exact ⟨a, fun h => by rw [b, c]; exact ⟨(ih.tidy h).1, (ih.tidy h).2⟩, fun h => ⟨(ih.canon h).l, (ih.canon h).r⟩⟩
  | pushR e h ih =>
    obtain ⟨a, b, c⟩ := pushRight_ok ih.inv e
    exact ⟨a, fun h => by rw [b, c]; exact ⟨(ih.tidy h).1, (ih.tidy h).2⟩, fun h => ⟨(ih.canon h).l, (ih.canon h).r⟩⟩
  | archL nm hlev h ih =>
    obtain ⟨a, b, c⟩ := archiveLeft_ok ih.inv hlev nm
    exact ⟨a, fun h => by rw [b, c]; exact ⟨archiveSide_tidy (ih.tidy h).1 _ _, (ih.tidy h).2⟩,
      fun h => ⟨(ih.canon h).l, (ih.canon h).r⟩⟩
  | archR nm hlev h ih =>
    obtain ⟨a, b, c⟩ := archiveRight_ok ih.inv hlev nm
    exact ⟨a, fun h => by rw [b, c]; exact ⟨(ih.tidy h).1, archiveSide_tidy (ih.tidy h).2 _ _⟩,
      fun h => ⟨(ih.canon h).l, (ih.canon h).r⟩⟩
  | popL h hp ih =>
    obtain ⟨z', h1, a, b, c⟩ := popLeft_ok ih.inv
    rw [h1] at hp
    simp at hp
    rw [← hp.1]
    exact ⟨a, fun h => by rw [b, c]; exact ⟨popSide_tidy (ih.tidy h).1, (ih.tidy h).2⟩,
      fun h => popLeft_canon ih.inv (ih.canon h) h1⟩
  | popR h hp ih =>
    obtain ⟨z', h1, a, b, c⟩ := popRight_ok ih.inv
    rw [h1] at hp
    simp at hp
    rw [← hp.1]
    exact ⟨a, fun h => by rw [b, c]; exact ⟨(ih.tidy h).1, popSide_tidy (ih.tidy h).2⟩,
      fun h => popRight_canon ih.inv (ih.canon h) h1⟩
  | focus h hf ih =>
    obtain ⟨a, b, -⟩ := focus_ok ih.inv.wf hf
    exact ⟨a, fun h => (ih.tidy h).1.split b, fun h => focus_canon (ih.canon h) hf⟩
  | focusLeft h hf ih =>
    obtain ⟨z', h1, a, b, c⟩ := focusLeft_ok ih.inv.wf
    rw [h1] at hf
    simp at hf
    rw [← hf]
    exact ⟨a, fun h => by rw [b, c]; exact ⟨trivial, (ih.tidy h).1.1⟩, fun h => focusLeft_canon (ih.canon h) h1⟩
  | empty => exact ⟨⟨.inl rfl, rfl⟩, fun _ => ⟨⟨trivial, trivial⟩, fun _ => rfl⟩, fun _ => trivial⟩
  | unfocus h hu ih => exact unfocus_all ih hu
  | @fromVec E M _ v _ h =>
    by_cases hv : v = []
    · simp [RazTree.fromVec, hv] at h
    · obtain ⟨t', h1, h2, h3, h4⟩ := fromVec_ok (M := M) hv
      rw [h1] at h
      simp at h
      subst h
      exact ⟨h2, fun _ => ⟨by rw [h3]; exact tidySeq_elems v, fun h => by rw [h3] at h; simp [hv] at h⟩, fun _ => h4⟩
  | @join _ _ _ a b t lev nm hu ha hb hlev h iha ihb =>
    obtain ⟨j1, j2⟩ := razJoin_ok iha.inv.wf ihb.inv.wf hlev nm
    by_cases hne : a.tree = .nil ∨ b.tree = .nil
    · rw [j2 hne] at h; simp at h
    · simp only [not_or] at hne
      obtain ⟨t', h1, h2, h3⟩ := j1 hne
      rw [h1] at h
      simp at h
      subst h
      refine ⟨h2, fun ht => ?_, fun hj => by rw [hu] at hj; simp at hj⟩
      rw [h3]
      refine ⟨TidySeq.join (iha.tidy ht).1 (ihb.tidy ht).1 (fun h => hne.1 ((iha.tidy ht).2 h)) (fun h => hne.2 ((ihb.tidy ht).2 h)) _ _, by simp⟩
  | @memoTail E M _ s _ hs htop h =>
    obtain ⟨t', h1, h2, h3, h4⟩ := memoFromTail_ok (M := M) hs.inv
    rw [h1] at h
    simp at h
    subst h
    refine ⟨.mk' h2, fun ht => ?_, fun _ => h3⟩
    rw [ht] at htop
    simp only [Bool.false_eq_true, false_or] at htop
    refine ⟨by show TidySeq t'.items; rw [h4]; exact bottomUp_tidy hs.inv htop, fun hn => ?_⟩
    have hn : s.bottomUp = [] := by rw [← h4]; exact hn
    have : s = ⟨[], []⟩ := by
      obtain ⟨cur, arch⟩ := s
      rw [bottomUp_mk] at hn
      simp at hn
      obtain ⟨hn, rfl⟩ := hn
      simp at htop
      rw [htop]
    subst this
    have h0 : memoFromTail (⟨[], []⟩ : AStack E Nat) = (mkRazTree .nil : P (RazTree E M)) := rfl
    rw [h0] at h1
    exact mkRazTree_tree h1
  | @memoHead E M _ s _ hs htop h =>
    obtain ⟨t', h1, h2, h3, h4⟩ := memoFromHead_ok (M := M) hs.inv
    rw [h1] at h
    simp at h
    subst h
    refine ⟨.mk' h2, fun ht => ?_, fun _ => h3⟩
    rw [ht] at htop
    simp only [Bool.false_eq_true, false_or] at htop
    refine ⟨by show TidySeq t'.items; rw [h4]; exact topDown_tidy hs.inv htop, fun hn => ?_⟩
    have hn : s.topDown = [] := by rw [← h4]; exact hn
    have : s = ⟨[], []⟩ := by
      obtain ⟨cur, arch⟩ := s
      rw [topDown_mk] at hn
      simp at hn
      obtain ⟨rfl, hn⟩ := hn
      simp at htop
      rw [htop]
    subst this
    have h0 : memoFromHead (⟨[], []⟩ : AStack E Nat) = (mkRazTree .nil : P (RazTree E M)) := rfl
    rw [h0] at h1
    exact mkRazTree_tree h1
  | @map E' M' E M _ inst' t t' f h hm ih =>
    obtain ⟨t1, h1, h2, h3, h4⟩ := razMap_ok (N := M) f ih.inv.wf
    rw [h1] at hm
    simp at hm
    subst hm
    refine ⟨h2, fun ht => ⟨by rw [h3]; exact (ih.tidy ht).1.map f, fun hn => ?_⟩, fun hj => h4 (ih.canon hj)⟩
    rw [h3, List.map_eq_nil_iff] at hn
    have hn := (ih.tidy ht).2 hn
    have h0 : t.map f = (mkRazTree .nil : P (RazTree E M)) := by
      unfold RazTree.map; rw [hn]; rfl
    rw [h0] at h1
    exact mkRazTree_tree h1
theorem Reach.z {u : Usage} [RazMeta E M] {z : Raz E M} (h : z.Reachable u) : ZAll u z := h.all
theorem Reach.t {u : Usage} [RazMeta E M] {t : RazTree E M} (h : t.Reachable u) : TAll u t := h.all

/-- Fewer calls reach fewer states. -/
theorem Reach.mono {u u' : Usage} (hj : u.join = true → u'.join = true) (he : u.emptyTop = true → u'.emptyTop = true)
    {E M : Type} {inst : RazMeta E M} {s : St E M} (h : Reach u E M inst s) : Reach u' E M inst s := by
  induction h with
  | new => exact .new
  | pushL e _ ih => exact .pushL e ih
  | pushR e _ ih => exact .pushR e ih
  | archL nm h _ ih => exact .archL nm h ih
  | archR nm h _ ih => exact .archR nm h ih
  | popL _ h ih => exact .popL ih h
  | popR _ h ih => exact .popR ih h
  | focus _ h ih => exact .focus ih h
  | focusLeft _ h ih => exact .focusLeft ih h
  | empty => exact .empty
  | unfocus _ h ih => exact .unfocus ih h
  | fromVec h => exact .fromVec h
  | join h _ _ hl h' iha ihb => exact .join (hj h) iha ihb hl h'
  | memoTail hs ht h => exact .memoTail hs (ht.imp_left he) h
  | memoHead hs ht h => exact .memoHead hs (ht.imp_left he) h
  | map f _ h ih => exact .map f ih h

/-- Every state reached is reached by any calls. -/
theorem Reach.any {u : Usage} {E M : Type} {inst : RazMeta E M} {s : St E M} (h : Reach u E M inst s) :
    Reach .any E M inst s := h.mono (fun _ => rfl) (fun _ => rfl)

end Iodyn
