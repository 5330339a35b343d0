import Verif.Props.OpenWork
/-
The nodes that `tokenize` visits after an edit.
-/
namespace Iodyn.Incr
open Iodyn.Heap
variable {D O M : Type}

/-- All nodes, each with the name and the value that are carried to it. -/
def subsWith (adv : D → O → O) : Option Name × O → Tree D → List ((Option Name × O) × Tree D)
  | _, .nil => []
  | c, .node lv n d l r => (c, .node lv n d l r) :: (subsWith adv c l ++ subsWith adv (n, carried adv c.2 l) r)

/-- Named nodes, except those of `S`, are in the old tree with all that is below, and the same is carried to them. -/
def SharedWith (adv : D → O → O) (S : List Name) (c : Option Name × O) (v v' : Tree D) : Prop :=
  ∀ s lv n d l r, (s, .node lv (some n) d l r) ∈ subsWith adv c v' → n ∉ S → (s, Tree.node lv (some n) d l r) ∈ subsWith adv c v

theorem SharedWith.trans {adv : D → O → O} {S S' : List Name} {c : Option Name × O} {v v' v'' : Tree D} (h : SharedWith adv S c v v')
    (h' : SharedWith adv S' c v' v'') : SharedWith adv (S ++ S') c v v'' := by
  intro s lv n d l r hw hn
  exact h s lv n d l r (h' s lv n d l r hw (fun hx => hn (List.mem_append_right _ hx))) (fun hx => hn (List.mem_append_left _ hx))

theorem subsWith_from {adv : D → O → O} {s : Option Name} {w : Tree D} : ∀ {v : Tree D} {c : Option Name × O},
    (s, w) ∈ subsFrom c.1 v ↔ ∃ o, ((s, o), w) ∈ subsWith adv c v
  | .nil, c => by simp [subsFrom, subsWith]
  | .node lv n d l r, c => by
    have hl := subsWith_from (adv := adv) (s := s) (w := w) (v := l) (c := c)
    have hr := subsWith_from (adv := adv) (s := s) (w := w) (v := r) (c := (n, carried adv c.2 l))
    simp only [subsFrom, subsWith, List.mem_cons, List.mem_append, Prod.mk.injEq]
    constructor
    · rintro (⟨h1, h2⟩ | h | h)
      · exact ⟨c.2, .inl ⟨by rw [h1], h2⟩⟩
      · obtain ⟨o, h⟩ := hl.1 h
        exact ⟨o, .inr (.inl h)⟩
      · obtain ⟨o, h⟩ := hr.1 h
        exact ⟨o, .inr (.inr h)⟩
    · rintro ⟨o, h | h | h⟩
      · exact .inl ⟨by rw [← h.1], h.2⟩
      · exact .inr (.inl (hl.2 ⟨o, h⟩))
      · exact .inr (.inr (hr.2 ⟨o, h⟩))

theorem branch_pointsWith {adv : D → O → O} {lv : Nat} {n : Option Name} {d : D} {l r : Tree D} {s : Option Name × O} : ∀ {v : Tree D} {c : Option Name × O},
    (s, .node lv n d l r) ∈ subsWith adv c v →
    pointWith (n.map .forkL) s l ++ pointWith (n.map .forkR) (n, carried adv s.2 l) r ⊆ pointsWith adv c v
  | .nil, c, h => by simp [subsWith] at h
  | .node lv' n' d' l' r', c, h => by
    simp only [subsWith, List.mem_cons, List.mem_append] at h
    rcases h with h | h | h
    · cases h
      intro x hx
      simp only [pointsWith, List.mem_append] at hx ⊢
      tauto
    · intro x hx
      have := branch_pointsWith h hx
      simp only [pointsWith, List.mem_append]
      tauto
    · intro x hx
      have := branch_pointsWith h hx
      simp only [pointsWith, List.mem_append]
      tauto

theorem costWith_top [DecidableEq D] [DecidableEq O] {adv : D → O → O} {S : List Name} {c : Option Name × O} {v : Tree D} : ∀ {v' : Tree D} {c' : Option Name × O},
    (∀ s lv n d l r, (s, .node lv (some n) d l r) ∈ subsWith adv c' v' → n ∉ S → (s, Tree.node lv (some n) d l r) ∈ subsWith adv c v) →
    costWith adv (pointsWith adv c v) c' v' ≤ topCost S v'
  | .nil, _, _ => by simp [costWith, topCost]
  | .node lv n d l r, c', h => by
    have hl := costWith_top (v' := l) (c' := c') (fun s lv n d l r hw => h s lv n d l r (by simp [subsWith, hw]))
    have hr := costWith_top (v' := r) (c' := (n, carried adv c'.2 l)) (fun s lv n d l r hw => h s lv n d l r (by simp [subsWith, hw]))
    have le : costWith adv (pointsWith adv c v) c' (.node lv n d l r) ≤
        1 + costWith adv (pointsWith adv c v) c' l + costWith adv (pointsWith adv c v) (n, carried adv c'.2 l) r := by
      simp only [costWith]; split <;> split <;> omega
    cases n with
    | none => simp only [topCost]; omega
    | some n =>
      simp only [topCost]
      split
      · omega
      · next hns =>
        have hp := branch_pointsWith (h c' lv n d l r (by simp [subsWith]) hns)
        have one : ∀ {m : Name} {s : Option Name × O} {t : Tree D}, pointWith (some m) s t ⊆ pointsWith adv c v →
            (if (pointWith (some m) s t).any (· ∈ pointsWith adv c v) then 0 else costWith adv (pointsWith adv c v) s t) = 0 := by
          intro m s t hs
          cases t with
          | nil => simp [pointWith, costWith]
          | node => simp only [pointWith] at hs ⊢; simp [hs List.mem_cons_self]
        simp only [costWith, Option.map_some]
        rw [one (List.Subset.trans (List.subset_append_left _ _) hp), one (List.Subset.trans (List.subset_append_right _ _) hp)]

/-! ### The text before an archive point -/

/-- The elements before the archive point with this name. -/
def textTo {E : Type} (m : Name) : List (Item E) → List E
  | [] => []
  | .elem e :: l => e :: textTo m l
  | .mark _ n :: l => if n = some m then [] else textTo m l
  | .pend _ _ :: l => textTo m l

theorem textTo_left {E : Type} {m : Name} : ∀ {a b : List (Item E)}, m ∈ titles a → textTo m (a ++ b) = textTo m a
  | [], b, h => by cases h
  | .elem e :: a, b, h => by
    simp only [List.cons_append, textTo]
    rw [textTo_left (a := a) (by simpa [titles] using h)]
  | .mark lv n :: a, b, h => by
    simp only [List.cons_append, textTo]
    split
    · rfl
    · next hn =>
      refine textTo_left (a := a) ?_
      have : titles (.mark lv n :: a) = n.toList ++ titles a := rfl
      rw [this] at h
      rcases List.mem_append.1 h with h | h
      · cases n with
        | none => cases h
        | some n => simp only [Option.toList, List.mem_singleton] at h; exact absurd (by rw [h]) hn
      · exact h
  | .pend lv n :: a, b, h => by
    simp only [List.cons_append, textTo]
    rw [textTo_left (a := a) (by simpa [titles] using h)]

theorem textTo_right {E : Type} {m : Name} : ∀ {a b : List (Item E)}, m ∉ titles a → textTo m (a ++ b) = elemsOf a ++ textTo m b
  | [], b, h => rfl
  | .elem e :: a, b, h => by
    have e1 : elemsOf (.elem e :: a) = e :: elemsOf a := rfl
    rw [List.cons_append, textTo, textTo_right (a := a) (by simpa [titles] using h), e1]
    rfl
  | .mark lv n :: a, b, h => by
    have e1 : elemsOf (.mark lv n :: a) = elemsOf a := rfl
    have e2 : titles (.mark lv n :: a) = n.toList ++ titles a := rfl
    rw [e2, List.mem_append, not_or] at h
    rw [List.cons_append, textTo, e1, if_neg, textTo_right (a := a) h.2]
    rintro rfl
    exact h.1 (by simp)
  | .pend lv n :: a, b, h => by
    have e1 : elemsOf (.pend lv n :: a) = elemsOf a := rfl
    rw [List.cons_append, textTo, textTo_right (a := a) (by simpa [titles] using h), e1]

theorem openAfter_append (o : Option Nat) (a b : List Char) : openAfter o (a ++ b) = openAfter (openAfter o a) b := by
  simp [openAfter]

theorem wf_some [RazMeta Char M] {t : Tree (TreeData Char M)} (h : WF t) : t.isSome = true := by cases h <;> rfl

theorem carried_items [RazMeta Char M] {t : Tree (TreeData Char M)} (h : WF t) (o : Option Nat) : carried openNode o t = openAfter o (elemsOf t.items) := by
  induction h generalizing o with
  | leaf v =>
    have : elemsOf (v.map Item.elem) = v := by
      induction v with
      | nil => rfl
      | cons e v ih => exact congrArg (e :: ·) ih
    simp only [carried, Tree.isSome, Bool.or_self, Bool.false_eq_true, if_false, openNode, Tree.items, this]
  | @branch lv nm l r _ hl _ ihl ihr =>
    have : elemsOf (l.items ++ .mark lv nm :: r.items) = elemsOf l.items ++ elemsOf r.items := by
      simp only [elemsOf, List.filterMap_append]; rfl
    simp only [carried, wf_some hl, Bool.true_or, if_true, Tree.items, this, openAfter_append, ihl, ihr]

/-- The name and the open number that are carried to a node. -/
theorem open_of [RazMeta Char M] {t : Tree (TreeData Char M)} (h : WF t) : ∀ {c s : Option Name} {o o' : Option Nat} {w : Tree (TreeData Char M)}, (∀ i ∈ t.items, Titled i) →
    (inNames t).Nodup → ((s, o'), w) ∈ subsWith openNode (c, o) t →
    (s = c ∧ o' = o) ∨ ∃ m, s = some m ∧ m ∈ inNames t ∧ o' = openAfter o (textTo m t.items) := by
  induction h with
  | leaf v =>
    intro c s o o' w _ _ h
    simp only [subsWith, List.append_nil, List.mem_singleton] at h
    cases h
    exact .inl ⟨rfl, rfl⟩
  | @branch lv nm l r _ hl hr ihl ihr =>
    intro c s o o' w ht hn h
    simp only [Tree.items, List.mem_append, List.mem_cons] at ht
    have ht3 := ht _ (.inr (.inl rfl))
    cases nm with
    | none => cases ht3
    | some n =>
      have hc := nodup_count hn
      simp only [inNames, List.count_append] at hc
      have nl : (inNames l).Nodup := count_nodup fun x => by have := hc x; omega
      have nr : (inNames r).Nodup := count_nodup fun x => by have := hc x; omega
      have tl := titles_items hl
      have tr := titles_items hr
      have ei : ∀ b1 b2, Tree.items (.node lv (some n) (.branch b1 b2) l r : Tree (TreeData Char M)) = l.items ++ .mark lv (some n) :: r.items := fun _ _ => rfl
      simp only [subsWith, List.mem_cons, List.mem_append] at h
      rcases h with h | h | h
      · cases h; exact .inl ⟨rfl, rfl⟩
      · rcases ihl (fun i hi => ht i (.inl hi)) nl h with h | ⟨m, h1, h2, h3⟩
        · exact .inl h
        · exact .inr ⟨m, h1, by simp [inNames, h2], by rw [h3, ei, textTo_left (by rw [tl]; exact h2)]⟩
      · have hnl : n ∉ titles l.items := by
          rw [tl]
          intro hx
          have h1 := List.count_pos_iff.2 hx
          have := hc n
          simp only [Option.toList, List.count_singleton_self] at this
          omega
        rcases ihr (fun i hi => ht i (.inr (.inr hi))) nr h with ⟨h1, h2⟩ | ⟨m, h1, h2, h3⟩
        · refine .inr ⟨n, h1, by simp [inNames], ?_⟩
          rw [h2, ei, textTo_right hnl, carried_items hl]
          simp [textTo]
        · refine .inr ⟨m, h1, by simp [inNames, h2], ?_⟩
          have h2' := List.count_pos_iff.2 h2
          have hml : m ∉ titles l.items := by
            rw [tl]
            intro hx
            have h1 := List.count_pos_iff.2 hx
            have := hc m
            omega
          have hmn : ¬ some n = some m := by
            rintro he
            cases he
            have := hc n
            simp only [Option.toList, List.count_singleton_self] at this
            omega
          rw [h3, ei, textTo_right hml, carried_items hl, openAfter_append, textTo, if_neg hmn]

/-! ### Numbers end in each part -/

/-- In each part of a sequence some number ends; in the first one only if not `b`. -/
def Sep : Bool → List (Item Char) → Prop
  | b, [] => b = true
  | b, .elem c :: l => Sep (b || (digitOf c).isNone) l
  | b, _ :: l => b = true ∧ Sep false l

theorem Sep.mono : ∀ {l : List (Item Char)} {b : Bool}, Sep b l → Sep true l
  | [], b, _ => rfl
  | .elem c :: l, b, h => by
    simp only [Sep, Bool.true_or] at h ⊢
    exact Sep.mono (l := l) h
  | .mark _ _ :: l, b, h => ⟨rfl, h.2⟩
  | .pend _ _ :: l, b, h => ⟨rfl, h.2⟩

theorem Sep.suffix : ∀ {a l : List (Item Char)} {b : Bool}, Sep b (a ++ l) → Sep true l
  | [], l, b, h => h.mono
  | .elem c :: a, l, b, h => Sep.suffix (a := a) (show Sep _ (a ++ l) from h)
  | .mark _ _ :: a, l, b, h => Sep.suffix (a := a) (show Sep _ (a ++ l) from h.2)
  | .pend _ _ :: a, l, b, h => Sep.suffix (a := a) (show Sep _ (a ++ l) from h.2)

theorem Sep.join {lv : Nat} {n : Option Name} : ∀ {a l : List (Item Char)} {b : Bool}, Sep b a → Sep false l → Sep b (a ++ .mark lv n :: l)
  | [], l, b, h, h' => ⟨h, h'⟩
  | .elem c :: a, l, b, h, h' => Sep.join (a := a) (show Sep (b || (digitOf c).isNone) a from h) h'
  | .mark _ _ :: a, l, b, h, h' => ⟨h.1, Sep.join (a := a) h.2 h'⟩
  | .pend _ _ :: a, l, b, h, h' => ⟨h.1, Sep.join (a := a) h.2 h'⟩

theorem sep_text : ∀ {text : List Char}, (∃ c ∈ text, digitOf c = none) → Sep false (text.map .elem) := by
  have h1 : ∀ text : List Char, Sep true (text.map .elem) := by
    intro text
    induction text with
    | nil => rfl
    | cons c text ih => exact ih
  intro text
  induction text with
  | nil => rintro ⟨c, hc, -⟩; cases hc
  | cons c text ih =>
    intro h
    simp only [List.map_cons, Sep, Bool.false_or]
    cases hd : digitOf c with
    | none => exact h1 text
    | some k =>
      obtain ⟨c', hc', hd'⟩ := h
      rcases List.mem_cons.1 hc' with rfl | hc'
      · rw [hd] at hd'; cases hd'
      · exact ih ⟨c', hc', hd'⟩

theorem separated_sep [RazMeta Char M] {t : Tree (TreeData Char M)} (h : WF t) : Separated t → Sep false t.items := by
  induction h with
  | leaf v =>
    rintro ⟨h, -⟩
    obtain ⟨text, h1, h2⟩ := h rfl rfl
    cases h1
    exact sep_text h2
  | branch _ _ _ ihl ihr =>
    rintro ⟨-, h1, h2⟩
    exact (ihl h1).join (ihr h2)

theorem sep_first {m : Name} : ∀ {l : List (Item Char)}, Sep false l → m ∈ titles l → ∃ c ∈ textTo m l, digitOf c = none
  | [], _, h => by cases h
  | .elem c :: l, hs, h => by
    simp only [Sep, Bool.false_or] at hs
    cases hd : digitOf c with
    | none => exact ⟨c, by simp [textTo], hd⟩
    | some k =>
      rw [hd] at hs
      obtain ⟨c', h1, h2⟩ := sep_first (l := l) hs (by simpa [titles] using h)
      exact ⟨c', by simp [textTo, h1], h2⟩
  | .mark _ _ :: l, hs, h => by cases hs.1
  | .pend _ _ :: l, hs, h => by cases hs.1

/-- Some number ends before every archive point but the first. -/
theorem sep_later {m : Name} : ∀ {l : List (Item Char)} {b : Name} {B : List Name}, (∀ i ∈ l, Titled i) → Sep true l → titles l = b :: B → m ∈ titles l → m ≠ b →
    ∃ c ∈ textTo m l, digitOf c = none
  | [], b, B, _, _, h, _, _ => by cases h
  | .elem c :: l, b, B, ht, hs, h, hm, hne => by
    simp only [Sep, Bool.true_or] at hs
    obtain ⟨c', h1, h2⟩ := sep_later (l := l) (b := b) (B := B) (fun i hi => ht i (List.mem_cons_of_mem _ hi)) hs (by simpa [titles] using h) (by simpa [titles] using hm) hne
    exact ⟨c', by simp [textTo, h1], h2⟩
  | .mark lv none :: l, b, B, ht, hs, h, hm, hne => by cases ht _ List.mem_cons_self
  | .mark lv (some n) :: l, b, B, ht, hs, h, hm, hne => by
    have e : titles (.mark lv (some n) :: l) = n :: titles l := rfl
    rw [e] at h hm
    cases h
    have hm' : m ∈ titles l := (List.mem_cons.1 hm).resolve_left hne
    obtain ⟨c, h1, h2⟩ := sep_first hs.2 hm'
    refine ⟨c, ?_, h2⟩
    rw [textTo, if_neg (fun he => hne (Option.some.inj he).symm)]
    exact h1
  | .pend lv n :: l, b, B, ht, hs, h, hm, hne => by
    have e : titles (.pend lv n :: l) = titles l := rfl
    rw [e] at h hm
    obtain ⟨c, h1, h2⟩ := sep_first hs.2 hm
    exact ⟨c, h1, h2⟩

/-! ### Edits -/

section
variable {E : Type} [RazMeta E M]

/-- An edit replaces the elements of one part, and what it makes is in their place. -/
theorem edit_items [LawfulMeta E M] {t t' : RazTree E M} (hi : TInv t) (hc : Canon t.tree) {i : RazMeta.Index E M} {ops : List (LOp E)}
    (hl : ∀ z, t.focus i = .ok (some z) → z.Local ops) (he : t.edit i ops = .ok t') :
    ∃ A X Y B, t.items = A ++ X ++ B ∧ t'.items = A ++ Y ++ B ∧ titles X = [] := by
  obtain ⟨o, e1, he⟩ := bind_ok.1 he
  obtain ⟨z, e2, he⟩ := bind_ok.1 he
  obtain ⟨z', e3, e4⟩ := bind_ok.1 he
  cases o with
  | none => cases e2
  | some z0 =>
    cases e2
    obtain ⟨k1, k2, -⟩ := focus_ok hi.wf e1
    have k3 := focus_canon hc e1
    obtain ⟨-, p5, p6⟩ := focus_path e1
    have inv : LInvs z z [] 0 := ⟨k1, k3, rfl, rfl, fun x => by simp [aN, p5, p6, sN, pN], by simp [stackPoints, p5, p6, pN]⟩
    obtain ⟨⟨N, k, inv'⟩, hne⟩ := lops_invs inv (hl z e1) e3
    obtain ⟨t2, u1, u2, u3⟩ := unfocus_inv inv'.inv
    rw [e4] at u1
    cases u1
    obtain ⟨Y, hY⟩ := glue_parts (sl := z'.lStack.side) (sr := z'.rStack.side) (L := Cursor.leftSide z.lForest.lForest) (R := Cursor.rightSide z.rForest.rForest)
      (by
        rcases hne with h | h
        · left
          intro hh
          have := side_elem inv'.inv.ls h
          rw [hh] at this
          exact this rfl
        · right
          intro hh
          have := side_elem inv'.inv.rs h
          rw [hh] at this
          exact this rfl) (fun i hi => side_noMark hi) (fun i hi => side_noMark hi) (fun i hi => leftSide_noPend hi)
    refine ⟨(Cursor.leftSide z.lForest.lForest).reverse, z.lStack.side.reverse ++ z.rStack.side, Y.map Item.settle, Cursor.rightSide z.rForest.rForest, ?_, ?_, ?_⟩
    · rw [k2.symm]
      simp only [Raz.left, Raz.right, List.reverse_append, List.append_assoc]
    · rw [u3]
      simp only [Raz.left, Raz.right, inv'.lf, inv'.rf, hY, List.map_append]
      rw [settle_same (l := (Cursor.leftSide z.lForest.lForest).reverse) (fun i hi => leftSide_settle (List.mem_reverse.1 hi)),
        settle_same (l := Cursor.rightSide z.rForest.rForest) (fun i hi => rightSide_settle hi)]
    · rw [titles_append, (side_titles p5).2, (side_titles p6).1]; rfl
end

theorem subsWith_plain {s : Option Name × Option Nat} {w : Tree (Tr × TreeData Char M)} : ∀ {v : Tree (Tr × TreeData Char M)} {c : Option Name × Option Nat},
    (s, w) ∈ subsWith openAt c v → (s, plain w) ∈ subsWith openNode c (plain v)
  | .nil, c, h => by simp [subsWith] at h
  | .node lv n (hd, d) l r, c, h => by
    simp only [subsWith, List.mem_cons, List.mem_append] at h
    simp only [plain, subsWith, List.mem_cons, List.mem_append]
    rcases h with h | h | h
    · cases h; exact .inl rfl
    · exact .inr (.inl (subsWith_plain h))
    · refine .inr (.inr ?_)
      rw [carried_plain]
      exact subsWith_plain h

/-- An edit leaves the rest of the tree as it is, also with the names and the open numbers from the left, except above the first and the second name after the
place of the edit. -/
theorem edited_with [RazMeta Char M] [LawfulMeta Char M] [DecidableEq M] {t t' : RazTree Char M} {i : RazMeta.Index Char M} {ops : List (LOp Char)} {k : Nat} {S : List Name}
    {σ σ' : RMem Char M} (h : Edited t t' ops k S σ σ')
    {ht ht' : HTree M} (hr : RepRT .dcg σ ht t) (hr' : RepRT .dcg σ' ht' t') {v v' : Tree (Tr × TreeData Char M)}
    (hv : View σ ht.tree v) (hp : plain v = t.tree) (hv' : View σ' ht'.tree v') (hp' : plain v' = t'.tree) (hT : TreeTitled t) (hT' : TreeTitled t')
    (hc : Canon t.tree) (hf : t.tree ≠ .nil) (hl : ∀ z, t.focus i = .ok (some z) → z.Local ops) (he : t.edit i ops = .ok t')
    (hn : (nodeNames t.tree).Nodup) (hn' : (nodeNames t'.tree).Nodup) (hs : Separated t.tree) {c : Name} (hc1 : c ∉ nodeNames t.tree) (hc2 : c ∉ nodeNames t'.tree)
    (o0 : Option Nat) : ∃ S', S'.length ≤ 2 * t.tree.depth ∧ SharedWith openAt (S ++ S') (some c, o0) v v' := by
  obtain ⟨S1, d1, d2⟩ := edited_from h hr hr' hv hp hv' hp' hT hT' hc hf hl he hn hn' (some c)
  obtain ⟨A, X, Y, B, i1, i2, i3⟩ := edit_items hT.inv hc hl he
  have wf := hT.inv.wf.resolve_left hf
  have wf' := hT'.inv.wf.resolve_left h.full
  have hin : ∀ {x : Name} {u : Tree (TreeData Char M)}, x ∈ inNames u → x ∈ nodeNames u := fun {x u} hx => by
    rw [← List.count_pos_iff, ← inNames_count]; exact List.count_pos_iff.2 hx
  have t1 := titles_items wf
  have t2 := titles_items wf'
  have i1' : t.tree.items = A ++ X ++ B := i1
  have i2' : t'.tree.items = A ++ Y ++ B := i2
  have n1 := inNames_nodup hn
  have n2 := inNames_nodup hn'
  have hsep : Sep true B := by
    have := separated_sep wf hs
    rw [i1'] at this
    exact this.suffix
  have hBT : ∀ i ∈ B, Titled i := fun i hi => hT.items i (by rw [i1]; simp [hi])
  have main : ∀ S2 : List Name, (∀ b b2 B', titles B = b :: b2 :: B' → trail b2 t.tree ⊆ S2) → SharedWith openAt (S ++ (S1 ++ S2)) (some c, o0) v v' := by
    rintro S2 hS2 ⟨s, o'⟩ lv n d l r hw hns
    simp only [List.mem_append, not_or] at hns
    have hw1 := d2 s lv n d l r (subsWith_from.2 ⟨o', hw⟩) (by simp only [List.mem_append, not_or]; exact ⟨hns.1, hns.2.1⟩)
    obtain ⟨o, hw0⟩ := (subsWith_from (adv := openAt) (c := (some c, o0))).1 hw1
    have q1 := subsWith_plain hw0
    have q2 := subsWith_plain hw
    rw [hp] at q1
    rw [hp'] at q2
    have key : o = o' := by
      rcases open_of wf hT.items n1 q1 with ⟨a1, a2⟩ | ⟨m, a1, a2, a3⟩
      · rcases open_of wf' hT'.items n2 q2 with ⟨b1, b2⟩ | ⟨m, b1, b2, b3⟩
        · rw [a2, b2]
        · rw [a1] at b1; cases b1; exact absurd (hin b2) hc2
      · rcases open_of wf' hT'.items n2 q2 with ⟨b1, b2⟩ | ⟨m', b1, b2, b3⟩
        · rw [a1] at b1; cases b1; exact absurd (hin a2) hc1
        · rw [a1] at b1
          cases b1
          rw [a3, b3, i1', i2']
          rw [← t1, i1', titles_append, titles_append, i3, List.append_nil] at a2
          by_cases hA : m ∈ titles A
          · rw [List.append_assoc, List.append_assoc, textTo_left hA, textTo_left hA]
          · have hB := (List.mem_append.1 a2).resolve_left hA
            have hAX : m ∉ titles (A ++ X) := by rw [titles_append, i3, List.append_nil]; exact hA
            have hAY : m ∉ titles (A ++ Y) := by
              intro hx
              have h1 := List.count_pos_iff.2 hx
              have h2 := List.count_pos_iff.2 hB
              have := nodup_count n2 m
              rw [← t2, i2', titles_append, List.count_append] at this
              omega
            rw [textTo_right hAX, textTo_right hAY, openAfter_append, openAfter_append]
            cases hTB : titles B with
            | nil => rw [hTB] at hB; cases hB
            | cons b B' =>
              by_cases hmb : m = b
              · exfalso
                subst hmb
                obtain ⟨P, Q, p1, p2⟩ := start_of (allNamed_view hT hf hp) hw1
                rw [← inNames_plain, hp] at p1
                have hne : P ≠ [] := by
                  rintro rfl
                  rw [a1] at p2
                  simp only [Option.toList, List.append_nil, List.getLast?_singleton, Option.some.injEq] at p2
                  subst p2
                  exact hc1 (hin (by rw [← t1, i1', titles_append]; simp [hTB]))
                obtain ⟨P0, m', rfl⟩ : ∃ P0 m', P = P0 ++ [m'] := ⟨P.dropLast, P.getLast hne, (List.dropLast_append_getLast hne).symm⟩
                rw [← List.append_assoc, List.getLast?_concat, a1] at p2
                cases p2
                have e0 : inNames t.tree = titles A ++ m :: B' := by
                  rw [← t1, i1', titles_append, titles_append, i3, List.append_nil, hTB]
                have e1 : titles A = P0 := split_unique (h := m) (b := B') (d := inNames (.node lv (some n) d l r) ++ Q) (by rw [← e0]; exact n1)
                  (by rw [← e0, p1]; simp)
                have e2 : B' = inNames (.node lv (some n) d l r) ++ Q := by
                  have := e0.symm.trans p1
                  rw [e1] at this
                  simpa using this
                have hnn : n ∈ inNames (.node lv (some n) d l r) := by simp [inNames]
                have hmem : ∀ x, x ∈ inNames (.node lv (some n) d l r) → n ∈ trail x t.tree := by
                  intro x hx
                  have := plain_mem ((subsFrom_subs (c := some c)).2 ⟨_, hw1⟩)
                  rw [hp] at this
                  obtain ⟨hd, d⟩ := d
                  exact mem_trail this (by rw [← inNames_plain] at hx; exact hx)
                generalize inNames (.node lv (some n) d l r) = W at e2 hnn hmem
                rcases W with _ | ⟨x, W⟩
                · cases hnn
                · exact hns.2.2 (hS2 m x (W ++ Q) (by rw [hTB, e2]; rfl) (hmem x List.mem_cons_self))
              · exact openAfter_end _ (sep_later hBT hsep hTB hB hmb) _ _
    rw [← key]
    exact hw0
  rcases hB : titles B with _ | ⟨b, _ | ⟨b2, B'⟩⟩
  · exact ⟨S1 ++ [], by simp only [List.append_nil]; omega, main [] (fun b b2 B' hb => by rw [hB] at hb; cases hb)⟩
  · exact ⟨S1 ++ [], by simp only [List.append_nil]; omega, main [] (fun b b2 B' hb => by rw [hB] at hb; cases hb)⟩
  · refine ⟨S1 ++ trail b2 t.tree, ?_, main _ (fun x y B'' hb => ?_)⟩
    · have := trail_length (b := b2) wf n1
      simp only [List.length_append]
      omega
    · rw [hB] at hb
      cases hb
      exact List.Subset.refl _

end Iodyn.Incr
