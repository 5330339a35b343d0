import Verif.Props.EditAgain
import Verif.Props.IncrLr
/-
The nodes that a fold from the left visits after an edit.
-/
namespace Iodyn.Incr
open Iodyn.Heap
variable {E M D X : Type}

/-- All nodes, each with the name that it gets from the left. -/
def subsFrom : Option Name → Tree D → List (Option Name × Tree D)
  | _, .nil => []
  | c, .node lv n d l r => (c, .node lv n d l r) :: (subsFrom c l ++ subsFrom n r)

/-- Named nodes, except those of `S`, are in the old tree with all that is below, and get the same name from the left. -/
def SharedFrom (S : List Name) (c : Option Name) (v v' : Tree D) : Prop :=
  ∀ s lv n d l r, (s, .node lv (some n) d l r) ∈ subsFrom c v' → n ∉ S → (s, Tree.node lv (some n) d l r) ∈ subsFrom c v

theorem SharedFrom.trans {S S' : List Name} {c : Option Name} {v v' v'' : Tree D} (h : SharedFrom S c v v') (h' : SharedFrom S' c v' v'') :
    SharedFrom (S ++ S') c v v'' := by
  intro s lv n d l r hw hn
  exact h s lv n d l r (h' s lv n d l r hw (fun hx => hn (List.mem_append_right _ hx))) (fun hx => hn (List.mem_append_left _ hx))

theorem subsFrom_subs {w : Tree D} : ∀ {v : Tree D} {c : Option Name}, w ∈ subs v ↔ ∃ s, (s, w) ∈ subsFrom c v
  | .nil, c => by simp [subs, subsFrom]
  | .node lv n d l r, c => by
    simp only [subs, subsFrom, List.mem_cons, List.mem_append, Prod.mk.injEq, subsFrom_subs (v := l) (c := c), subsFrom_subs (v := r) (c := n)]
    constructor
    · rintro (h | ⟨s, h⟩ | ⟨s, h⟩)
      · exact ⟨c, .inl ⟨rfl, h⟩⟩
      · exact ⟨s, .inr (.inl h)⟩
      · exact ⟨s, .inr (.inr h)⟩
    · rintro ⟨s, h | h | h⟩
      · exact .inl h.2
      · exact .inr (.inl ⟨s, h⟩)
      · exact .inr (.inr ⟨s, h⟩)

theorem branch_pointsFrom {lv : Nat} {n : Option Name} {d : D} {l r : Tree D} {s : Option Name} : ∀ {v : Tree D} {c : Option Name},
    (s, .node lv n d l r) ∈ subsFrom c v → pointFrom (n.map .forkL) s l ++ pointFrom (n.map .forkR) n r ⊆ pointsFrom c v
  | .nil, c, h => by simp [subsFrom] at h
  | .node lv' n' d' l' r', c, h => by
    simp only [subsFrom, List.mem_cons, List.mem_append] at h
    rcases h with h | h | h
    · cases h
      intro x hx
      simp only [pointsFrom, List.mem_append] at hx ⊢
      tauto
    · intro x hx
      have := branch_pointsFrom h hx
      simp only [pointsFrom, List.mem_append]
      tauto
    · intro x hx
      have := branch_pointsFrom h hx
      simp only [pointsFrom, List.mem_append]
      tauto

theorem costFrom_top [DecidableEq D] {S : List Name} {c : Option Name} {v : Tree D} : ∀ {v' : Tree D} {c' : Option Name},
    (∀ s lv n d l r, (s, .node lv (some n) d l r) ∈ subsFrom c' v' → n ∉ S → (s, Tree.node lv (some n) d l r) ∈ subsFrom c v) →
    costFrom (pointsFrom c v) c' v' ≤ topCost S v'
  | .nil, _, _ => by simp [costFrom, topCost]
  | .node lv n d l r, c', h => by
    have hl := costFrom_top (v' := l) (c' := c') (fun s lv n d l r hw => h s lv n d l r (by simp [subsFrom, hw]))
    have hr := costFrom_top (v' := r) (c' := n) (fun s lv n d l r hw => h s lv n d l r (by simp [subsFrom, hw]))
    have le : costFrom (pointsFrom c v) c' (.node lv n d l r) ≤ 1 + costFrom (pointsFrom c v) c' l + costFrom (pointsFrom c v) n r := by
      simp only [costFrom]; split <;> split <;> omega
    cases n with
    | none => simp only [topCost]; omega
    | some n =>
      simp only [topCost]
      split
      · omega
      · next hns =>
        have hp := branch_pointsFrom (h c' lv n d l r (by simp [subsFrom]) hns)
        have one : ∀ {m : Name} {s : Option Name} {t : Tree D}, pointFrom (some m) s t ⊆ pointsFrom c v →
            (if (pointFrom (some m) s t).any (· ∈ pointsFrom c v) then 0 else costFrom (pointsFrom c v) s t) = 0 := by
          intro m s t hs
          cases t with
          | nil => simp [pointFrom, costFrom]
          | node => simp only [pointFrom] at hs ⊢; simp [hs List.mem_cons_self]
        simp only [costFrom, Option.map_some]
        rw [one (List.Subset.trans (List.subset_append_left _ _) hp), one (List.Subset.trans (List.subset_append_right _ _) hp)]

/-! ### Names from left to right -/

/-- The names of the nodes, from left to right. -/
def inNames : Tree D → List Name
  | .nil => []
  | .node _ n _ l r => inNames l ++ n.toList ++ inNames r

theorem inNames_plain : ∀ v : Tree (Tr × D), inNames (plain v) = inNames v
  | .nil => rfl
  | .node lv n (h, d) l r => by simp only [plain, inNames, inNames_plain l, inNames_plain r]

theorem inNames_count (x : Name) : ∀ t : Tree D, (inNames t).count x = (nodeNames t).count x
  | .nil => rfl
  | .node lv n d l r => by
    simp only [inNames, nodeNames, List.count_append, inNames_count x l, inNames_count x r]
    omega

theorem inNames_nodup {t : Tree D} (h : (nodeNames t).Nodup) : (inNames t).Nodup :=
  count_nodup fun x => by rw [inNames_count]; exact nodup_count h x

theorem inNames_sub {w : Tree D} : ∀ {t : Tree D}, w ∈ subs t → inNames w ⊆ inNames t
  | .nil, h => by simp [subs] at h
  | .node lv n d l r, h => by
    simp only [subs, List.mem_cons, List.mem_append] at h
    rcases h with rfl | h | h
    · exact List.Subset.refl _
    · intro x hx
      simp [inNames, inNames_sub h hx]
    · intro x hx
      simp [inNames, inNames_sub h hx]

/-- All nodes with branches have names. -/
def AllNamed (v : Tree D) : Prop := ∀ lv d l r, .node lv none d l r ∈ subs v → l = .nil ∧ r = .nil

/-- The name from the left is the last one before the node. -/
theorem start_of {s : Option Name} {w : Tree D} : ∀ {v : Tree D} {c : Option Name}, AllNamed v → (s, w) ∈ subsFrom c v →
    ∃ P Q, inNames v = P ++ inNames w ++ Q ∧ s = (c.toList ++ P).getLast?
  | .nil, c, _, h => by simp [subsFrom] at h
  | .node lv n d l r, c, ha, h => by
    simp only [subsFrom, List.mem_cons, List.mem_append] at h
    rcases h with h | h | h
    · cases h
      exact ⟨[], [], by simp, by cases s <;> simp⟩
    · obtain ⟨P, Q, h1, h2⟩ := start_of (fun lv d l r hw => ha lv d l r (by simp [subs, hw])) h
      exact ⟨P, Q ++ n.toList ++ inNames r, by simp [inNames, h1], h2⟩
    · obtain ⟨P, Q, h1, h2⟩ := start_of (fun lv d l r hw => ha lv d l r (by simp [subs, hw])) h
      cases n with
      | none =>
        have := (ha lv d l r (by simp [subs])).2
        subst this
        simp [subsFrom] at h
      | some n =>
        refine ⟨inNames l ++ [n] ++ P, Q, by simp [inNames, h1], ?_⟩
        obtain ⟨x, hx⟩ := Option.isSome_iff_exists.1 (show ([n] ++ P).getLast?.isSome = true by simp)
        rw [h2, show c.toList ++ (inNames l ++ [n] ++ P) = (c.toList ++ inNames l) ++ ([n] ++ P) by simp,
          List.getLast?_append (l := c.toList ++ inNames l), show (some n).toList = [n] from rfl, hx]
        rfl

theorem split_unique {h : Name} : ∀ {a b c d : List Name}, (a ++ h :: b).Nodup → a ++ h :: b = c ++ h :: d → a = c
  | [], b, [], d, _, _ => rfl
  | [], b, x :: c, d, hn, e => by
    simp only [List.nil_append, List.cons_append, List.cons.injEq] at e
    obtain ⟨rfl, rfl⟩ := e
    simp at hn
  | x :: a, b, [], d, hn, e => by
    simp only [List.nil_append, List.cons_append, List.cons.injEq] at e
    obtain ⟨rfl, rfl⟩ := e
    simp at hn
  | x :: a, b, y :: c, d, hn, e => by
    simp only [List.cons_append, List.cons.injEq] at e
    obtain ⟨rfl, e⟩ := e
    rw [split_unique (List.Nodup.of_cons hn) e]

/-- The name before a part of a list stays the same if something is put in elsewhere. -/
theorem before_same {A Y B P P' W Q Q' : List Name} {h : Name} (hn : (A ++ Y ++ B).Nodup) (e : A ++ B = P ++ h :: (W ++ Q))
    (e' : A ++ Y ++ B = P' ++ h :: (W ++ Q')) (hb : B.head? ≠ some h) (c : List Name) : (c ++ P).getLast? = (c ++ P').getLast? := by
  have hn0 : (A ++ B).Nodup := count_nodup fun x => by
    have := nodup_count hn x
    simp only [List.count_append] at this ⊢
    omega
  have hm : h ∈ A ++ B := by rw [e]; simp
  rcases List.mem_append.1 hm with hm | hm
  · obtain ⟨A1, A2, rfl⟩ := List.append_of_mem hm
    have p1 := split_unique (a := A1) (b := A2 ++ B) (c := P) (by simpa using hn0) (by simpa using e)
    have p2 := split_unique (a := A1) (b := A2 ++ Y ++ B) (c := P') (by simpa using hn) (by simpa using e')
    rw [← p1, ← p2]
  · obtain ⟨B1, B2, rfl⟩ := List.append_of_mem hm
    have p1 := split_unique (a := A ++ B1) (b := B2) (c := P) (by simpa using hn0) (by simpa using e)
    have p2 := split_unique (a := A ++ Y ++ B1) (b := B2) (c := P') (by simpa using hn) (by simpa using e')
    rw [← p1, ← p2]
    cases B1 with
    | nil => simp at hb
    | cons b B1 =>
      obtain ⟨x, hx⟩ := Option.isSome_iff_exists.1 (show (b :: B1).getLast?.isSome = true by simp)
      rw [← List.append_assoc, ← List.append_assoc, List.getLast?_append, List.getLast?_append (l := c ++ (A ++ Y)), hx]
      rfl

/-- The names of the nodes above and at the one with name `b`. -/
def trail (b : Name) : Tree D → List Name
  | .nil => []
  | .node lv n d l r => if b ∈ inNames (.node lv n d l r) then n.toList ++ trail b l ++ trail b r else []

theorem trail_none {b : Name} {t : Tree D} (h : b ∉ inNames t) : trail b t = [] := by
  cases t with
  | nil => rfl
  | node => simp only [trail, h, if_false]

theorem mem_trail {b n : Name} {lv : Nat} {d : D} {l r : Tree D} : ∀ {t : Tree D}, .node lv (some n) d l r ∈ subs t → b ∈ inNames (.node lv (some n) d l r) →
    n ∈ trail b t
  | .nil, h, _ => by simp [subs] at h
  | .node lv' n' d' l' r', h, hb => by
    have hb' := inNames_sub h hb
    simp only [trail, hb', if_true]
    simp only [subs, List.mem_cons, List.mem_append] at h
    rcases h with h | h | h
    · cases h; simp
    · have := mem_trail h hb
      simp [this]
    · have := mem_trail h hb
      simp [this]

theorem trail_length [RazMeta E M] {b : Name} {t : Tree (TreeData E M)} (ht : WF t) (hn : (inNames t).Nodup) : (trail b t).length ≤ t.depth := by
  induction ht with
  | leaf v => simp [trail, inNames, Tree.depth]
  | @branch lv nm l r h1 wl wr ihl ihr =>
    simp only [inNames] at hn
    have hc := nodup_count hn b
    have nl := ihl (count_nodup fun x => by have := nodup_count hn x; simp only [List.count_append] at this; omega)
    have nr := ihr (count_nodup fun x => by have := nodup_count hn x; simp only [List.count_append] at this; omega)
    have hd : Tree.depth (.node lv nm (.branch (metaOf lv nm l) (metaOf lv nm r)) l r : Tree (TreeData E M)) = 1 + max l.depth r.depth := by
      cases wl <;> rfl
    rw [hd]
    have hl : nm.toList.length ≤ 1 := by cases nm <;> simp
    simp only [trail]
    split
    · simp only [List.length_append]
      by_cases hbl : b ∈ inNames l
      · have : b ∉ inNames r := by
          intro hbr
          have h1 := List.count_pos_iff.2 hbl
          have h2 := List.count_pos_iff.2 hbr
          simp only [List.count_append] at hc
          omega
        rw [trail_none this]
        simp only [List.length_nil]
        omega
      · rw [trail_none hbl]
        simp only [List.length_nil]
        omega
    · simp

/-! ### Local edits put names in at one place -/

/-- The names of the archive points of a tree in a sequence. -/
def titles (l : List (Item E)) : List Name :=
  l.flatMap fun
    | .mark _ n => n.toList
    | _ => []

theorem titles_elems (v : List E) : titles (v.map Item.elem) = [] := by
  induction v with
  | nil => rfl
  | cons e v ih => simp [titles]

theorem titles_append (a b : List (Item E)) : titles (a ++ b) = titles a ++ titles b := by simp [titles]

theorem titles_items [RazMeta E M] {t : Tree (TreeData E M)} (h : WF t) : titles t.items = inNames t := by
  induction h with
  | leaf v => simp only [Tree.items, titles_elems, inNames]; rfl
  | branch h1 _ _ ihl ihr =>
    have e : ∀ (lv : Nat) (nm : Option Name) (l : List (Item E)), titles (.mark lv nm :: l) = nm.toList ++ titles l := fun _ _ _ => rfl
    simp only [Tree.items, titles_append, e, ihl, ihr, inNames, List.append_assoc]

/-- If something new is next to the cursor then gluing drops nothing of the old sides. -/
theorem glue_parts {sl sr L R : List (Item E)} (hs : sl ≠ [] ∨ sr ≠ []) (hl : ∀ i ∈ sl, ∀ lev nm, i ≠ .mark lev nm) (hr : ∀ i ∈ sr, ∀ lev nm, i ≠ .mark lev nm)
    (hL : ∀ i ∈ L, ∀ lev nm, i ≠ .pend lev nm) : ∃ Y, glue (sl ++ L) (sr ++ R) = L.reverse ++ Y ++ R := by
  rcases sl with _ | ⟨a, sl⟩
  · rcases sr with _ | ⟨b, sr⟩
    · simp at hs
    · rcases L with _ | ⟨x, L⟩
      · simp only [List.nil_append, List.cons_append, glue]
        split
        · exact ⟨sr, by simp⟩
        · exact ⟨b :: sr, by simp⟩
      · cases x with
        | pend lev nm => exact absurd rfl (hL _ List.mem_cons_self lev nm)
        | elem e => exact ⟨b :: sr, by simp [glue, Item.isMark]⟩
        | mark lev nm =>
          cases b with
          | elem e => exact ⟨.elem e :: sr, by simp [glue, Item.isMark]⟩
          | mark lev nm => exact absurd rfl (hr _ List.mem_cons_self lev nm)
          | pend lev' nm' => exact ⟨sr, by simp [glue, Item.isMark]⟩
  · have ha := hl a List.mem_cons_self
    rcases hR : sr ++ R with _ | ⟨y, R'⟩
    · obtain ⟨rfl, rfl⟩ := List.append_eq_nil_iff.1 hR
      simp only [List.cons_append, glue]
      split
      · exact ⟨sl.reverse, by simp⟩
      · exact ⟨(a :: sl).reverse, by simp⟩
    · simp only [List.cons_append, glue]
      have e : ∀ Z : List (Item E), Z ++ y :: R' = Z ++ sr ++ R := fun Z => by rw [List.append_assoc, hR]
      split
      · split
        · exact absurd rfl (ha _ _)
        · exact ⟨sl.reverse ++ sr, by rw [e]; simp⟩
      · exact ⟨(a :: sl).reverse ++ sr, by rw [e]; simp⟩

theorem side_noMark {s : AStack E Nat} {i : Item E} (h : i ∈ s.side) : ∀ lev nm, i ≠ .mark lev nm := by
  simp only [AStack.side, List.mem_append, List.mem_map, List.mem_flatMap, List.mem_cons] at h
  rintro lev nm rfl
  rcases h with ⟨e, -, h⟩ | ⟨p, -, h | ⟨e, -, h⟩⟩ <;> cases h

theorem leftSide_noPend {l : List (Bool × TNode (TreeData E M))} {i : Item E} (h : i ∈ Cursor.leftSide l) : ∀ lev nm, i ≠ .pend lev nm := by
  rintro lev nm rfl
  have := leftSide_settle h
  cases this

theorem side_titles {s : AStack E Nat} (h : s.archived = []) : titles s.side = [] ∧ titles s.side.reverse = [] := by
  simp only [AStack.side, h, List.flatMap_nil, List.append_nil]
  refine ⟨titles_elems _, ?_⟩
  rw [← List.map_reverse]
  exact titles_elems _

theorem settle_same {l : List (Item E)} (h : ∀ i ∈ l, i.settle = i) : l.map Item.settle = l := by
  induction l with
  | nil => rfl
  | cons i l ih =>
    rw [List.map_cons, h i List.mem_cons_self, ih (fun i hi => h i (List.mem_cons_of_mem _ hi))]

section
variable [RazMeta E M]

theorem lops_invs : ∀ {l : List (LOp E)} {z0 z z' : Raz E M} {N : List Name} {k : Nat}, LInvs z0 z N k → z.Local l → z.lops l = .ok z' →
    (∃ N' k', LInvs z0 z' N' k') ∧ (z'.lStack.isEmpty = false ∨ z'.rStack.isEmpty = false)
  | [], z0, z, z', N, k, h, hl, ho => by
    cases ho
    exact ⟨⟨N, k, h⟩, hl.imp Iodyn.Near.left Iodyn.Near.right⟩
  | op :: l, z0, z, z', N, k, h, hl, ho => by
    obtain ⟨z1, h1, ho⟩ := bind_ok.1 ho
    exact lops_invs (h.lop hl.1 h1) (hl.2 z1 h1) ho

/-- An edit puts names in at one place. -/
theorem edit_inNames [LawfulMeta E M] {t t' : RazTree E M} (hi : TInv t) (hc : Canon t.tree) (hf : t.tree ≠ .nil) {i : RazMeta.Index E M} {ops : List (LOp E)}
    (hl : ∀ z, t.focus i = .ok (some z) → z.Local ops) (he : t.edit i ops = .ok t') (hf' : t'.tree ≠ .nil) :
    ∃ A Y B, inNames t.tree = A ++ B ∧ inNames t'.tree = A ++ Y ++ B := by
  obtain ⟨o, e1, he⟩ := bind_ok.1 he
  obtain ⟨z, e2, he⟩ := bind_ok.1 he
  obtain ⟨z', e3, e4⟩ := bind_ok.1 he
  cases o with
  | none => cases e2
  | some z0 =>
    cases e2
    obtain ⟨k1, k2, -⟩ := focus_ok hi.wf e1
    have k3 := focus_canon hc e1
    obtain ⟨-, p5, p6⟩ := focus_path e1
    have inv : LInvs z z [] 0 := ⟨k1, k3, rfl, rfl, fun x => by simp [aN, p5, p6, sN, pN], by simp [stackPoints, p5, p6, pN]⟩
    obtain ⟨⟨N, k, inv'⟩, hne⟩ := lops_invs inv (hl z e1) e3
    obtain ⟨t2, u1, u2, u3⟩ := unfocus_inv inv'.inv
    rw [e4] at u1
    cases u1
    obtain ⟨Y, hY⟩ := glue_parts (sl := z'.lStack.side) (sr := z'.rStack.side) (L := Cursor.leftSide z.lForest.lForest) (R := Cursor.rightSide z.rForest.rForest)
      (by
        rcases hne with h | h
        · left
          intro hh
          have := side_elem inv'.inv.ls h
          rw [hh] at this
          exact this rfl
        · right
          intro hh
          have := side_elem inv'.inv.rs h
          rw [hh] at this
          exact this rfl) (fun i hi => side_noMark hi) (fun i hi => side_noMark hi) (fun i hi => leftSide_noPend hi)
    refine ⟨titles (Cursor.leftSide z.lForest.lForest).reverse, titles (Y.map Item.settle), titles (Cursor.rightSide z.rForest.rForest), ?_, ?_⟩
    · rw [← titles_items (hi.wf.resolve_left hf), show t.tree.items = _ from k2.symm]
      simp only [Raz.left, Raz.right, List.reverse_append, titles_append, (side_titles p5).2, (side_titles p6).1, List.append_nil, List.nil_append]
    · rw [← titles_items (u2.wf.resolve_left hf'), show t'.tree.items = _ from u3]
      simp only [Raz.left, Raz.right, inv'.lf, inv'.rf, hY, List.map_append, titles_append]
      rw [settle_same (l := (Cursor.leftSide z.lForest.lForest).reverse) (fun i hi => leftSide_settle (List.mem_reverse.1 hi)),
        settle_same (l := Cursor.rightSide z.rForest.rForest) (fun i hi => rightSide_settle hi)]

theorem allNamed_tree {t : Tree (TreeData E M)} (hw : WF t) (h : ∀ i ∈ t.items, Titled i) : AllNamed t := by
  induction hw with
  | leaf v =>
    intro lv d l r hs
    simp only [subs, List.append_nil, List.mem_singleton] at hs
    cases hs
    exact ⟨rfl, rfl⟩
  | @branch lv nm l r _ _ _ ihl ihr =>
    simp only [Tree.items, List.mem_append, List.mem_cons] at h
    have h1 := ihl (fun i hi => h i (.inl hi))
    have h2 := ihr (fun i hi => h i (.inr (.inr hi)))
    have h3 := h _ (.inr (.inl rfl))
    intro lv d l r hs
    simp only [subs, List.mem_cons, List.mem_append] at hs
    rcases hs with hs | hs | hs
    · cases hs
      cases h3
    · exact h1 lv d l r hs
    · exact h2 lv d l r hs

omit [RazMeta E M] in
theorem plain_mem {w : Tree (Tr × D)} : ∀ {v : Tree (Tr × D)}, w ∈ subs v → plain w ∈ subs (plain v)
  | .nil, h => by simp [subs] at h
  | .node lv n (hd, d) l r, h => by
    simp only [subs, List.mem_cons, List.mem_append] at h
    simp only [plain, subs, List.mem_cons, List.mem_append]
    rcases h with rfl | h | h
    · exact .inl rfl
    · exact .inr (.inl (plain_mem h))
    · exact .inr (.inr (plain_mem h))

theorem allNamed_view {t : RazTree E M} (h : TreeTitled t) (hf : t.tree ≠ .nil) {v : Tree (Tr × TreeData E M)} (hp : plain v = t.tree) : AllNamed v := by
  have ht := allNamed_tree (h.inv.wf.resolve_left hf) h.items
  rintro lv ⟨hd, d⟩ l r hs
  have := plain_mem hs
  rw [hp] at this
  obtain ⟨h1, h2⟩ := ht lv d (plain l) (plain r) this
  constructor
  · cases l with
    | nil => rfl
    | node lv n d l r => obtain ⟨hd, d⟩ := d; cases h1
  · cases r with
    | nil => rfl
    | node lv n d l r => obtain ⟨hd, d⟩ := d; cases h2

/-- An edit leaves the rest of the tree as it is, also with the names from the left, except above the first name after the place of the edit. -/
theorem edited_from [LawfulMeta E M] {t t' : RazTree E M} {i : RazMeta.Index E M} {ops : List (LOp E)} {k : Nat} {S : List Name} {σ σ' : RMem E M} (h : Edited t t' ops k S σ σ')
    {ht ht' : HTree M} (hr : RepRT .dcg σ ht t) (hr' : RepRT .dcg σ' ht' t') {v v' : Tree (Tr × TreeData E M)}
    (hv : View σ ht.tree v) (hp : plain v = t.tree) (hv' : View σ' ht'.tree v') (hp' : plain v' = t'.tree) (hT : TreeTitled t) (hT' : TreeTitled t')
    (hc : Canon t.tree) (hf : t.tree ≠ .nil) (hl : ∀ z, t.focus i = .ok (some z) → z.Local ops) (he : t.edit i ops = .ok t')
    (hn : (nodeNames t.tree).Nodup) (hn' : (nodeNames t'.tree).Nodup) (c : Option Name) :
    ∃ S', S'.length ≤ t.tree.depth ∧ SharedFrom (S ++ S') c v v' := by
  obtain ⟨A, Y, B, hA, hA'⟩ := edit_inNames hT.inv hc hf hl he h.full
  have hsh := edited_shared h hr hr' hv hp hv' hp'
  have main : ∀ S' : List Name, (∀ b, B.head? = some b → trail b t.tree ⊆ S') → SharedFrom (S ++ S') c v v' := by
    intro S' hS' s lv n d l r hw hns
    have hw1 := hsh lv n d l r (subsFrom_subs.2 ⟨s, hw⟩) (fun hx => hns (List.mem_append_left _ hx))
    obtain ⟨s0, hw0⟩ := (subsFrom_subs (c := c)).1 hw1
    obtain ⟨P, Q, a1, a2⟩ := start_of (allNamed_view hT hf hp) hw0
    obtain ⟨P', Q', b1, b2⟩ := start_of (allNamed_view hT' h.full hp') hw
    rw [← inNames_plain, hp, hA] at a1
    rw [← inNames_plain, hp', hA'] at b1
    have hnn : n ∈ inNames (.node lv (some n) d l r) := by simp [inNames]
    have htr : ∀ b, b ∈ inNames (.node lv (some n) d l r) → n ∈ trail b t.tree := by
      intro b hb
      have := plain_mem hw1
      rw [hp] at this
      obtain ⟨hd, d⟩ := d
      exact mem_trail this (by rw [← inNames_plain] at hb; exact hb)
    generalize inNames (.node lv (some n) d l r) = W at a1 b1 hnn htr
    rcases W with _ | ⟨x, W⟩
    · cases hnn
    · have hb : B.head? ≠ some x := fun hx => hns (List.mem_append_right _ (hS' x hx (htr x List.mem_cons_self)))
      have e := before_same (W := W) (P := P) (P' := P') (by rw [← hA']; exact inNames_nodup hn') (by simpa using a1) (by simpa using b1) hb c.toList
      rw [a2, e, ← b2] at hw0
      exact hw0
  cases hB : B.head? with
  | none => exact ⟨[], Nat.zero_le _, main [] (fun b hb => by rw [hB] at hb; cases hb)⟩
  | some b =>
    refine ⟨trail b t.tree, trail_length (hT.inv.wf.resolve_left hf) (inNames_nodup hn), main _ (fun b' hb => ?_)⟩
    rw [hB] at hb
    cases hb
    exact List.Subset.refl _

end
end Iodyn.Incr
