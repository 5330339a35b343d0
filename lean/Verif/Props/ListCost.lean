import Verif.Spec.ListCost
import Verif.Proof.EditFrom
import Verif.Props.HarnessCost
/-
C82 the work of `to_list` between batches of edits and in sessions of the test driver.
-/
namespace Iodyn.Incr
open Iodyn.Heap Iodyn.Eval
variable {E M A B Sp G R D X : Type} [RazMeta E M]

/-! ### No empty parts -/

/-- The sides of a cursor have no empty parts. -/
structure AllTidy (z : Raz E M) : Prop where
  inv : ZInv z
  left : Tidy z.left
  right : Tidy z.right

theorem tidy_lop {z z' : Raz E M} (h : AllTidy z) {op : LOp E} (hs : op.Stays z) (ho : z.lop op = .ok z') : AllTidy z' := by
  cases op with
  | pushL x =>
    cases ho
    obtain ⟨h1, h2, h3⟩ := pushLeft_ok h.inv x
    exact ⟨h1, h2 ▸ h.left, h3 ▸ h.right⟩
  | pushR x =>
    cases ho
    obtain ⟨h1, h2, h3⟩ := pushRight_ok h.inv x
    exact ⟨h1, h3 ▸ h.left, h2 ▸ h.right⟩
  | archL lev nm =>
    cases ho
    obtain ⟨h1, h2, h3⟩ := archiveLeft_ok h.inv hs nm
    exact ⟨h1, h2 ▸ archiveSide_tidy h.left _ _, h3 ▸ h.right⟩
  | archR lev nm =>
    cases ho
    obtain ⟨h1, h2, h3⟩ := archiveRight_ok h.inv hs nm
    exact ⟨h1, h3 ▸ h.left, h2 ▸ archiveSide_tidy h.right _ _⟩
  | popL =>
    obtain ⟨z1, h1, h2, h3, h4⟩ := popLeft_ok h.inv
    obtain ⟨⟨z2, e⟩, h5, hfin⟩ := bind_ok.1 ho
    rw [h1] at h5
    cases h5
    cases hfin
    exact ⟨h2, h3 ▸ popSide_tidy h.left, h4 ▸ h.right⟩
  | popR =>
    obtain ⟨z1, h1, h2, h3, h4⟩ := popRight_ok h.inv
    obtain ⟨⟨z2, e⟩, h5, hfin⟩ := bind_ok.1 ho
    rw [h1] at h5
    cases h5
    cases hfin
    exact ⟨h2, h4 ▸ h.left, h3 ▸ popSide_tidy h.right⟩

theorem tidy_lops : ∀ {ops : List (LOp E)} {z z' : Raz E M}, AllTidy z → z.Local ops → z.lops ops = .ok z' → AllTidy z'
  | [], z, z', h, _, ho => by cases ho; exact h
  | op :: l, z, z', h, hl, ho => by
    obtain ⟨z1, h1, ho⟩ := bind_ok.1 ho
    exact tidy_lops (tidy_lop h hl.1 h1) (hl.2 z1 h1) ho

theorem tidy_unfocus {z : Raz E M} {t : RazTree E M} (h : AllTidy z) (hu : z.unfocus = .ok t) : TidySeq t.items := by
  obtain ⟨t2, u1, u2, u3⟩ := unfocus_inv h.inv
  rw [hu] at u1
  cases u1
  rw [u3]
  exact (glue_tidy h.left h.right).settle

theorem chunked_of {t : Tree (TreeData E M)} (hw : WF t) (h : ∀ i ∈ t.items, Titled i) (hs : NoEmptySub t.items) (hn : .str "start" ∉ nodeNames t) :
    Chunked t := by
  induction hw with
  | leaf v =>
    left
    have := (noEmptySub_leaf v).1 hs
    cases v with
    | nil => exact absurd rfl this
    | cons x v => exact ⟨rfl, rfl, x, v, rfl⟩
  | @branch lv nm l r _ _ _ ihl ihr =>
    right
    simp only [Tree.items, List.mem_append, List.mem_cons] at h
    have hs := (noEmptySub_branch _ _ _ _).1 hs
    simp only [nodeNames, List.mem_append, not_or] at hn
    refine ⟨ihl (fun i hi => h i (.inl hi)) hs.1 hn.1.2, ihr (fun i hi => h i (.inr (.inr hi))) hs.2 hn.2, fun _ h => (by cases h), ?_⟩
    have h3 := h _ (.inr (.inl rfl))
    cases nm with
    | none => cases h3
    | some n => exact ⟨n, rfl, fun he => hn.1.1 (by simp [he])⟩

/-! ### Batches -/

/-- The number of archive points with names that the edits make. -/
def restPoints {I : Type} : List (I × List (LOp E)) → Nat
  | [] => 0
  | (_, ops) :: l => LOp.points ops + restPoints l

/-- A sequence that is not empty, in which all archive points have names and no part is empty. -/
structure Whole (t : RazTree E M) : Prop where
  titled : TreeTitled t
  tidy : TidySeq t.items
  elems : elemsOf t.items ≠ []

theorem Whole.full {t : RazTree E M} (h : Whole t) : t.tree ≠ .nil := by
  intro hn
  have := h.elems
  simp only [RazTree.items, hn, Tree.items] at this
  exact this rfl

theorem Whole.chunked {t : RazTree E M} (h : Whole t) (hn : .str "start" ∉ nodeNames t.tree) : Chunked t.tree :=
  chunked_of (h.titled.inv.wf.resolve_left h.full) h.titled.items (h.tidy.noEmptySub fun hi => h.elems (by rw [hi]; rfl)) hn

variable [DecidableEq E] [DecidableEq M]

/-- Local calls at a cursor and `unfocus`. -/
theorem Whole.close {z z' : Raz E M} {t : RazTree E M} (h1 : LInvs z z [] 0) (h2 : AllTitled z) (h3 : AllTidy z) {ops : List (LOp E)} (ht : ∀ op ∈ ops, op.Titles)
    (hl : z.Local ops) (ho : z.lops ops = .ok z') (hu : z'.unfocus = .ok t) : Whole t := by
  refine ⟨titled_unfocus (titled_lops h2 ht (local_lifts hl ho) ho) hu, tidy_unfocus (tidy_lops h3 hl ho) hu, ?_⟩
  obtain ⟨⟨N, k, inv⟩, hne⟩ := lops_invs h1 hl ho
  obtain ⟨t2, u1, u2, u3⟩ := unfocus_inv inv.inv
  rw [hu] at u1
  cases u1
  rw [u3, settle_elems, glue_elems]
  intro he
  simp only [List.append_eq_nil_iff, List.reverse_eq_nil_iff, Raz.left, Raz.right, elemsOf, List.filterMap_append] at he
  rcases hne with hne | hne
  · exact side_elem inv.inv.ls hne he.1.1
  · exact side_elem inv.inv.rs hne he.2.1

theorem Whole.edit [LawfulMeta E M] {t t' : RazTree E M} (h : Whole t) (hc : Canon t.tree) {i : RazMeta.Index E M} {ops : List (LOp E)}
    (ht : ∀ op ∈ ops, op.Titles) (hl : ∀ z, t.focus i = .ok (some z) → z.Local ops) (he : t.edit i ops = .ok t') : Whole t' := by
  obtain ⟨o, e1, he⟩ := bind_ok.1 he
  obtain ⟨z, e2, he⟩ := bind_ok.1 he
  obtain ⟨z', e3, e4⟩ := bind_ok.1 he
  cases o with
  | none => cases e2
  | some z0 =>
    cases e2
    obtain ⟨k1, k2, -⟩ := focus_ok h.titled.inv.wf e1
    have k3 := focus_canon hc e1
    obtain ⟨-, p5, p6⟩ := focus_path e1
    obtain ⟨q1, q2⟩ := h.tidy.split k2
    exact Whole.close ⟨k1, k3, rfl, rfl, fun x => by simp [aN, p5, p6, sN, pN], by simp [stackPoints, p5, p6, pN]⟩
      ⟨k1, fun i hi => h.titled.items i (by rw [← k2]; simp [hi]), fun i hi => h.titled.items i (by rw [← k2]; simp [hi])⟩ ⟨k1, q1, q2⟩ ht (hl z e1) e3 e4

theorem Whole.make {ops : List (LOp E)} (ht : ∀ op ∈ ops, op.Titles) (hl : (Raz.new : Raz E M).Local ops) {z : Raz E M} {t : RazTree E M}
    (ho : (Raz.new : Raz E M).lops ops = .ok z) (hu : z.unfocus = .ok t) : Whole t :=
  Whole.close ⟨ZInv.empty, ZC.empty, rfl, rfl, fun x => Nat.le_refl _, Nat.le_refl _⟩ ⟨ZInv.empty, fun i hi => (by cases hi), fun i hi => (by cases hi)⟩
    ⟨ZInv.empty, trivial, trivial⟩ ht hl ho hu

theorem movesFrom [LawfulMeta E M] : ∀ (l : List (RazMeta.Index E M × List (LOp E))) {σ : RMem E M} {ht : HTree M} {t t' : RazTree E M} {k : Nat},
    RepRT .dcg σ ht t → Canon t.tree → Whole t → (tN .dcg t.tree ++ restCells l).Nodup → (∀ q ∈ l, ∀ op ∈ q.2, op.Titles) → t.LocalEdit l →
    t.edits l = .ok (t', k) →
    ∃ ht' σ', Runs (ht.edits .dcg l) σ ht' σ' ∧ Moved σ ht t σ' ht' t' (restCells l) k ∧ Whole t' ∧ (inNames t.tree).Sublist (inNames t'.tree) ∧
      ∀ {v v'}, View σ ht.tree v → plain v = t.tree → View σ' ht'.tree v' → plain v' = t'.tree → ∀ c, ∃ S, S.length + restPoints l ≤ 2 * k ∧ SharedFrom S c v v'
  | [], σ, ht, t, t', k, hr, hc, hw, hn, hT, hl, he => by
    cases he
    refine ⟨ht, σ, .pure, ⟨hr, hw.titled.inv, hc, hw.full, fun x => by simp [restCells], ?_⟩, hw, List.Sublist.refl _, ?_⟩
    · intro v v' h1 h2 h3 h4
      rw [View.unique h1 h3]
      exact ⟨[], Nat.le_refl _, fun lv n d l r hw _ => hw⟩
    · intro v v' h1 h2 h3 h4 c
      rw [View.unique h1 h3]
      exact ⟨[], Nat.le_refl _, fun s lv n d l r hw _ => hw⟩
  | (i, ops) :: l, σ, ht, t, t2, k, hr, hc, hw, hn, hT, hl, he => by
    unfold RazTree.edits at he
    obtain ⟨t1, e1, he⟩ := bind_ok.1 he
    obtain ⟨⟨t3, k'⟩, e2, hfin⟩ := bind_ok.1 he
    cases hfin
    have hcount := nodup_count hn
    simp only [restCells, List.flatMap_cons, List.count_append] at hcount
    obtain ⟨ht1, σ1, a1, a2, S, a3⟩ := sim_runs (edit_sim hr hw.titled.inv hc hl.1 (count_nodup fun x => by
      have := hcount x; simp only [List.count_append]; omega)) e1
    have hsub := a3.names
    have hw1 := hw.edit hc (hT _ List.mem_cons_self) hl.1 e1
    have hn1 : (tN .dcg t1.tree ++ restCells l).Nodup := count_nodup fun x => by
      have := hcount x
      have := hsub x
      simp only [List.count_append, restCells] at *
      omega
    obtain ⟨ht2, σ2, b1, b2, b3, b5, b4⟩ := movesFrom l a2 a3.canon hw1 hn1 (fun q hq => hT q (List.mem_cons_of_mem _ hq)) (hl.2 t1 e1) e2
    obtain ⟨N1, N2, N3, q1, q2⟩ := edit_inNames hw.titled.inv hc hw.full hl.1 e1 hw1.full
    have q3 : (inNames t.tree).Sublist (inNames t1.tree) := by
      rw [q1, q2]
      exact (List.sublist_append_left _ _).append (List.Sublist.refl _)
    refine ⟨ht2, σ2, a1.bind b1, ⟨b2.rep, b2.inv, b2.canon, b2.full, fun x => ?_, ?_⟩, b3, q3.trans b5, ?_⟩
    · have := hsub x
      have := b2.names x
      simp only [List.count_append, restCells, List.flatMap_cons] at *
      omega
    · intro v v2 h1 h2 h3 h4
      obtain ⟨v1, c1, c2, -⟩ := view_exists a2.tree
      obtain ⟨S', d1, d2⟩ := b2.shared c1 c2 h3 h4
      refine ⟨S ++ S', ?_, (edited_shared a3 hr a2 h1 h2 c1 c2).trans d2⟩
      have := a3.len
      simp only [List.length_append]
      omega
    · intro v v2 h1 h2 h3 h4 c
      obtain ⟨v1, c1, c2, -⟩ := view_exists a2.tree
      obtain ⟨S2, d1, d2⟩ := b4 c1 c2 h3 h4 c
      obtain ⟨S', f1, f2⟩ := edited_from a3 hr a2 h1 h2 c1 c2 hw.titled hw1.titled hc hw.full hl.1 e1
        (names_nodup (List.Nodup.of_append_left hn)) (names_nodup (List.Nodup.of_append_left hn1)) c
      refine ⟨(S ++ S') ++ S2, ?_, f2.trans d2⟩
      have := a3.len
      simp only [List.length_append, restPoints]
      omega

/-- What holds between the batches. -/
structure ListBetween (σ : RMem E M) (ht : HTree M) (t : RazTree E M) (s : LSpace E M E Count (ASt E)) (v : Tree (Tr × TreeData E M))
    (vs : List (Tree (Tr × TreeData E M))) (rest : List Name) : Prop where
  btw : Between (AccHistory toListNode ASt.new) σ ht t s v vs rest
  whole : Whole t
  start : .str "start" ∉ tN .dcg t.tree ++ rest

omit [RazMeta E M] in
theorem countedList_runs {σ : RMem E M} {ht : HTree M} {h : Tr} (hh : ht.tree = some h) {s : LSpace E M E Count (ASt E)} {k : Nat} {o}
    (ho : ∀ n, k ≤ n → amrun (lrAccBody toListNode) σ n ⟨h, some (.str "start"), ASt.new⟩ s = some (.ok o)) :
    Runs (countedList ht s) σ (o.val, o.work, o.space) σ := by
  refine ⟨k, fun f hf => ?_⟩
  unfold countedList foldAccIn
  simp only [hh, ho f hf]

omit [RazMeta E M] [DecidableEq M] in
theorem holdsList {τ : Mem (TreeData E Count) (Nat × List E)} {a : ASt E} {b : AStack E Nat} (h : AView τ a b) : HoldsList τ a b :=
  fun _ hn => Lr.readArchive_view h hn

theorem list_step [LawfulMeta E M] {σ : RMem E M} {ht : HTree M} {t t' : RazTree E M} {s : LSpace E M E Count (ASt E)}
    {v : Tree (Tr × TreeData E M)} {vs : List (Tree (Tr × TreeData E M))} {es : List (RazMeta.Index E M × List (LOp E))} {rest : List Name} {k : Nat}
    (g : ListBetween σ ht t s v vs (restCells es ++ rest)) (hT : ∀ q ∈ es, ∀ op ∈ q.2, op.Titles) (hl : t.LocalEdit es) (he : t.edits es = .ok (t', k)) :
    ∃ ht' σ' a w s' v', Runs (ht.edits .dcg es) σ ht' σ' ∧ Runs (countedList ht' s) σ' (a, w, s') σ' ∧ HoldsList s'.mem a (toListScratch t') ∧
      w + 2 * restPoints es ≤ 4 * k + 1 ∧ ListBetween σ' ht' t' s' v' (v :: vs) rest := by
  have b := g.btw
  have hc := nodup_count b.nodup
  simp only [List.count_append] at hc
  obtain ⟨ht', σ', h1, h3, h4, -, h5⟩ := movesFrom es b.rep b.canon g.whole (count_nodup fun x => by
    have := hc x; simp only [List.count_append]; omega) hT hl he
  obtain ⟨v', a1, a2, a3⟩ := view_exists h3.rep.tree
  have hsub := h3.names
  have hn' : (tN .dcg t'.tree ++ rest).Nodup := count_nodup fun x => by
    have := hc x
    have := hsub x
    simp only [List.count_append] at *
    omega
  have hn : (nodeNames v').Nodup := by rw [a3]; exact names_nodup (List.Nodup.of_append_left hn')
  have hnv : ∀ x, x ∈ nodeNames v ↔ x ∈ tN .dcg t.tree := fun x => by rw [← nodeNames_plain, b.plain, names_mem]
  have hr : NoReturn (v :: vs) v' := by
    intro m hm hno w hw hmw
    obtain ⟨n, k1, k2⟩ := memo_name hm
    obtain ⟨n', k3, k4⟩ := memo_name hmw
    have hnn : n = n' := by rcases k2 with rfl | rfl <;> rcases k4 with k4 | k4 <;> cases k4 <;> rfl
    subst hnn
    have hnot : n ∉ nodeNames v := by
      intro hnv
      have := name_memo (by rw [b.plain]; exact b.inv.wf.resolve_left b.full) n hnv
      rcases k2 with rfl | rfl
      · exact hno this.1
      · exact hno this.2
    rw [a3, names_mem] at k1
    rcases List.mem_append.1 (hsub.subset k1) with k1 | k1
    · exact hnot ((hnv n).2 k1)
    · exact b.past w hw n k3 (List.mem_append_left _ k1)
  have hst : .str "start" ∉ tN .dcg t'.tree ++ rest := by
    intro hx
    rcases List.mem_append.1 hx with hx | hx
    · rcases List.mem_append.1 (hsub.subset hx) with hx | hx
      · exact g.start (List.mem_append_left _ hx)
      · exact g.start (List.mem_append_right _ (List.mem_append_left _ hx))
    · exact g.start (List.mem_append_right _ (List.mem_append_right _ hx))
  have hch : Chunked (plain v') := by
    rw [a2]
    exact h4.chunked (fun hx => hst (List.mem_append_left _ (names_mem.1 hx)))
  obtain ⟨h, hh⟩ := view_root a1 a2 h3.full
  have a1' := a1
  rw [hh] at a1'
  obtain ⟨o, o1, o2, o3, -⟩ := C74_session b.hist a1' hn hch t'.info
  obtain ⟨S, d1, d2⟩ := h5 b.view b.plain a1 a2 (some (.str "start"))
  rw [a2] at o2
  refine ⟨ht', σ', o.val, o.work, o.space, v', h1, countedList_runs hh o1, holdsList o2, ?_,
    ⟨h3.rep, h3.inv, h3.canon, h3.full, a1, a2, .fold b.hist a1' hn hch hr (o1 _ (Nat.le_refl _)), hn', ?_⟩, h4, hst⟩
  · have w1 := Nat.le_trans o3 (Nat.le_trans (costFrom_top d2) (top_bound hn))
    have w2 : v'.gap ≤ 1 := by rw [← gap_plain, a2]; exact h4.titled.gap
    have w3 := Nat.mul_le_mul_left (2 * S.length + 1) w2
    omega
  · intro w hw x hx hx'
    rcases List.mem_cons.1 hw with rfl | hw
    · have b1 := List.count_pos_iff.2 ((hnv x).1 hx)
      have b2 := List.count_pos_iff.2 hx'
      have := hc x
      omega
    · exact b.past w hw x hx (List.mem_append_right _ hx')

theorem list_all [LawfulMeta E M] : ∀ (l : List (List (RazMeta.Index E M × List (LOp E))))
    {σ : RMem E M} {ht : HTree M} {t : RazTree E M} {s : LSpace E M E Count (ASt E)} {v : Tree (Tr × TreeData E M)} {vs : List (Tree (Tr × TreeData E M))} {rest},
    ListBetween σ ht t s v vs (batchCells l) → (∀ es ∈ l, ∀ q ∈ es, ∀ op ∈ q.2, op.Titles) → t.LocalBatches l →
    t.reruns (fun t => .ok (toListScratch t)) l = .ok rest → ∃ outs σ', Runs (ht.reruns countedList s l) σ outs σ' ∧
      List.Forall₂ (fun (q : AStack E Nat × Nat × Nat) (o : ASt E × Nat × LSpace E M E Count (ASt E)) => HoldsList o.2.2.mem o.1 q.1 ∧ o.2.1 ≤ 4 * q.2.1 + 1) rest outs := by
  intro l
  induction l with
  | nil =>
    intro σ ht t s v vs rest g hT hl hr
    cases hr
    exact ⟨[], σ, .pure, .nil⟩
  | cons es l ih =>
    intro σ ht t s v vs rest g hT hl hr
    unfold RazTree.reruns at hr
    obtain ⟨⟨t', k⟩, e1, hr⟩ := bind_ok.1 hr
    obtain ⟨b, e2, hr⟩ := bind_ok.1 hr
    obtain ⟨rest', e3, hfin⟩ := bind_ok.1 hr
    cases e2
    cases hfin
    obtain ⟨ht', σ', a, w, s', v', k1, k2, k3, k4, k5⟩ := list_step (rest := batchCells l) g (hT _ List.mem_cons_self) hl.1 e1
    obtain ⟨outs, σ'', k6, k7⟩ := ih k5 (fun es hes => hT es (List.mem_cons_of_mem _ hes)) (hl.2 t' k e1) e3
    exact ⟨(a, w, s') :: outs, σ'', k1.bind (k2.bind (k6.bind .pure)), .cons ⟨k3, by simp only; omega⟩ k7⟩

/-- The first list of a session. -/
theorem list_first {σ : RMem E M} {ht : HTree M} {t : RazTree E M} {v : Tree (Tr × TreeData E M)} (hv : View σ ht.tree v) (hp : plain v = t.tree)
    (hw : Whole t) (hn : (nodeNames v).Nodup) (hs : .str "start" ∉ nodeNames v) :
    ∃ a w s, Runs (countedList ht Space.empty) σ (a, w, s) σ ∧ HoldsList s.mem a (toListScratch t) ∧ w ≤ t.tree.size ∧ AccHistory toListNode ASt.new s [v] := by
  obtain ⟨h, hh⟩ := view_root hv hp hw.full
  rw [hh] at hv
  have hch : Chunked (plain v) := by
    rw [hp]
    exact hw.chunked (by rw [← hp, nodeNames_plain]; exact hs)
  obtain ⟨o, h1, h2, -⟩ := list_part (AccHistory.start : AccHistory toListNode ASt.new (Space.empty : LSpace E M E Count (ASt E)) []).kept.inv [] hv hn hch.ends t.info
  rw [hp] at h2
  refine ⟨o.val, o.work, o.space, countedList_runs hh h1, holdsList h2, ?_, .fold .start hv hn hch trivial (h1 _ (Nat.le_refl _))⟩
  rw [← hp, plain_size]
  exact C74_at_most_size .start hv hn hch.ends (h1 _ (Nat.le_refl _))

/-- **C82, batches of edits.** A sequence is made and turned into a list (`to_list`, a fold from the left that threads the list from one part of the
sequence to the next); then come batches of edits, and `to_list` again after each batch. All cells get different names, none of them "start"; all
archive points have names; and the edits are local. Every list, read in full, is the one made from scratch, with names and levels. The first run
visits each node at most once. After a batch it visits at most `4 * k + 1` nodes, where `k` is the sum of the depths before each edit and of the
number of archive points added: also what comes after the edits in the sequence is reused. -/
theorem C82_batches [LawfulMeta E M] {ops : List (LOp E)} {l : List (List (RazMeta.Index E M × List (LOp E)))} (hn : (LOp.cells ops ++ batchCells l).Nodup)
    (hs : .str "start" ∉ LOp.cells ops ++ batchCells l) (ht : ∀ op ∈ ops, op.Titles) (ht' : ∀ es ∈ l, ∀ q ∈ es, ∀ op ∈ q.2, op.Titles)
    (hl : LocalReruns (M := M) ops l) {b : AStack E Nat} {size : Nat} {rest : List (AStack E Nat × Nat × Nat)}
    (hr : rerunSession (M := M) (fun t => .ok (toListScratch t)) ops l = .ok (b, size, rest)) (σ : RMem E M) :
    ∃ (a : ASt E) (work : Nat) (s : LSpace E M E Count (ASt E)) (outs : List (ASt E × Nat × LSpace E M E Count (ASt E))) (f0 : Nat),
      (∀ n, f0 ≤ n → (hrerunSession countedList Space.empty ops l n σ).map (·.1) = .ok (a, work, s, outs)) ∧ HoldsList s.mem a b ∧ work ≤ size ∧
      List.Forall₂ (fun (q : AStack E Nat × Nat × Nat) (o : ASt E × Nat × LSpace E M E Count (ASt E)) =>
        HoldsList o.2.2.mem o.1 q.1 ∧ o.2.1 ≤ 4 * q.2.1 + 1) rest outs := by
  unfold rerunSession at hr
  obtain ⟨z, e1, hr⟩ := bind_ok.1 hr
  obtain ⟨t, e2, hr⟩ := bind_ok.1 hr
  obtain ⟨x, e3, hr⟩ := bind_ok.1 hr
  obtain ⟨rest', e4, hfin⟩ := bind_ok.1 hr
  cases e3
  cases hfin
  have hc := nodup_count hn
  simp only [List.count_append] at hc
  have start : LInvs (Raz.new : Raz E M) (Raz.new : Raz E M) [] 0 := ⟨ZInv.empty, ZC.empty, rfl, rfl, fun x => Nat.le_refl _, Nat.le_refl _⟩
  have hz : ∀ x, (cN .dcg (Raz.new : Raz E M).lForest ++ cN .dcg (Raz.new : Raz E M).rForest).count x = 0 := fun x => rfl
  have hnd : (cN .dcg (Raz.new : Raz E M).lForest ++ cN .dcg (Raz.new : Raz E M).rForest ++ LOp.cells ops).Nodup := count_nodup fun x => by
    have := hc x
    rw [List.count_append, hz]
    omega
  obtain ⟨hz', σ1, k1, k2, k3, k4, -⟩ := sim_runs (lops_sim (σ := σ) ops start hl.1 RepZ.empty hnd) e1
  obtain ⟨ht0, σ2, k5, k6, k7, k8, k9, k10, -⟩ := sim_runs (close_sim k3 k4 k2 hnd) e2
  obtain ⟨v, a1, a2, a3⟩ := view_exists k6.tree
  have hle : Sub (tN .dcg t.tree) (LOp.cells ops) := fun x => by
    have h1 := k10 x
    rw [List.count_append, hz] at h1
    simpa using h1
  have hn' : (tN .dcg t.tree ++ batchCells l).Nodup := count_nodup fun x => by
    have := hc x
    have := hle x
    rw [List.count_append]
    omega
  have hnv : (nodeNames v).Nodup := by rw [a3]; exact names_nodup (List.Nodup.of_append_left hn')
  have hst : .str "start" ∉ tN .dcg t.tree ++ batchCells l := by
    intro hx
    rcases List.mem_append.1 hx with hx | hx
    · exact hs (List.mem_append_left _ (hle.subset hx))
    · exact hs (List.mem_append_right _ hx)
  have hw := Whole.make ht hl.1 e1 e2
  obtain ⟨a, w, s, c1, c2, c4, c3⟩ := list_first a1 a2 hw hnv (fun hx => hst (List.mem_append_left _ (names_mem.1 (a3 ▸ hx))))
  obtain ⟨outs, σ3, g1, g2⟩ := list_all l ⟨⟨k6, k7, k8, k9, a1, a2, c3, hn', fun w hw => by cases hw⟩, hw, hst⟩ ht' (hl.2 z t e1 e2) e4
  obtain ⟨f0, hrun⟩ : Runs (hrerunSession countedList Space.empty ops l) σ (a, w, s, outs) σ3 := k1.bind (k5.bind (c1.bind (g1.bind .pure)))
  exact ⟨a, w, s, outs, f0, fun f hf => by rw [hrun f hf]; rfl, c2, c4, g2⟩

/-! ### Sessions of the driver -/

/-- What holds between the edits of a harness. -/
structure ListHeld (σ : RMem E M) (ht : HTree M) (s : EvalRaz E M G) (t : RazTree E M) (sp : LSpace E M E Count (ASt E))
    (v : Tree (Tr × TreeData E M)) (vs : List (Tree (Tr × TreeData E M))) : Prop where
  tree : s.raztree = some t
  btw : Between (AccHistory toListNode ASt.new) σ ht t sp v vs []
  whole : Whole t
  num : Numbered s.names (tN .dcg t.tree)
  past : ∀ w ∈ vs, Numbered s.names (nodeNames w)

omit [RazMeta E M] [DecidableEq E] [DecidableEq M] in
theorem numbered_start {k : Nat} {l : List Name} (h : Numbered k l) : .str "start" ∉ l := by
  intro hx
  obtain ⟨i, -, h | h⟩ := h _ hx <;> cases h

theorem listHeld_step [LawfulMeta E M] {edit : HEval M G → R → HR E M (HEval M G × R)}
    {edit' : EvalRaz E M G → R → P (EvalRaz E M G × R)} {batch : Nat} (hc : Calls edit edit' batch) (h0 : 0 < batch) {σ : RMem E M} {ht : HTree M}
    {s s' : EvalRaz E M G} (hg : s.namegauge = 1) {t : RazTree E M} {sp : LSpace E M E Count (ASt E)} {v : Tree (Tr × TreeData E M)}
    {vs : List (Tree (Tr × TreeData E M))} {rng rng' : R} (g : ListHeld σ ht s t sp v vs) (he : edit' s rng = .ok (s', rng')) {t' : RazTree E M}
    (ht' : s'.raztree = some t') :
    ∃ hT σ' a w sp' v', Runs (edit (toH s ht) rng) σ (toH s' hT, rng') σ' ∧ Runs (countedList hT sp) σ' (a, w, sp') σ' ∧
      HoldsList sp'.mem a (toListScratch t') ∧ w ≤ 2 * (2 * t.tree.depth + batch / s.datagauge + 1) + 1 ∧ s'.datagauge = s.datagauge ∧
      s'.namegauge = s.namegauge ∧ ListHeld σ' hT s' t' sp' v' (v :: vs) := by
  obtain ⟨i, ops, t1, k, c1, c2, c3, c4, c5, c6, c7, c8, c9, c10, c11⟩ := hc s t rng s' rng' g.tree he
  rw [ht'] at c2
  cases c2
  have hl : t.LocalEdit [(i, ops)] := ⟨fun z _ => adds_local c3 (.inr (by omega)), fun _ _ => trivial⟩
  have he' : t.edits [(i, ops)] = .ok (t', t.tree.depth + LOp.points ops + 0) := bind_ok.2 ⟨t', c1, rfl⟩
  have hnd : (tN .dcg t.tree).Nodup := by have := g.btw.nodup; rwa [List.append_nil] at this
  have hnum := nodup_count (nodup_num (e := .dcg) (n := k) g.num hnd)
  have hcells : restCells [(i, ops)] = LOp.cells ops := by simp [restCells]
  have hn : (tN .dcg t.tree ++ restCells [(i, ops)]).Nodup := count_nodup fun x => by
    have h1 := hnum x
    have h2 := c6 x
    rw [hcells]
    simp only [List.count_append] at *
    omega
  obtain ⟨_, _, _, hm⟩ := moves [(i, ops)] g.btw.rep g.btw.inv g.btw.canon g.btw.full hn hl he'
  have hb1 : ListBetween σ ht t sp v vs (restCells [(i, ops)] ++ []) := by
    refine ⟨⟨g.btw.rep, g.btw.inv, g.btw.canon, g.btw.full, g.btw.view, g.btw.plain, g.btw.hist, by rw [List.append_nil]; exact hn, fun w hw x hx hx' => ?_⟩,
      g.whole, ?_⟩
    · rw [List.append_nil, hcells] at hx'
      obtain ⟨j, h1, -, h2⟩ := numN_mem (c6.subset hx')
      obtain ⟨j', h3, h4⟩ := g.past w hw x hx
      rcases h2 with rfl | rfl <;> rcases h4 with h4 | h4 <;> cases h4 <;> omega
    · rw [List.append_nil, hcells]
      intro hx
      rcases List.mem_append.1 hx with hx | hx
      · exact numbered_start g.num hx
      · obtain ⟨j, -, -, h2⟩ := numN_mem (c6.subset hx)
        rcases h2 with h2 | h2 <;> cases h2
  obtain ⟨hT, σ', a, w, sp', v', r1, r2, r3, r4, r5⟩ := list_step hb1 (fun q hq => by
    rw [List.mem_singleton] at hq; subst hq; exact c8 hg) hl he'
  have hnv : ∀ x, x ∈ nodeNames v ↔ x ∈ tN .dcg t.tree := fun x => by rw [← nodeNames_plain, g.btw.plain, names_mem]
  refine ⟨hT, σ', a, w, sp', v', ?_, r2, r3, ?_, c9, c10, ht', r5.btw, r5.whole, ?_, ?_⟩
  · obtain ⟨f0, r1⟩ := r1
    refine ⟨f0, fun f hf => c11 ht g.btw.rep.info f σ hT σ' ?_⟩
    have := r1 f hf
    simp only [HTree.edits] at this
    rwa [show (ht.edit .dcg i ops >>= fun t' => (Pure.pure t' : HR E M _)) = ht.edit .dcg i ops from hbind_pure _] at this
  · rw [hg, Nat.one_mul] at c7
    simp only [restPoints] at r4
    omega
  · rw [c5]
    refine numbered_num (e := .dcg) (n := k) g.num fun x => ?_
    have h1 := hm.names x
    have h2 := c6 x
    rw [hcells] at h1
    simp only [List.count_append] at *
    omega
  · intro w hw
    rcases List.mem_cons.1 hw with rfl | hw
    · intro x hx
      obtain ⟨j, h1, h2⟩ := g.num x ((hnv x).1 hx)
      exact ⟨j, by omega, h2⟩
    · exact numbered_le (g.past w hw) (by omega)

theorem listHeld_all [LawfulMeta E M] {edit : HEval M G → R → HR E M (HEval M G × R)}
    {edit' : EvalRaz E M G → R → P (EvalRaz E M G × R)} {batch : Nat} (hc : Calls edit edit' batch) (h0 : 0 < batch) (p : Params) :
    ∀ (n : Nat) {σ : RMem E M} {ht : HTree M} {s : EvalRaz E M G} {t : RazTree E M} {sp : LSpace E M E Count (ASt E)} {v : Tree (Tr × TreeData E M)}
      {vs : List (Tree (Tr × TreeData E M))} {rng rng' : R} {as : List (Unit × (RazTree E M × AStack E Nat))}, ListHeld σ ht s t sp v vs → s.namegauge = 1 →
      s.datagauge = p.datagauge →
      Eval.testLoop edit' (plainly (T := Unit) (fun s => unwrap s.raztree >>= withTree fun t => .ok (toListScratch t))) n s () rng = .ok (as, rng') →
      ∃ outs σ', Runs (Heap.testLoop edit (HEval.comp (keeping countedList)) n (toH s ht) sp rng) σ (outs, rng') σ' ∧
        listsAfter p batch (fun b a sp => HoldsList sp.mem a b) t (as.map Prod.snd) outs := by
  intro n
  induction n with
  | zero =>
    intro σ ht s t sp v vs rng rng' as g _ _ h
    cases h
    exact ⟨[], σ, .pure, trivial⟩
  | succ n ih =>
    intro σ ht s t sp v vs rng rng' as g hng hdg h
    unfold Eval.testLoop at h
    obtain ⟨⟨s1, r1⟩, e1, h⟩ := bind_ok.1 h
    obtain ⟨⟨u, t1, b⟩, e2, h⟩ := bind_ok.1 h
    obtain ⟨⟨as1, r2⟩, e3, hfin⟩ := bind_ok.1 h
    cases hfin
    obtain ⟨e4, e5⟩ := plain_answer e2
    simp only at e4 e5
    cases e5
    obtain ⟨hT, σ1, a, w, sp', v', k1, k2, k3, k4, k5, k6, k7⟩ := listHeld_step hc h0 hng g e1 e4
    obtain ⟨outs, σ2, k8, k9⟩ := ih k7 (by rw [k6, hng]) (by rw [k5, hdg]) e3
    refine ⟨(a, w, sp') :: outs, σ2, ?_, k3, by rw [← hdg]; exact k4, k9⟩
    unfold Heap.testLoop
    exact k1.bind ((comp_keeping k2).bind (k8.bind .pure))

theorem list_session [LawfulMeta E M] {edit : HEval M G → R → HR E M (HEval M G × R)} {edit' : EvalRaz E M G → R → P (EvalRaz E M G × R)} {batch : Nat}
    (hc : Calls edit edit' batch) (h0 : 0 < batch) {C : Coord G E} {word : R → BitVec 64 × R} {p : Params} (hs : 0 < p.size) (hg : p.namegauge = 1) {coord : G}
    {rng rng' : R} {as : List (RazTree E M × AStack E Nat)}
    (h : sessionV C word p coord rng edit' (withTree fun t => .ok (toListScratch t)) = .ok (as, rng')) :
    ∃ outs, Ends (sessionH C word p coord rng edit (keeping countedList) Space.empty) (.ok (outs, rng')) ∧
      listsWithin p batch (fun b a (sp : LSpace E M E Count (ASt E)) => HoldsList sp.mem a b) as outs := by
  unfold sessionV at h
  cases hx : Eval.test (createRaz C word p coord) edit' (plainly (T := Unit) (fun s => unwrap s.raztree >>= withTree fun t => .ok (toListScratch t)))
      p.changes () rng with
  | error q => rw [hx] at h; cases h
  | ok x =>
    obtain ⟨as0, r0⟩ := x
    rw [hx] at h
    cases h
    unfold Eval.test at hx
    obtain ⟨⟨s, r1⟩, e1, hx⟩ := bind_ok.1 hx
    obtain ⟨⟨u, t, b⟩, e2, hx⟩ := bind_ok.1 hx
    obtain ⟨⟨as1, r2⟩, e3, hfin⟩ := bind_ok.1 hx
    cases hfin
    obtain ⟨e4, e5⟩ := plain_answer e2
    obtain ⟨ops, z, t', c1, c2, c3, c4, c5, c6, c7, c8, c9, c10⟩ := incInit_calls e1
    simp only at e4 e5
    cases e5
    rw [e4] at c3
    cases c3
    have hl : (Raz.new : Raz E M).Local ops := adds_local c4 (.inr (by omega))
    have hz : ∀ x, (cN .dcg (Raz.new : Raz E M).lForest ++ cN .dcg (Raz.new : Raz E M).rForest).count x = 0 := fun x => rfl
    have hnum := nodup_count (numN_nodup (e := .dcg) 0 s.names)
    have hnd : (cN .dcg (Raz.new : Raz E M).lForest ++ cN .dcg (Raz.new : Raz E M).rForest ++ LOp.cells ops).Nodup := count_nodup fun x => by
      have h1 := hnum x
      have h2 := c6 x
      rw [List.count_append, hz]
      omega
    have start : LInvs (Raz.new : Raz E M) (Raz.new : Raz E M) [] 0 := ⟨ZInv.empty, ZC.empty, rfl, rfl, fun x => Nat.le_refl _, Nat.le_refl _⟩
    obtain ⟨hz', σ1, k1, k2, k3, k4, -⟩ := sim_runs (lops_sim (σ := Store.empty) ops start hl RepZ.empty hnd) c1
    obtain ⟨ht, σ2, k5, k6, k7, k8, k9, k10, -⟩ := sim_runs (close_sim k3 k4 k2 hnd) c2
    obtain ⟨v, a1, a2, a3⟩ := view_exists k6.tree
    have hsub : Sub (tN .dcg t.tree) (numN .dcg 0 s.names) := fun x => by
      have h1 := k10 x
      have h2 := c6 x
      rw [List.count_append, hz] at h1
      simp only [List.nil_append] at h1
      omega
    have hn' : (tN .dcg t.tree).Nodup := count_nodup fun x => by
      have h1 := hsub x
      have h2 := hnum x
      omega
    have hnv : (nodeNames v).Nodup := by rw [a3]; exact names_nodup hn'
    have hN : Numbered s.names (tN .dcg t.tree) := fun x hx => by
      obtain ⟨j, -, h1, h2⟩ := numN_mem (hsub.subset hx)
      exact ⟨j, by omega, h2⟩
    have hw := Whole.make (c7 hg) hl c1 c2
    obtain ⟨a, w, sp, d1, d2, d4, d3⟩ := list_first a1 a2 hw hnv (fun hx => numbered_start hN (names_mem.1 (a3 ▸ hx)))
    have hh : ListHeld σ2 ht s t sp v [] :=
      ⟨e4, ⟨k6, k7, k8, k9, a1, a2, d3, by rw [List.append_nil]; exact hn', fun w hw => by cases hw⟩, hw, hN, fun w hw => by cases hw⟩
    obtain ⟨outs, σ3, g1, g2⟩ := listHeld_all hc h0 p p.changes hh (by rw [c9, hg]) c8 e3
    have hrun : Runs (sessionH C word p coord rng edit (keeping countedList) Space.empty) Store.empty ((a, w, sp) :: outs, r0) σ3 := by
      unfold sessionH Heap.test
      refine Runs.bind (a := (toH s ht, r1)) (σ' := σ2) ?_ ((comp_keeping d1).bind (g1.bind .pure))
      rw [c10]
      exact k1.bind (k5.bind .pure)
    obtain ⟨f0, hrun⟩ := hrun
    exact ⟨(a, w, sp) :: outs, ⟨f0, fun f hf => by rw [hrun f hf]; rfl⟩, d2, d4, g2⟩

/-- **C82, sessions of the driver** (eval/examples/tree_to_list.rs). The harness makes a sequence of at least one element with a name for every
archive point, turns it into a list with stored calls, and then in turn edits it with batches of at least one element and makes the list
again. Every list, read in full, is that from scratch. The first run visits each node at most once. After each edit at most
`2 * (2 * depth + batch / datagauge + 1) + 1` nodes are visited, with the depth of the tree before the edit. For all parameters, generators
and random streams for which the session does not panic; with positions, -/
theorem C82_session {C : Coord G E} {word : R → BitVec 64 × R} {p : Params} (hs : 0 < p.size) (hg : p.namegauge = 1) {o : Edit} (ho : 0 < o.size) {coord : G}
    {rng rng' : R} {as : List (RazTree E Count × AStack E Nat)}
    (h : sessionV C word p coord rng (fun s r => o.run C word s r) (withTree fun t => .ok (toListScratch t)) = .ok (as, rng')) :
    ∃ outs, Ends (sessionH C word p coord rng (editH C word o) (keeping countedList) Space.empty) (.ok (outs, rng')) ∧
      listsWithin p o.size (fun b a (sp : LSpace E Count E Count (ASt E)) => HoldsList sp.mem a b) as outs :=
  list_session (edit_calls C word o) ho hs hg h

/-- and with names as places of the edits. -/
theorem C82_session_names {C : Coord G E} {word : R → BitVec 64 × R} {p : Params} (hs : 0 < p.size) (hg : p.namegauge = 1) {o : Edit} (ho : 0 < o.size)
    {order : R → List Name → List Name} {coord : G} {rng rng' : R} {as : List (RazTree E Names × AStack E Nat)}
    (h : sessionV C word p coord rng (fun s r => o.runN C word (order r) s r) (withTree fun t => .ok (toListScratch t)) = .ok (as, rng')) :
    ∃ outs, Ends (sessionH C word p coord rng (editHN C word order o) (keeping countedList) Space.empty) (.ok (outs, rng')) ∧
      listsWithin p o.size (fun b a (sp : LSpace E Names E Count (ASt E)) => HoldsList sp.mem a b) as outs :=
  list_session (editN_calls C word order o) ho hs hg h

/-- **C82, no panics.** Within the number types the session on values does not panic; so the bounds hold without further conditions, and the
elements of the lists are those that the edits make on a plain list. -/
theorem C82_total {C : Coord G E} {word : R → BitVec 64 × R} {p : Params} (hg : p.namegauge = 1) {coord : G} {rng : R} (hp : InRange p) (hs : 0 < p.size) {o : Edit}
    (ho : Possible p o) (ho' : 0 < o.size) :
    ∃ (as : List (RazTree E Count × AStack E Nat)) (outs : List (ASt E × Nat × LSpace E Count E Count (ASt E))) (rng' : R),
      Matches C p coord o (fun xs a => a.1.elems = xs ∧ a.2.elems.reverse = xs) as ∧
      Ends (sessionH C word p coord rng (editH C word o) (keeping countedList) Space.empty) (.ok (outs, rng')) ∧
      listsWithin p o.size (fun b a (sp : LSpace E Count E Count (ASt E)) => HoldsList sp.mem a b) as outs := by
  obtain ⟨as, rng', h1, h2⟩ := sessionV_total (B := RazTree E Count × AStack E Nat) (scratch := withTree fun t => .ok (toListScratch t))
    (Q := fun xs a => a.1.elems = xs ∧ a.2.elems.reverse = xs) C word p coord rng hp ho
    (fun t hr => ⟨(t, toListScratch t), rfl, rfl, toListScratch_elems hr.any⟩)
  obtain ⟨outs, h3, h4⟩ := C82_session hs hg ho' h1
  exact ⟨as, outs, rng', h2, h3, h4⟩

/-! ### Sessions that meet the conditions -/

set_option synthInstance.maxSize 1000 in
/-- The conditions of `C82_batches`. The elements of the lists, last one first; steps and gaps. -/
example : (LOp.cells exOps ++ batchCells exBatches).Nodup ∧ .str "start" ∉ LOp.cells exOps ++ batchCells exBatches ∧
    LocalReruns (M := Count) exOps exBatches ∧ (∀ op ∈ exOps, op.Titles) ∧ (∀ es ∈ exBatches, ∀ q ∈ es, ∀ op ∈ q.2, op.Titles) ∧
    (rerunSession (M := Count) (fun t => .ok (toListScratch t)) exOps exBatches).map
      (fun x => (x.1.elems, x.2.1, x.2.2.map (fun q => (q.1.elems, q.2)))) =
      .ok ([8, 7, 6, 5, 4, 3, 2, 1], 15, [([8, 7, 6, 5, 30, 20, 4, 3, 2, 10], 7, 1), ([8, 7, 6, 40, 5, 30, 20, 4, 3, 2, 10], 4, 1)]) := by
  refine ⟨by decide +kernel, by decide +kernel, rerunsB_sound (by decide +kernel), ?_, ?_, by decide +kernel⟩
  · simp [exOps, LOp.Titles]
  · intro es h1 q h2
    simp only [exBatches, List.mem_cons, List.not_mem_nil, or_false] at h1
    rcases h1 with rfl | rfl <;> simp only [List.mem_cons, List.not_mem_nil, or_false] at h2
    · rcases h2 with rfl | rfl <;> simp [LOp.Titles]
    · subst h2; simp [LOp.Titles]

/-- What the model gives when it is run on this session. -/
example : (hrerunSession (M := Count) countedList Space.empty exOps exBatches 99 Store.empty).map (fun x => (x.1.2.1, x.1.2.2.2.map (·.2.1))) =
    .ok (15, [8, 4]) := by
  decide +kernel

/-- Depth and size of the trees of a session of the driver, and the length of the lists. -/
theorem exLong_lists : (sessionV exCoord exWord exLong 0 0 (fun s r => (Edit.insert 2).run exCoord exWord s r)
      (withTree fun t => .ok (toListScratch t))).map (fun x => x.1.map fun a => (a.1.tree.depth, a.1.tree.size, a.2.elems.length)) =
    .ok [(6, 39, 40), (6, 41, 42), (7, 43, 44), (7, 43, 46), (7, 45, 48)] := by
  decide +kernel

/-- The bounds for this session: at most 39, 29, 29, 33 and 33 steps. -/
example : ∃ outs rng', Ends (sessionH exCoord exWord exLong 0 0 (editH exCoord exWord (.insert 2)) (keeping countedList) Space.empty) (.ok (outs, rng')) ∧
    List.Forall₂ (fun (o : ASt Nat × Nat × LSpace Nat Count Nat Count (ASt Nat)) b => o.2.1 ≤ b) outs [39, 29, 29, 33, 33] := by
  have h := exLong_lists
  cases hx : sessionV exCoord exWord exLong 0 0 (fun s r => (Edit.insert 2).run exCoord exWord s r)
      (withTree fun t : RazTree Nat Count => .ok (toListScratch t)) with
  | error q => rw [hx] at h; cases h
  | ok x =>
    obtain ⟨as, rng'⟩ := x
    rw [hx] at h
    obtain ⟨outs, h1, h2⟩ := C82_session (by decide) (by decide) (by decide) hx
    refine ⟨outs, rng', h1, ?_⟩
    have h := Except.ok.inj h
    simp only at h
    obtain ⟨⟨t0, b0⟩, ⟨t1, b1⟩, ⟨t2, b2⟩, ⟨t3, b3⟩, ⟨t4, b4⟩, rfl⟩ : ∃ a b c d e, as = [a, b, c, d, e] := by
      rcases as with _ | ⟨a, _ | ⟨b, _ | ⟨c, _ | ⟨d, _ | ⟨e, _ | ⟨f, as⟩⟩⟩⟩⟩⟩ <;> simp at h
      exact ⟨a, b, c, d, e, rfl⟩
    simp only [List.map_cons, List.map_nil, List.cons.injEq, Prod.mk.injEq, and_true] at h
    rcases outs with _ | ⟨o0, _ | ⟨o1, _ | ⟨o2, _ | ⟨o3, _ | ⟨o4, _ | ⟨o5, outs⟩⟩⟩⟩⟩⟩ <;> simp only [listsWithin, listsAfter, and_false] at h2
    simp only [exLong, Edit.size, and_true] at h2
    obtain ⟨⟨d0, s0, -⟩, ⟨d1, -⟩, ⟨d2, -⟩, ⟨d3, -⟩, -⟩ := h
    rw [d0, d1, d2, d3, s0] at h2
    obtain ⟨-, w0, -, w1, -, w2, -, w3, -, w4⟩ := h2
    exact .cons w0 (.cons w1 (.cons w2 (.cons w3 (.cons w4 .nil))))

/-- With names as places of the edits. -/
example : (sessionV exCoord exWord exParams 0 0 (fun s r => (Edit.insert 2).runN exCoord exWord (fun l => l.reverse) s r)
      (withTree fun t => .ok (toListScratch t))).map (fun x => x.1.map fun a => a.2.elems) =
    .ok [[4, 3, 2, 1, 0], [4, 7, 6, 3, 2, 1, 0], [4, 7, 6, 3, 2, 10, 9, 1, 0], [4, 13, 12, 7, 6, 3, 2, 10, 9, 1, 0]] := by
  decide +kernel

/-- The conditions of `C82_total`. -/
example : exParams.namegauge = 1 ∧ InRange exParams ∧ 0 < exParams.size ∧ Possible exParams (.insert 2) ∧ 0 < (Edit.insert 2).size :=
  ⟨rfl, exParams_inRange, by decide, .inl ⟨rfl, .inl (by decide)⟩, by decide⟩

end Iodyn.Incr
