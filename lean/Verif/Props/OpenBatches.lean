import Verif.Spec.OpenBatches
import Verif.Proof.OpenFrom
/-
C101 the work of `tokenize` between batches of edits and in sessions of the test driver.
-/
namespace Iodyn.Incr
open Iodyn.Heap Iodyn.Eval
open Eval.Adder (Token)
variable {M G R : Type} [DecidableEq M]

theorem foldP_tok (t : RazTree Char M) {v : Tree (Tr × TreeData Char M)} (hp : plain v = t.tree) {D' : Type} :
    Lr.foldP (Lr.tokSem (M := M) (D' := D')).f (some (.str "start")) (AStack.new, none) v = tokScratch t := by
  rw [Lr.foldP_eq, hp]
  exact (Lr.foldLrMeta_lift (Eval.Adder.tokenizeStep (Eval.Adder.stackAccum Token)) (Eval.Adder.tokenizeMeta (Eval.Adder.stackAccum Token)) t (AStack.new, none)).symm

/-- A run after others. -/
theorem tok_part {s : LSpace Char M Token Count (ASt Token × Option Nat)} {vs : List (Tree (Tr × TreeData Char M))} (hs : AccHistory tokNode (ASt.new, none) s vs)
    (hp : ∀ u ∈ vs, Speaking none (plain u)) {σ : RMem Char M} {h : Tr} {v' : Tree (Tr × TreeData Char M)} (hv : View σ (some h) v') (hn : (nodeNames v').Nodup)
    (hc : Chunked (plain v')) (hp' : Speaking none (plain v')) {t : RazTree Char M} (ht : plain v' = t.tree) {y : AStack Token Nat × Option Nat} (hy : tokScratch t = .ok y) :
    ∃ o, (∀ n, v'.size ≤ n → amrun (lrAccBody tokNode) σ n ⟨h, some (.str "start"), (ASt.new, none)⟩ s = some (.ok o)) ∧ HoldsTokens o.space.mem o.val y ∧
      o.work ≤ v'.size ∧ ∀ v, vs.head? = some v → o.work ≤ costWith openAt (pointsWith openAt (some (.str "start"), none) v) (some (.str "start"), none) v' := by
  have hk := hs.tokens hp
  have part : ∀ old, ∃ o, (∀ n, v'.size ≤ n → amrun (lrAccBody tokNode) σ n ⟨h, some (.str "start"), (ASt.new, none)⟩ s = some (.ok o)) ∧ HoldsTokens o.space.mem o.val y ∧
      ((∀ q ∈ pointsWith openAt (some (.str "start"), none) v', q ∈ old → Op.Hit Lr.tokSem Op.tokCarry s q) → o.work ≤ costWith openAt old (some (.str "start"), none) v') := by
    intro old
    have key := Op.fold_run (Lr.tok_ok (M := M) (X := Nat × List Char) (D' := TreeData Token Count)) Op.tok_can σ old v' v'.size (Nat.le_refl _) h (some (.str "start"))
      (ASt.new, none) (AStack.new, none) (fun _ => False) s hv (memos_nodup hn) (Lr.used_nodup _ hc.ends hn) hk.inv ⟨Lr.ARel.new _ _, rfl⟩ (fun _ _ h => h)
    rw [foldP_tok t ht, hy] at key
    obtain ⟨o, h1, p⟩ := key
    refine ⟨o, fun n hn' => amrun_mono hn' h1, ?_, fun hq => p.work none (hc.open hp') rfl hq⟩
    obtain ⟨y', b1, b2, -⟩ := p.step o.space.mem (fun _ => False) (AStack.new, none) p.inv.fresh p.facts ⟨Lr.ARel.new _ _, rfl⟩ (fun _ _ h => h)
    simp only [foldP_tok t ht, hy] at b1
    cases b1
    exact ⟨fun _ hn => Lr.readArchive_view (Lr.ARel.view b2.1).1 hn, b2.2⟩
  obtain ⟨o, h1, h2, h3⟩ := part []
  refine ⟨o, h1, h2, Nat.le_trans (h3 (fun _ _ h => by cases h)) (costWith_le_size _ _ _ _), fun v hvs => ?_⟩
  cases vs with
  | nil => cases hvs
  | cons v0 vs =>
    cases hvs
    obtain ⟨o', g1, -, g3⟩ := part (pointsWith openAt (some (.str "start"), none) v)
    have := (h1 _ (Nat.le_refl _)).symm.trans (g1 _ (Nat.le_refl _))
    cases this
    refine g3 fun q _ hq => ?_
    obtain ⟨fs, hfs, hst⟩ := hk.last v vs rfl
    obtain ⟨e, e1, e2, e3, -⟩ := hst q hq
    exact ⟨e, e1, e2, fun x hx => hfs x (e3 hx)⟩

theorem countedTok_runs {σ : RMem Char M} {ht : HTree M} {h : Tr} (hh : ht.tree = some h) {s : LSpace Char M Token Count (ASt Token × Option Nat)} {k : Nat} {o}
    (ho : ∀ n, k ≤ n → amrun (lrAccBody tokNode) σ n ⟨h, some (.str "start"), (ASt.new, none)⟩ s = some (.ok o)) :
    Runs (countedTok ht s) σ (o.val, o.work, o.space) σ := by
  refine ⟨k, fun f hf => ?_⟩
  unfold countedTok foldAccIn
  simp only [hh, ho f hf]

variable [RazMeta Char M]

theorem movesWith [LawfulMeta Char M] : ∀ (l : List (RazMeta.Index Char M × List (LOp Char))) {σ : RMem Char M} {ht : HTree M} {t t' : RazTree Char M} {k : Nat},
    RepRT .dcg σ ht t → Canon t.tree → Whole t → (tN .dcg t.tree ++ restCells l).Nodup → (∀ q ∈ l, ∀ op ∈ q.2, op.Titles) → t.LocalEdit l → Legible t → t.LegibleEdits l →
    (.str "start" ∉ tN .dcg t.tree ++ restCells l) → t.edits l = .ok (t', k) →
    ∃ ht' σ', Runs (ht.edits .dcg l) σ ht' σ' ∧ Moved σ ht t σ' ht' t' (restCells l) k ∧ Whole t' ∧ Legible t' ∧
      ∀ {v v'}, View σ ht.tree v → plain v = t.tree → View σ' ht'.tree v' → plain v' = t'.tree →
        ∃ S, S.length + 2 * restPoints l ≤ 3 * k ∧ SharedWith openAt S (some (.str "start"), none) v v'
  | [], σ, ht, t, t', k, hr, hc, hw, hn, hT, hl, hlt, hleg, hst, he => by
    cases he
    refine ⟨ht, σ, .pure, ⟨hr, hw.titled.inv, hc, hw.full, fun x => by simp [restCells], ?_⟩, hw, hlt, ?_⟩
    · intro v v' h1 h2 h3 h4
      rw [View.unique h1 h3]
      exact ⟨[], Nat.le_refl _, fun lv n d l r hw _ => hw⟩
    · intro v v' h1 h2 h3 h4
      rw [View.unique h1 h3]
      exact ⟨[], Nat.le_refl _, fun s lv n d l r hw _ => hw⟩
  | (i, ops) :: l, σ, ht, t, t2, k, hr, hc, hw, hn, hT, hl, hlt, hleg, hst, he => by
    unfold RazTree.edits at he
    obtain ⟨t1, e1, he⟩ := bind_ok.1 he
    obtain ⟨⟨t3, k'⟩, e2, hfin⟩ := bind_ok.1 he
    cases hfin
    have hcount := nodup_count hn
    simp only [restCells, List.flatMap_cons, List.count_append] at hcount
    obtain ⟨ht1, σ1, a1, a2, S, a3⟩ := sim_runs (edit_sim hr hw.titled.inv hc hl.1 (count_nodup fun x => by
      have := hcount x; simp only [List.count_append]; omega)) e1
    have hsub := a3.names
    have hw1 := hw.edit hc (hT _ List.mem_cons_self) hl.1 e1
    have hn1 : (tN .dcg t1.tree ++ restCells l).Nodup := count_nodup fun x => by
      have := hcount x
      have := hsub x
      simp only [List.count_append, restCells] at *
      omega
    have hst1 : .str "start" ∉ tN .dcg t1.tree ++ restCells l := by
      simp only [restCells, List.flatMap_cons, List.mem_append, not_or] at hst ⊢
      refine ⟨fun hx => ?_, hst.2.2⟩
      rcases List.mem_append.1 (hsub.subset hx) with hx | hx
      · exact hst.1 hx
      · exact hst.2.1 hx
    obtain ⟨ht2, σ2, b1, b2, b3, b5, b4⟩ := movesWith l a2 a3.canon hw1 hn1 (fun q hq => hT q (List.mem_cons_of_mem _ hq)) (hl.2 t1 e1)
      (hleg t1 e1).1 (hleg t1 e1).2 hst1 e2
    refine ⟨ht2, σ2, a1.bind b1, ⟨b2.rep, b2.inv, b2.canon, b2.full, fun x => ?_, ?_⟩, b3, b5, ?_⟩
    · have := hsub x
      have := b2.names x
      simp only [List.count_append, restCells, List.flatMap_cons] at *
      omega
    · intro v v2 h1 h2 h3 h4
      obtain ⟨v1, c1, c2, -⟩ := view_exists a2.tree
      obtain ⟨S', d1, d2⟩ := b2.shared c1 c2 h3 h4
      refine ⟨S ++ S', ?_, (edited_shared a3 hr a2 h1 h2 c1 c2).trans d2⟩
      have := a3.len
      simp only [List.length_append]
      omega
    · intro v v2 h1 h2 h3 h4
      obtain ⟨v1, c1, c2, -⟩ := view_exists a2.tree
      obtain ⟨S2, d1, d2⟩ := b4 c1 c2 h3 h4
      obtain ⟨S', f1, f2⟩ := edited_with a3 hr a2 h1 h2 c1 c2 hw.titled hw1.titled hc hw.full hl.1 e1
        (names_nodup (List.Nodup.of_append_left hn)) (names_nodup (List.Nodup.of_append_left hn1))
        hlt.2 (fun hx => hst (List.mem_append_left _ (names_mem.1 hx))) (fun hx => hst1 (List.mem_append_left _ (names_mem.1 hx))) none
      refine ⟨(S ++ S') ++ S2, ?_, f2.trans d2⟩
      have := a3.len
      simp only [List.length_append, restPoints]
      omega

/-- What holds between the batches. -/
structure TokBetween (σ : RMem Char M) (ht : HTree M) (t : RazTree Char M) (s : LSpace Char M Token Count (ASt Token × Option Nat)) (v : Tree (Tr × TreeData Char M))
    (vs : List (Tree (Tr × TreeData Char M))) (rest : List Name) : Prop where
  btw : Between (AccHistory tokNode (ASt.new, none)) σ ht t s v vs rest
  whole : Whole t
  legible : Legible t
  spoke : ∀ u ∈ v :: vs, Speaking none (plain u)
  start : .str "start" ∉ tN .dcg t.tree ++ rest

theorem tok_step [LawfulMeta Char M] {σ : RMem Char M} {ht : HTree M} {t t' : RazTree Char M} {s : LSpace Char M Token Count (ASt Token × Option Nat)}
    {v : Tree (Tr × TreeData Char M)} {vs : List (Tree (Tr × TreeData Char M))} {es : List (RazMeta.Index Char M × List (LOp Char))} {rest : List Name} {k : Nat}
    (g : TokBetween σ ht t s v vs (restCells es ++ rest)) (hT : ∀ q ∈ es, ∀ op ∈ q.2, op.Titles) (hl : t.LocalEdit es) (hg : t.LegibleEdits es) (he : t.edits es = .ok (t', k)) {y : AStack Token Nat × Option Nat} (hy : tokScratch t' = .ok y) :
    ∃ ht' σ' a w s' v', Runs (ht.edits .dcg es) σ ht' σ' ∧ Runs (countedTok ht' s) σ' (a, w, s') σ' ∧ HoldsTokens s'.mem a y ∧
      w + 4 * restPoints es ≤ 6 * k + 1 ∧ TokBetween σ' ht' t' s' v' (v :: vs) rest := by
  have b := g.btw
  have hc := nodup_count b.nodup
  simp only [List.count_append] at hc
  obtain ⟨ht', σ', h1, h3, h4, h6, h5⟩ := movesWith es b.rep b.canon g.whole (count_nodup fun x => by
    have := hc x; simp only [List.count_append]; omega) hT hl g.legible hg (fun hx => g.start (by
      rcases List.mem_append.1 hx with hx | hx
      · exact List.mem_append_left _ hx
      · exact List.mem_append_right _ (List.mem_append_left _ hx))) he
  obtain ⟨v', a1, a2, a3⟩ := view_exists h3.rep.tree
  have hsub := h3.names
  have hn' : (tN .dcg t'.tree ++ rest).Nodup := count_nodup fun x => by
    have := hc x
    have := hsub x
    simp only [List.count_append] at *
    omega
  have hn : (nodeNames v').Nodup := by rw [a3]; exact names_nodup (List.Nodup.of_append_left hn')
  have hnv : ∀ x, x ∈ nodeNames v ↔ x ∈ tN .dcg t.tree := fun x => by rw [← nodeNames_plain, b.plain, names_mem]
  have hr : NoReturn (v :: vs) v' := by
    intro m hm hno w hw hmw
    obtain ⟨n, k1, k2⟩ := memo_name hm
    obtain ⟨n', k3, k4⟩ := memo_name hmw
    have hnn : n = n' := by rcases k2 with rfl | rfl <;> rcases k4 with k4 | k4 <;> cases k4 <;> rfl
    subst hnn
    have hnot : n ∉ nodeNames v := by
      intro hnv
      have := name_memo (by rw [b.plain]; exact b.inv.wf.resolve_left b.full) n hnv
      rcases k2 with rfl | rfl
      · exact hno this.1
      · exact hno this.2
    rw [a3, names_mem] at k1
    rcases List.mem_append.1 (hsub.subset k1) with k1 | k1
    · exact hnot ((hnv n).2 k1)
    · exact b.past w hw n k3 (List.mem_append_left _ k1)
  have hst : .str "start" ∉ tN .dcg t'.tree ++ rest := by
    intro hx
    rcases List.mem_append.1 hx with hx | hx
    · rcases List.mem_append.1 (hsub.subset hx) with hx | hx
      · exact g.start (List.mem_append_left _ hx)
      · exact g.start (List.mem_append_right _ (List.mem_append_left _ hx))
    · exact g.start (List.mem_append_right _ (List.mem_append_right _ hx))
  have hch : Chunked (plain v') := by
    rw [a2]
    exact h4.chunked (fun hx => hst (List.mem_append_left _ (names_mem.1 hx)))
  obtain ⟨h, hh⟩ := view_root a1 a2 h3.full
  have a1' := a1
  rw [hh] at a1'
  have hsp : Speaking none (plain v') := by rw [a2]; exact h6.1
  obtain ⟨o, o1, o2, -, o3⟩ := tok_part b.hist g.spoke a1' hn hch hsp a2 hy
  have o3 := o3 v rfl
  obtain ⟨S, d1, d2⟩ := h5 b.view b.plain a1 a2
  refine ⟨ht', σ', o.val, o.work, o.space, v', h1, countedTok_runs hh o1, o2, ?_,
    ⟨h3.rep, h3.inv, h3.canon, h3.full, a1, a2, .fold b.hist a1' hn hch hr (o1 _ (Nat.le_refl _)), hn', ?_⟩, h4, h6, ?_, hst⟩
  · have w1 := Nat.le_trans o3 (Nat.le_trans (costWith_top d2) (top_bound hn))
    have w2 : v'.gap ≤ 1 := by rw [← gap_plain, a2]; exact h4.titled.gap
    have w3 := Nat.mul_le_mul_left (2 * S.length + 1) w2
    omega
  · intro w hw x hx hx'
    rcases List.mem_cons.1 hw with rfl | hw
    · have b1 := List.count_pos_iff.2 ((hnv x).1 hx)
      have b2 := List.count_pos_iff.2 hx'
      have := hc x
      omega
    · exact b.past w hw x hx (List.mem_append_right _ hx')
  · intro u hu
    rcases List.mem_cons.1 hu with rfl | hu
    · exact hsp
    · exact g.spoke u hu

theorem tok_all [LawfulMeta Char M] : ∀ (l : List (List (RazMeta.Index Char M × List (LOp Char))))
    {σ : RMem Char M} {ht : HTree M} {t : RazTree Char M} {s : LSpace Char M Token Count (ASt Token × Option Nat)} {v : Tree (Tr × TreeData Char M)} {vs : List (Tree (Tr × TreeData Char M))} {rest},
    TokBetween σ ht t s v vs (batchCells l) → (∀ es ∈ l, ∀ q ∈ es, ∀ op ∈ q.2, op.Titles) → t.LocalBatches l → t.LegibleBatches l →
    t.reruns tokScratch l = .ok rest → ∃ outs σ', Runs (ht.reruns countedTok s l) σ outs σ' ∧
      List.Forall₂ (fun (q : (AStack Token Nat × Option Nat) × Nat × Nat) (o : (ASt Token × Option Nat) × Nat × LSpace Char M Token Count (ASt Token × Option Nat)) => HoldsTokens o.2.2.mem o.1 q.1 ∧ o.2.1 ≤ 6 * q.2.1 + 1) rest outs := by
  intro l
  induction l with
  | nil =>
    intro σ ht t s v vs rest g hT hl hg hr
    cases hr
    exact ⟨[], σ, .pure, .nil⟩
  | cons es l ih =>
    intro σ ht t s v vs rest g hT hl hg hr
    unfold RazTree.reruns at hr
    obtain ⟨⟨t', k⟩, e1, hr⟩ := bind_ok.1 hr
    obtain ⟨b, e2, hr⟩ := bind_ok.1 hr
    obtain ⟨rest', e3, hfin⟩ := bind_ok.1 hr
    cases hfin
    obtain ⟨ht', σ', a, w, s', v', k1, k2, k3, k4, k5⟩ := tok_step (rest := batchCells l) g (hT _ List.mem_cons_self) hl.1 hg.1 e1 e2
    obtain ⟨outs, σ'', k6, k7⟩ := ih k5 (fun es hes => hT es (List.mem_cons_of_mem _ hes)) (hl.2 t' k e1) (hg.2 t' k e1) e3
    exact ⟨(a, w, s') :: outs, σ'', k1.bind (k2.bind (k6.bind .pure)), .cons ⟨k3, by simp only; omega⟩ k7⟩

/-- The first run of a session. -/
theorem tok_first {σ : RMem Char M} {ht : HTree M} {t : RazTree Char M} {v : Tree (Tr × TreeData Char M)} (hv : View σ ht.tree v) (hp : plain v = t.tree)
    (hw : Whole t) (hg : Legible t) (hn : (nodeNames v).Nodup) (hs : .str "start" ∉ nodeNames v) {y : AStack Token Nat × Option Nat} (hy : tokScratch t = .ok y) :
    ∃ a w s, Runs (countedTok ht Space.empty) σ (a, w, s) σ ∧ HoldsTokens s.mem a y ∧ w ≤ t.tree.size ∧ AccHistory tokNode (ASt.new, none) s [v] := by
  obtain ⟨h, hh⟩ := view_root hv hp hw.full
  rw [hh] at hv
  have hch : Chunked (plain v) := by
    rw [hp]
    exact hw.chunked (by rw [← hp, nodeNames_plain]; exact hs)
  obtain ⟨o, h1, h2, h3, -⟩ := tok_part .start (fun _ h => by cases h) hv hn hch (by rw [hp]; exact hg.1) hp hy
  exact ⟨o.val, o.work, o.space, countedTok_runs hh h1, h2, by rw [← hp, plain_size]; exact h3, .fold .start hv hn hch trivial (h1 _ (Nat.le_refl _))⟩

/-- **C101, batches of edits.** A text is made and split into tokens; then come batches of edits, and `tokenize` again after each batch. All cells get
different names, none of them "start"; all archive points have names; the edits are local; and in all parts of all texts some token is complete and
some number ends. If the text is never one that `tokenize` does not understand, every list of tokens, read in full, is the one made from scratch, with
names and levels, and the same number is open at the end. The first run visits each node at most once. After a batch `tokenize` visits at most
`6 * k + 1` nodes, where `k` is the sum of the depths before each edit and of the number of archive points added. -/
theorem C101_batches [LawfulMeta Char M] {ops : List (LOp Char)} {l : List (List (RazMeta.Index Char M × List (LOp Char)))} (hn : (LOp.cells ops ++ batchCells l).Nodup)
    (hs : .str "start" ∉ LOp.cells ops ++ batchCells l) (ht : ∀ op ∈ ops, op.Titles) (ht' : ∀ es ∈ l, ∀ q ∈ es, ∀ op ∈ q.2, op.Titles)
    (hl : LocalReruns (M := M) ops l) (hg : LegibleReruns (M := M) ops l) {b : (AStack Token Nat × Option Nat)} {size : Nat} {rest : List ((AStack Token Nat × Option Nat) × Nat × Nat)}
    (hr : rerunSession (M := M) tokScratch ops l = .ok (b, size, rest)) (σ : RMem Char M) :
    ∃ (a : ASt Token × Option Nat) (work : Nat) (s : LSpace Char M Token Count (ASt Token × Option Nat)) (outs : List ((ASt Token × Option Nat) × Nat × LSpace Char M Token Count (ASt Token × Option Nat))) (f0 : Nat),
      (∀ n, f0 ≤ n → (hrerunSession countedTok Space.empty ops l n σ).map (·.1) = .ok (a, work, s, outs)) ∧ HoldsTokens s.mem a b ∧ work ≤ size ∧
      List.Forall₂ (fun (q : (AStack Token Nat × Option Nat) × Nat × Nat) (o : (ASt Token × Option Nat) × Nat × LSpace Char M Token Count (ASt Token × Option Nat)) =>
        HoldsTokens o.2.2.mem o.1 q.1 ∧ o.2.1 ≤ 6 * q.2.1 + 1) rest outs := by
  unfold rerunSession at hr
  obtain ⟨z, e1, hr⟩ := bind_ok.1 hr
  obtain ⟨t, e2, hr⟩ := bind_ok.1 hr
  obtain ⟨x, e3, hr⟩ := bind_ok.1 hr
  obtain ⟨rest', e4, hfin⟩ := bind_ok.1 hr
  cases hfin
  obtain ⟨hg1, hg2⟩ := hg z t e1 e2
  have hc := nodup_count hn
  simp only [List.count_append] at hc
  have start : LInvs (Raz.new : Raz Char M) (Raz.new : Raz Char M) [] 0 := ⟨ZInv.empty, ZC.empty, rfl, rfl, fun x => Nat.le_refl _, Nat.le_refl _⟩
  have hz : ∀ x, (cN .dcg (Raz.new : Raz Char M).lForest ++ cN .dcg (Raz.new : Raz Char M).rForest).count x = 0 := fun x => rfl
  have hnd : (cN .dcg (Raz.new : Raz Char M).lForest ++ cN .dcg (Raz.new : Raz Char M).rForest ++ LOp.cells ops).Nodup := count_nodup fun x => by
    have := hc x
    rw [List.count_append, hz]
    omega
  obtain ⟨hz', σ1, k1, k2, k3, k4, -⟩ := sim_runs (lops_sim (σ := σ) ops start hl.1 RepZ.empty hnd) e1
  obtain ⟨ht0, σ2, k5, k6, k7, k8, k9, k10, -⟩ := sim_runs (close_sim k3 k4 k2 hnd) e2
  obtain ⟨v, a1, a2, a3⟩ := view_exists k6.tree
  have hle : Sub (tN .dcg t.tree) (LOp.cells ops) := fun x => by
    have h1 := k10 x
    rw [List.count_append, hz] at h1
    simpa using h1
  have hn' : (tN .dcg t.tree ++ batchCells l).Nodup := count_nodup fun x => by
    have := hc x
    have := hle x
    rw [List.count_append]
    omega
  have hnv : (nodeNames v).Nodup := by rw [a3]; exact names_nodup (List.Nodup.of_append_left hn')
  have hst : .str "start" ∉ tN .dcg t.tree ++ batchCells l := by
    intro hx
    rcases List.mem_append.1 hx with hx | hx
    · exact hs (List.mem_append_left _ (hle.subset hx))
    · exact hs (List.mem_append_right _ hx)
  have hw := Whole.make ht hl.1 e1 e2
  obtain ⟨a, w, s, c1, c2, c4, c3⟩ := tok_first a1 a2 hw hg1 hnv (fun hx => hst (List.mem_append_left _ (names_mem.1 (a3 ▸ hx)))) e3
  obtain ⟨outs, σ3, g1, g2⟩ := tok_all l ⟨⟨k6, k7, k8, k9, a1, a2, c3, hn', fun w hw => by cases hw⟩, hw, hg1, fun u hu => by
    rw [List.mem_singleton] at hu; subst hu; rw [a2]; exact hg1.1, hst⟩ ht' (hl.2 z t e1 e2) hg2 e4
  obtain ⟨f0, hrun⟩ : Runs (hrerunSession countedTok Space.empty ops l) σ (a, w, s, outs) σ3 := k1.bind (k5.bind (c1.bind (g1.bind .pure)))
  exact ⟨a, w, s, outs, f0, fun f hf => by rw [hrun f hf]; rfl, c2, c4, g2⟩

/-! ### Sessions of the driver -/

/-- What holds between the edits of a harness. -/
structure TokHeld (σ : RMem Char M) (ht : HTree M) (s : EvalRaz Char M G) (t : RazTree Char M) (sp : LSpace Char M Token Count (ASt Token × Option Nat))
    (v : Tree (Tr × TreeData Char M)) (vs : List (Tree (Tr × TreeData Char M))) : Prop where
  tree : s.raztree = some t
  btw : Between (AccHistory tokNode (ASt.new, none)) σ ht t sp v vs []
  whole : Whole t
  legible : Legible t
  spoke : ∀ u ∈ v :: vs, Speaking none (plain u)
  num : Numbered s.names (tN .dcg t.tree)
  past : ∀ w ∈ vs, Numbered s.names (nodeNames w)

theorem tokHeld_step [LawfulMeta Char M] {edit : HEval M G → R → HR Char M (HEval M G × R)}
    {edit' : EvalRaz Char M G → R → P (EvalRaz Char M G × R)} {batch : Nat} (hc : Heap.Calls edit edit' batch) (h0 : 0 < batch) {σ : RMem Char M} {ht : HTree M}
    {s s' : EvalRaz Char M G} (hg : s.namegauge = 1) {t : RazTree Char M} {sp : LSpace Char M Token Count (ASt Token × Option Nat)} {v : Tree (Tr × TreeData Char M)}
    {vs : List (Tree (Tr × TreeData Char M))} {rng rng' : R} (g : TokHeld σ ht s t sp v vs) (he : edit' s rng = .ok (s', rng')) {t' : RazTree Char M}
    (ht' : s'.raztree = some t') (hg' : Legible t') {y : AStack Token Nat × Option Nat} (hy : tokScratch t' = .ok y) :
    ∃ hT σ' a w sp' v', Runs (edit (toH s ht) rng) σ (toH s' hT, rng') σ' ∧ Runs (countedTok hT sp) σ' (a, w, sp') σ' ∧
      HoldsTokens sp'.mem a y ∧ w ≤ 2 * (3 * t.tree.depth + batch / s.datagauge + 1) + 1 ∧ s'.datagauge = s.datagauge ∧
      s'.namegauge = s.namegauge ∧ TokHeld σ' hT s' t' sp' v' (v :: vs) := by
  obtain ⟨i, ops, t1, k, c1, c2, c3, c4, c5, c6, c7, c8, c9, c10, c11⟩ := hc s t rng s' rng' g.tree he
  rw [ht'] at c2
  cases c2
  have hl : t.LocalEdit [(i, ops)] := ⟨fun z _ => adds_local c3 (.inr (by omega)), fun _ _ => trivial⟩
  have he' : t.edits [(i, ops)] = .ok (t', t.tree.depth + LOp.points ops + 0) := bind_ok.2 ⟨t', c1, rfl⟩
  have hnd : (tN .dcg t.tree).Nodup := by have := g.btw.nodup; rwa [List.append_nil] at this
  have hnum := nodup_count (nodup_num (e := .dcg) (n := k) g.num hnd)
  have hcells : restCells [(i, ops)] = LOp.cells ops := by simp [restCells]
  have hn : (tN .dcg t.tree ++ restCells [(i, ops)]).Nodup := count_nodup fun x => by
    have h1 := hnum x
    have h2 := c6 x
    rw [hcells]
    simp only [List.count_append] at *
    omega
  obtain ⟨_, _, _, hm⟩ := moves [(i, ops)] g.btw.rep g.btw.inv g.btw.canon g.btw.full hn hl he'
  have hb1 : TokBetween σ ht t sp v vs (restCells [(i, ops)] ++ []) := by
    refine ⟨⟨g.btw.rep, g.btw.inv, g.btw.canon, g.btw.full, g.btw.view, g.btw.plain, g.btw.hist, by rw [List.append_nil]; exact hn, fun w hw x hx hx' => ?_⟩,
      g.whole, g.legible, g.spoke, ?_⟩
    · rw [List.append_nil, hcells] at hx'
      obtain ⟨j, h1, -, h2⟩ := numN_mem (c6.subset hx')
      obtain ⟨j', h3, h4⟩ := g.past w hw x hx
      rcases h2 with rfl | rfl <;> rcases h4 with h4 | h4 <;> cases h4 <;> omega
    · rw [List.append_nil, hcells]
      intro hx
      rcases List.mem_append.1 hx with hx | hx
      · exact numbered_start g.num hx
      · obtain ⟨j, -, -, h2⟩ := numN_mem (c6.subset hx)
        rcases h2 with h2 | h2 <;> cases h2
  obtain ⟨hT, σ', a, w, sp', v', r1, r2, r3, r4, r5⟩ := tok_step hb1 (fun q hq => by
    rw [List.mem_singleton] at hq; subst hq; exact c8 hg) hl (fun t2 h2 => by
      rw [c1] at h2; cases h2; exact ⟨hg', trivial⟩) he' hy
  have hnv : ∀ x, x ∈ nodeNames v ↔ x ∈ tN .dcg t.tree := fun x => by rw [← nodeNames_plain, g.btw.plain, names_mem]
  refine ⟨hT, σ', a, w, sp', v', ?_, r2, r3, ?_, c9, c10, ht', r5.btw, r5.whole, r5.legible, r5.spoke, ?_, ?_⟩
  · obtain ⟨f0, r1⟩ := r1
    refine ⟨f0, fun f hf => c11 ht g.btw.rep.info f σ hT σ' ?_⟩
    have := r1 f hf
    simp only [HTree.edits] at this
    rwa [show (ht.edit .dcg i ops >>= fun t' => (Pure.pure t' : HR Char M _)) = ht.edit .dcg i ops from hbind_pure _] at this
  · rw [hg, Nat.one_mul] at c7
    simp only [restPoints] at r4
    omega
  · rw [c5]
    refine numbered_num (e := .dcg) (n := k) g.num fun x => ?_
    have h1 := hm.names x
    have h2 := c6 x
    rw [hcells] at h1
    simp only [List.count_append] at *
    omega
  · intro w hw
    rcases List.mem_cons.1 hw with rfl | hw
    · intro x hx
      obtain ⟨j, h1, h2⟩ := g.num x ((hnv x).1 hx)
      exact ⟨j, by omega, h2⟩
    · exact numbered_le (g.past w hw) (by omega)

theorem tokHeld_all [LawfulMeta Char M] {edit : HEval M G → R → HR Char M (HEval M G × R)}
    {edit' : EvalRaz Char M G → R → P (EvalRaz Char M G × R)} {batch : Nat} (hc : Heap.Calls edit edit' batch) (h0 : 0 < batch) (p : Params) :
    ∀ (n : Nat) {σ : RMem Char M} {ht : HTree M} {s : EvalRaz Char M G} {t : RazTree Char M} {sp : LSpace Char M Token Count (ASt Token × Option Nat)} {v : Tree (Tr × TreeData Char M)}
      {vs : List (Tree (Tr × TreeData Char M))} {rng rng' : R} {as : List (Unit × (RazTree Char M × (AStack Token Nat × Option Nat)))}, TokHeld σ ht s t sp v vs → s.namegauge = 1 →
      s.datagauge = p.datagauge → (∀ a ∈ as, Legible a.2.1) →
      Eval.testLoop edit' (plainly (T := Unit) (fun s => unwrap s.raztree >>= withTree fun t => tokScratch t)) n s () rng = .ok (as, rng') →
      ∃ outs σ', Runs (Heap.testLoop edit (HEval.comp (keeping countedTok)) n (toH s ht) sp rng) σ (outs, rng') σ' ∧
        tokensAfter p batch (fun b a sp => HoldsTokens sp.mem a b) t (as.map Prod.snd) outs := by
  intro n
  induction n with
  | zero =>
    intro σ ht s t sp v vs rng rng' as g _ _ _ h
    cases h
    exact ⟨[], σ, .pure, trivial⟩
  | succ n ih =>
    intro σ ht s t sp v vs rng rng' as g hng hdg hleg h
    unfold Eval.testLoop at h
    obtain ⟨⟨s1, r1⟩, e1, h⟩ := bind_ok.1 h
    obtain ⟨⟨u, t1, b⟩, e2, h⟩ := bind_ok.1 h
    obtain ⟨⟨as1, r2⟩, e3, hfin⟩ := bind_ok.1 h
    cases hfin
    obtain ⟨e4, e5⟩ := plain_answer e2
    simp only at e4 e5
    obtain ⟨hT, σ1, a, w, sp', v', k1, k2, k3, k4, k5, k6, k7⟩ := tokHeld_step hc h0 hng g e1 e4 (hleg _ List.mem_cons_self) e5
    obtain ⟨outs, σ2, k8, k9⟩ := ih k7 (by rw [k6, hng]) (by rw [k5, hdg]) (fun a ha => hleg a (List.mem_cons_of_mem _ ha)) e3
    refine ⟨(a, w, sp') :: outs, σ2, ?_, k3, by rw [← hdg]; exact k4, k9⟩
    unfold Heap.testLoop
    exact k1.bind ((comp_keeping k2).bind (k8.bind .pure))

theorem tok_session [LawfulMeta Char M] {edit : HEval M G → R → HR Char M (HEval M G × R)} {edit' : EvalRaz Char M G → R → P (EvalRaz Char M G × R)} {batch : Nat}
    (hc : Heap.Calls edit edit' batch) (h0 : 0 < batch) {C : Coord G Char} {word : R → BitVec 64 × R} {p : Params} (hs : 0 < p.size) (hg : p.namegauge = 1) {coord : G}
    {rng rng' : R} {as : List (RazTree Char M × (AStack Token Nat × Option Nat))}
    (h : sessionV C word p coord rng edit' (withTree fun t => tokScratch t) = .ok (as, rng')) (hleg : ∀ a ∈ as, Legible a.1) :
    ∃ outs, Ends (sessionH C word p coord rng edit (keeping countedTok) Space.empty) (.ok (outs, rng')) ∧
      tokensWithin p batch (fun b a (sp : LSpace Char M Token Count (ASt Token × Option Nat)) => HoldsTokens sp.mem a b) as outs := by
  unfold sessionV at h
  cases hx : Eval.test (createRaz C word p coord) edit' (plainly (T := Unit) (fun s => unwrap s.raztree >>= withTree fun t => tokScratch t))
      p.changes () rng with
  | error q => rw [hx] at h; cases h
  | ok x =>
    obtain ⟨as0, r0⟩ := x
    rw [hx] at h
    cases h
    unfold Eval.test at hx
    obtain ⟨⟨s, r1⟩, e1, hx⟩ := bind_ok.1 hx
    obtain ⟨⟨u, t, b⟩, e2, hx⟩ := bind_ok.1 hx
    obtain ⟨⟨as1, r2⟩, e3, hfin⟩ := bind_ok.1 hx
    cases hfin
    obtain ⟨e4, e5⟩ := plain_answer e2
    obtain ⟨ops, z, t', c1, c2, c3, c4, c5, c6, c7, c8, c9, c10⟩ := incInit_calls e1
    simp only at e4 e5
    have hg1 : Legible t := hleg (t, b) (by simp)
    rw [e4] at c3
    cases c3
    have hl : (Raz.new : Raz Char M).Local ops := adds_local c4 (.inr (by omega))
    have hz : ∀ x, (cN .dcg (Raz.new : Raz Char M).lForest ++ cN .dcg (Raz.new : Raz Char M).rForest).count x = 0 := fun x => rfl
    have hnum := nodup_count (numN_nodup (e := .dcg) 0 s.names)
    have hnd : (cN .dcg (Raz.new : Raz Char M).lForest ++ cN .dcg (Raz.new : Raz Char M).rForest ++ LOp.cells ops).Nodup := count_nodup fun x => by
      have h1 := hnum x
      have h2 := c6 x
      rw [List.count_append, hz]
      omega
    have start : LInvs (Raz.new : Raz Char M) (Raz.new : Raz Char M) [] 0 := ⟨ZInv.empty, ZC.empty, rfl, rfl, fun x => Nat.le_refl _, Nat.le_refl _⟩
    obtain ⟨hz', σ1, k1, k2, k3, k4, -⟩ := sim_runs (lops_sim (σ := Store.empty) ops start hl RepZ.empty hnd) c1
    obtain ⟨ht, σ2, k5, k6, k7, k8, k9, k10, -⟩ := sim_runs (close_sim k3 k4 k2 hnd) c2
    obtain ⟨v, a1, a2, a3⟩ := view_exists k6.tree
    have hsub : Sub (tN .dcg t.tree) (numN .dcg 0 s.names) := fun x => by
      have h1 := k10 x
      have h2 := c6 x
      rw [List.count_append, hz] at h1
      simp only [List.nil_append] at h1
      omega
    have hn' : (tN .dcg t.tree).Nodup := count_nodup fun x => by
      have h1 := hsub x
      have h2 := hnum x
      omega
    have hnv : (nodeNames v).Nodup := by rw [a3]; exact names_nodup hn'
    have hN : Numbered s.names (tN .dcg t.tree) := fun x hx => by
      obtain ⟨j, -, h1, h2⟩ := numN_mem (hsub.subset hx)
      exact ⟨j, by omega, h2⟩
    have hw := Whole.make (c7 hg) hl c1 c2
    obtain ⟨a, w, sp, d1, d2, d4, d3⟩ := tok_first a1 a2 hw hg1 hnv (fun hx => numbered_start hN (names_mem.1 (a3 ▸ hx))) e5
    have hh : TokHeld σ2 ht s t sp v [] :=
      ⟨e4, ⟨k6, k7, k8, k9, a1, a2, d3, by rw [List.append_nil]; exact hn', fun w hw => by cases hw⟩, hw, hg1, fun u hu => by
        rw [List.mem_singleton] at hu; subst hu; rw [a2]; exact hg1.1, hN, fun w hw => by cases hw⟩
    obtain ⟨outs, σ3, g1, g2⟩ := tokHeld_all hc h0 p p.changes hh (by rw [c9, hg]) c8 (fun a ha => hleg a.2 (by simp only [List.map_cons, List.mem_cons, List.mem_map]; exact .inr ⟨a, ha, rfl⟩)) e3
    have hrun : Runs (sessionH C word p coord rng edit (keeping countedTok) Space.empty) Store.empty ((a, w, sp) :: outs, r0) σ3 := by
      unfold sessionH Heap.test
      refine Runs.bind (a := (toH s ht, r1)) (σ' := σ2) ?_ ((comp_keeping d1).bind (g1.bind .pure))
      rw [c10]
      exact k1.bind (k5.bind .pure)
    obtain ⟨f0, hrun⟩ := hrun
    exact ⟨(a, w, sp) :: outs, ⟨f0, fun f hf => by rw [hrun f hf]; rfl⟩, d2, d4, g2⟩

/-- **C101, sessions of the driver** (`tokenize` in eval/examples/adder.rs). The harness makes a text of at least one character with a name for every
archive point, splits it into tokens with stored calls, and then in turn edits it with batches of at least one character and runs `tokenize` again.
If no text makes `tokenize` panic and all texts are legible, then every list of tokens is that from scratch, the first run visits each node at most once,
and after each edit at most `2 * (3 * depth + batch / datagauge + 1) + 1` nodes are visited, with the depth of the tree before the edit. With
positions, -/
theorem C101_session {C : Coord G Char} {word : R → BitVec 64 × R} {p : Params} (hs : 0 < p.size) (hg : p.namegauge = 1) {o : Edit} (ho : 0 < o.size) {coord : G}
    {rng rng' : R} {as : List (RazTree Char Count × (AStack Token Nat × Option Nat))}
    (h : sessionV C word p coord rng (fun s r => o.run C word s r) (withTree fun t => tokScratch t) = .ok (as, rng')) (hleg : ∀ a ∈ as, Legible a.1) :
    ∃ outs, Ends (sessionH C word p coord rng (editH C word o) (keeping countedTok) Space.empty) (.ok (outs, rng')) ∧
      tokensWithin p o.size (fun b a (sp : LSpace Char Count Token Count (ASt Token × Option Nat)) => HoldsTokens sp.mem a b) as outs :=
  tok_session (edit_calls C word o) ho hs hg h hleg

/-- and with names as places of the edits. -/
theorem C101_session_names {C : Coord G Char} {word : R → BitVec 64 × R} {p : Params} (hs : 0 < p.size) (hg : p.namegauge = 1) {o : Edit} (ho : 0 < o.size)
    {order : R → List Name → List Name} {coord : G} {rng rng' : R} {as : List (RazTree Char Names × (AStack Token Nat × Option Nat))}
    (h : sessionV C word p coord rng (fun s r => o.runN C word (order r) s r) (withTree fun t => tokScratch t) = .ok (as, rng')) (hleg : ∀ a ∈ as, Legible a.1) :
    ∃ outs, Ends (sessionH C word p coord rng (editHN C word order o) (keeping countedTok) Space.empty) (.ok (outs, rng')) ∧
      tokensWithin p o.size (fun b a (sp : LSpace Char Names Token Count (ASt Token × Option Nat)) => HoldsTokens sp.mem a b) as outs :=
  tok_session (editN_calls C word order o) ho hs hg h hleg

/-! ### Sessions that meet the conditions -/

instance (o : Option Nat) (c : Char) : Decidable (completes o c) := by unfold completes; cases digitOf c <;> infer_instance

instance decSpeaks : ∀ (text : List Char) (o : Option Nat), Decidable (Speaks o text)
  | [], _ => .isFalse id
  | c :: text, o => @instDecidableOr _ _ _ (decSpeaks text (openStep o c))

/-- `Legible` as a test. -/
def legibleB {M : Type} (o : Option Nat) : Tree (TreeData Char M) → Bool
  | .nil => true
  | .node _ _ d l r =>
    (if l.isSome || r.isSome then true else match d with
      | .leaf text => decide (Speaks o text) && text.any fun c => (digitOf c).isNone
      | _ => false) && legibleB o l && legibleB (carried openNode o l) r

theorem legibleB_ok {M : Type} : ∀ {t : Tree (TreeData Char M)} {o : Option Nat}, legibleB o t = true → Speaking o t ∧ Separated t
  | .nil, _, _ => ⟨trivial, trivial⟩
  | .node lv n d l r, o, h => by
    simp only [legibleB, Bool.and_eq_true] at h
    obtain ⟨⟨h1, h2⟩, h3⟩ := h
    have h4 := legibleB_ok h2
    have h5 := legibleB_ok h3
    have h6 : l = .nil → r = .nil → ∃ text, d = .leaf text ∧ Speaks o text ∧ ∃ c ∈ text, digitOf c = none := by
      rintro rfl rfl
      simp only [Tree.isSome, Bool.or_self, Bool.false_eq_true, if_false] at h1
      split at h1
      · next text =>
        simp only [Bool.and_eq_true, decide_eq_true_eq, List.any_eq_true, Option.isNone_iff_eq_none] at h1
        exact ⟨text, rfl, h1⟩
      · cases h1
    refine ⟨⟨fun a b => ?_, h4.1, h5.1⟩, ⟨fun a b => ?_, h4.2, h5.2⟩⟩
    · obtain ⟨text, e, h, -⟩ := h6 a b; exact ⟨text, e, h⟩
    · obtain ⟨text, e, -, h⟩ := h6 a b; exact ⟨text, e, h⟩

/-- `LegibleEdits` as a test. -/
def legibleEditsB : List (RazMeta.Index Char M × List (LOp Char)) → RazTree Char M → Bool
  | [], _ => true
  | (i, ops) :: l, t => match t.edit i ops with
    | .ok t' => legibleB none t'.tree && legibleEditsB l t'
    | .error _ => true

omit [DecidableEq M] in
theorem legibleEditsB_ok : ∀ {l : List (RazMeta.Index Char M × List (LOp Char))} {t : RazTree Char M}, legibleEditsB l t = true → t.LegibleEdits l
  | [], _, _ => trivial
  | (i, ops) :: l, t, h => by
    intro t' he
    rw [legibleEditsB, he] at h
    simp only [Bool.and_eq_true] at h
    exact ⟨legibleB_ok h.1, legibleEditsB_ok h.2⟩

/-- `LegibleReruns` as a test. -/
def legibleBatchesB : List (List (RazMeta.Index Char M × List (LOp Char))) → RazTree Char M → Bool
  | [], _ => true
  | es :: l, t => legibleEditsB es t && match t.edits es with
    | .ok (t', _) => legibleBatchesB l t'
    | .error _ => true

omit [DecidableEq M] in
theorem legibleBatchesB_ok : ∀ {l : List (List (RazMeta.Index Char M × List (LOp Char)))} {t : RazTree Char M}, legibleBatchesB l t = true → t.LegibleBatches l
  | [], _, _ => trivial
  | es :: l, t, h => by
    simp only [legibleBatchesB, Bool.and_eq_true] at h
    refine ⟨legibleEditsB_ok h.1, fun t' k he => legibleBatchesB_ok ?_⟩
    have := h.2; rw [he] at this; exact this

/-- 1+ | 2+ | … | 8+ -/
def exPlusOps : List (LOp Char) :=
  ([('1', 1, 1), ('2', 2, 2), ('3', 3, 1), ('4', 4, 3), ('5', 5, 1), ('6', 6, 2), ('7', 7, 1)].flatMap fun q =>
    [.pushL q.1, .pushL '+', .archL q.2.2 (some (.usize q.2.1))]) ++ [.pushL '8', .pushL '+']

/-- Replacing 1 by 9 and putting 0+|7 after the third plus; then 4 before the one in 5+. -/
def exPlusBatches : List (List (RazMeta.Index Char Count × List (LOp Char))) :=
  [[((1 : Nat), [.popL, .pushL '9']), ((6 : Nat), [.pushL '0', .pushL '+', .archL 1 (some (.usize 8)), .pushL '7', .pushL '+', .pushL '7'])], [((13 : Nat), [.pushR '4'])]]

set_option synthInstance.maxSize 1000 in
/-- The conditions of `C101_batches`. Number of tokens, open number, steps and gaps. -/
example : (LOp.cells exPlusOps ++ batchCells exPlusBatches).Nodup ∧ .str "start" ∉ LOp.cells exPlusOps ++ batchCells exPlusBatches ∧
    LocalReruns (M := Count) exPlusOps exPlusBatches ∧ LegibleReruns (M := Count) exPlusOps exPlusBatches ∧ (∀ op ∈ exPlusOps, op.Titles) ∧
    (∀ es ∈ exPlusBatches, ∀ q ∈ es, ∀ op ∈ q.2, op.Titles) ∧
    (rerunSession (M := Count) tokScratch exPlusOps exPlusBatches).map (fun x => (x.1.1.elems.length, x.2.1, x.2.2.map (fun q => (q.1.1.elems.length, q.1.2, q.2)))) =
      .ok (16, 15, [(20, none, 7, 1), (20, none, 4, 1)]) := by
  refine ⟨by decide +kernel, by decide +kernel, rerunsB_sound (by decide +kernel), ?_, ?_, ?_, by decide +kernel⟩
  · intro z t e1 e2
    have h : (do
        let z ← (Raz.new : Raz Char Count).lops exPlusOps
        let t ← z.unfocus
        return (legibleB none t.tree, legibleBatchesB exPlusBatches t) : P (Bool × Bool)) = .ok (true, true) := by decide +kernel
    obtain ⟨z', h1, h⟩ := bind_ok.1 h
    obtain ⟨t', h2, h⟩ := bind_ok.1 h
    rw [e1] at h1; cases h1
    rw [e2] at h2; cases h2
    have h := Prod.mk.inj (Except.ok.inj h)
    exact ⟨legibleB_ok h.1, legibleBatchesB_ok h.2⟩
  · simp [exPlusOps, LOp.Titles]
  · intro es h1 q h2
    simp only [exPlusBatches, List.mem_cons, List.not_mem_nil, or_false] at h1
    rcases h1 with rfl | rfl <;> simp only [List.mem_cons, List.not_mem_nil, or_false] at h2
    · rcases h2 with rfl | rfl <;> simp [LOp.Titles]
    · subst h2; simp [LOp.Titles]

/-- What the model gives when it is run on this session. -/
example : (hrerunSession (M := Count) countedTok Space.empty exPlusOps exPlusBatches 99 Store.empty).map (fun x => (x.1.2.1, x.1.2.2.2.map (·.2.1))) =
    .ok (15, [9, 8]) := by
  decide +kernel

/-- The characters 3 and +, in turn, and places for edits. -/
def exChars : Coord Nat Char := ⟨fun g => (if g % 2 = 0 then '3' else '+', g + 1), fun g => (7 * g, g + 1)⟩

/-- Depth and size of the trees of a session of the driver, the number of tokens, and whether the text is legible. -/
theorem exLong_tokens : (sessionV exChars exWord exLong 0 0 (fun s r => (Edit.insert 2).run exChars exWord s r)
      (withTree fun t => tokScratch t)).map (fun x => x.1.map fun a => (a.1.tree.depth, a.1.tree.size, a.2.1.elems.length, legibleB none a.1.tree)) =
    .ok [(6, 39, 40, true), (6, 41, 41, true), (7, 43, 42, true), (7, 43, 43, true), (7, 45, 44, true)] := by
  decide +kernel

/-- The bounds for this session: at most 39, 41, 41, 47 and 47 steps. -/
example : ∃ outs rng', Ends (sessionH exChars exWord exLong 0 0 (editH exChars exWord (.insert 2)) (keeping countedTok) Space.empty) (.ok (outs, rng')) ∧
    List.Forall₂ (fun (o : (ASt Token × Option Nat) × Nat × LSpace Char Count Token Count (ASt Token × Option Nat)) b => o.2.1 ≤ b) outs [39, 41, 41, 47, 47] := by
  have h := exLong_tokens
  cases hx : sessionV exChars exWord exLong 0 0 (fun s r => (Edit.insert 2).run exChars exWord s r)
      (withTree fun t : RazTree Char Count => tokScratch t) with
  | error q => rw [hx] at h; cases h
  | ok x =>
    obtain ⟨as, rng'⟩ := x
    rw [hx] at h
    have h := Except.ok.inj h
    simp only at h
    obtain ⟨⟨t0, b0⟩, ⟨t1, b1⟩, ⟨t2, b2⟩, ⟨t3, b3⟩, ⟨t4, b4⟩, rfl⟩ : ∃ a b c d e, as = [a, b, c, d, e] := by
      rcases as with _ | ⟨a, _ | ⟨b, _ | ⟨c, _ | ⟨d, _ | ⟨e, _ | ⟨f, as⟩⟩⟩⟩⟩⟩ <;> simp at h
      exact ⟨a, b, c, d, e, rfl⟩
    simp only [List.map_cons, List.map_nil, List.cons.injEq, Prod.mk.injEq, and_true] at h
    obtain ⟨⟨d0, s0, -, l0⟩, ⟨d1, -, -, l1⟩, ⟨d2, -, -, l2⟩, ⟨d3, -, -, l3⟩, -, -, -, l4⟩ := h
    obtain ⟨outs, h1, h2⟩ := C101_session (by decide) (by decide) (by decide) hx (by
      intro a ha
      simp only [List.mem_cons, List.not_mem_nil, or_false] at ha
      rcases ha with rfl | rfl | rfl | rfl | rfl
      · exact legibleB_ok l0
      · exact legibleB_ok l1
      · exact legibleB_ok l2
      · exact legibleB_ok l3
      · exact legibleB_ok l4)
    refine ⟨outs, rng', h1, ?_⟩
    rcases outs with _ | ⟨o0, _ | ⟨o1, _ | ⟨o2, _ | ⟨o3, _ | ⟨o4, _ | ⟨o5, outs⟩⟩⟩⟩⟩⟩ <;> simp only [tokensWithin, tokensAfter, and_false] at h2
    simp only [exLong, Edit.size, and_true] at h2
    rw [d0, d1, d2, d3, s0] at h2
    obtain ⟨-, w0, -, w1, -, w2, -, w3, -, w4⟩ := h2
    exact .cons w0 (.cons w1 (.cons w2 (.cons w3 (.cons w4 .nil))))

/-- With names as places of the edits. -/
example : (sessionV exChars exWord ⟨8, 2, 1, 2, 3⟩ 0 0 (fun s r => (Edit.insert 2).runN exChars exWord (fun l => l.reverse) s r)
      (withTree fun t => tokScratch t)).map (fun x => x.1.map fun a => (a.2.1.elems.length, legibleB none a.1.tree)) =
    .ok [(8, true), (9, true), (11, true), (12, true)] := by
  decide +kernel

end Iodyn.Incr
