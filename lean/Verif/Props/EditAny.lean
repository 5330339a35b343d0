import Verif.Proof.EditAny
import Verif.Props.EditAgain
/-
C83 the work of memoised computations between batches of any edits.
-/
namespace Iodyn.Incr
open Iodyn.Heap
variable {E M F N A B Sp R D X : Type} [RazMeta E M]

theorem moves_any [LawfulMeta E M] : ∀ (l : List (RazMeta.Index E M × List (LOp E))) {σ : RMem E M} {ht : HTree M} {t t' : RazTree E M} {k : Nat},
    RepRT .dcg σ ht t → TInv t → Canon t.tree → t.tree ≠ .nil → (tN .dcg t.tree ++ restCells l).Nodup → t.NeverEmpty l → t.editsAny l = .ok (t', k) →
    ∃ ht' σ', Runs (ht.edits .dcg l) σ ht' σ' ∧ Moved σ ht t σ' ht' t' (restCells l) k
  | [], σ, ht, t, t', k, hr, hi, hc, hf, hn, hl, he => by
    cases he
    refine ⟨ht, σ, .pure, hr, hi, hc, hf, fun x => by simp [restCells], ?_⟩
    intro v v' h1 h2 h3 h4
    rw [View.unique h1 h3]
    exact ⟨[], Nat.le_refl _, fun lv n d l r hw _ => hw⟩
  | (i, ops) :: l, σ, ht, t, t2, k, hr, hi, hc, hf, hn, hl, he => by
    unfold RazTree.editsAny at he
    obtain ⟨o, e0, he⟩ := bind_ok.1 he
    obtain ⟨z, e0', he⟩ := bind_ok.1 he
    obtain ⟨t1, e1, he⟩ := bind_ok.1 he
    obtain ⟨⟨t3, k'⟩, e2, hfin⟩ := bind_ok.1 he
    cases hfin
    have e3 : t.focus i = .ok (some z) := by
      cases o with
      | none => cases e0'
      | some z' => cases e0'; exact e0
    have hcount := nodup_count hn
    simp only [restCells, List.flatMap_cons, List.count_append] at hcount
    obtain ⟨hl1, hl2⟩ := hl
    obtain ⟨hne, hl3⟩ := hl2 t1 e1
    obtain ⟨ht1, σ1, a1, a2, S, a3⟩ := edit_any hr hi hc e3 hl1 (count_nodup fun x => by
      have := hcount x; simp only [List.count_append]; omega) e1 hne
    have hsub := a3.names
    obtain ⟨ht2, σ2, b1, b2⟩ := moves_any l a2 a3.inv a3.canon a3.full (count_nodup fun x => by
      have := hcount x
      have := hsub x
      simp only [List.count_append, restCells] at *
      omega) hl3 e2
    refine ⟨ht2, σ2, Runs.bind a1 b1, b2.rep, b2.inv, b2.canon, b2.full, fun x => ?_, ?_⟩
    · have := hsub x
      have := b2.names x
      simp only [List.count_append, restCells, List.flatMap_cons] at *
      omega
    · intro v v2 h1 h2 h3 h4
      obtain ⟨v1, c1, c2, -⟩ := view_exists a2.tree
      obtain ⟨S', d1, d2⟩ := b2.shared c1 c2 h3 h4
      refine ⟨S ++ S', ?_, (edited_shared a3 hr a2 h1 h2 c1 c2).trans d2⟩
      have := a3.len
      simp only [List.length_append]
      omega

variable [DecidableEq E] [DecidableEq M]

theorem between_any [LawfulMeta E M] {run : HTree M → Sp → HR E M (A × Nat × Sp)} {val : RazTree E M → P B} {Rel : B → A → Sp → Prop}
    {Hist : Sp → List (Tree (Tr × TreeData E M)) → Prop} (hR : Reuses run val Rel Hist) : ∀ (l : List (List (RazMeta.Index E M × List (LOp E))))
    {σ : RMem E M} {ht : HTree M} {t : RazTree E M} {s : Sp} {v : Tree (Tr × TreeData E M)} {vs : List (Tree (Tr × TreeData E M))} {rest},
    Between Hist σ ht t s v vs (batchCells l) → t.NeverEmptied l → t.rerunsAny val l = .ok rest → ∃ outs σ', Runs (ht.reruns run s l) σ outs σ' ∧
      List.Forall₂ (fun (q : B × Nat × Nat) (o : A × Nat × Sp) => Rel q.1 o.1 o.2.2 ∧ o.2.1 ≤ (2 * q.2.1 + 1) * q.2.2) rest outs := by
  intro l
  induction l with
  | nil =>
    intro σ ht t s v vs rest g hl hr
    cases hr
    exact ⟨[], σ, .pure, .nil⟩
  | cons es l ih =>
    intro σ ht t s v vs rest g hl hr
    unfold RazTree.rerunsAny at hr
    obtain ⟨⟨t', k⟩, e1, hr⟩ := bind_ok.1 hr
    obtain ⟨b, e2, hr⟩ := bind_ok.1 hr
    obtain ⟨rest', e3, hfin⟩ := bind_ok.1 hr
    cases hfin
    have g' : Between Hist σ ht t s v vs (restCells es ++ batchCells l) := g
    have hc := nodup_count g'.nodup
    simp only [List.count_append] at hc
    obtain ⟨ht', σ', h1, h3⟩ := moves_any es g.rep g.inv g.canon g.full (count_nodup fun x => by
      have := hc x; simp only [List.count_append]; omega) hl.1 e1
    obtain ⟨a, w, s', v', k2, k3, k4, k5⟩ := between_moved hR g' h3 e2
    obtain ⟨outs, σ'', k6, k7⟩ := ih k5 (hl.2 t' k e1) e3
    exact ⟨(a, w, s') :: outs, σ'', h1.bind (k2.bind (k6.bind .pure)), .cons ⟨k3, k4⟩ k7⟩

theorem reruns_any [LawfulMeta E M] {run : HTree M → Sp → HR E M (A × Nat × Sp)} {val : RazTree E M → P B} {Rel : B → A → Sp → Prop}
    {Hist : Sp → List (Tree (Tr × TreeData E M)) → Prop} (hR : Reuses run val Rel Hist) {new : Sp} (hnew : Hist new []) {ops : List (LOp E)}
    {l : List (List (RazMeta.Index E M × List (LOp E)))} (hn : (LOp.cells ops ++ batchCells l).Nodup) (hl : FullReruns (M := M) ops l) {b : B} {size : Nat}
    {rest : List (B × Nat × Nat)} (hr : rerunAnySession (M := M) val ops l = .ok (b, size, rest)) (σ : RMem E M) :
    ∃ a work s outs f0, (∀ f, f0 ≤ f → (hrerunSession run new ops l f σ).map (·.1) = .ok (a, work, s, outs)) ∧ Rel b a s ∧ work ≤ size ∧
      List.Forall₂ (fun (q : B × Nat × Nat) (o : A × Nat × Sp) => Rel q.1 o.1 o.2.2 ∧ o.2.1 ≤ (2 * q.2.1 + 1) * q.2.2) rest outs := by
  unfold rerunAnySession at hr
  obtain ⟨z, e1, hr⟩ := bind_ok.1 hr
  obtain ⟨t, e2, hr⟩ := bind_ok.1 hr
  obtain ⟨x, e3, hr⟩ := bind_ok.1 hr
  obtain ⟨rest', e4, hfin⟩ := bind_ok.1 hr
  cases hfin
  obtain ⟨hl1, hl2⟩ := hl
  obtain ⟨hne, hl3⟩ := hl2 z t e1 e2
  have hc := nodup_count hn
  simp only [List.count_append] at hc
  have start : GInvs (⟨t.info, .nil⟩ : RazTree E M) (Raz.new : Raz E M) [] [] 0 := ⟨ZInv.empty, ZC.empty, fun a b ha => (by cases ha), fun p hp => (by cases hp),
    fun p hp => (by cases hp), fun lv n hm => (by cases hm), fun x => Nat.le_refl _, fun x => Nat.le_refl _, Nat.le_refl _⟩
  have hnd : (tN .dcg (⟨t.info, .nil⟩ : RazTree E M).tree ++ ([] ++ LOp.cells ops)).Nodup := count_nodup fun x => by
    have := hc x
    simp only [tN, List.nil_append]
    omega
  obtain ⟨hz', σ1, k1, k2, A1, -, -, k3, -⟩ := sim_runs (lops_any (σ := σ) ops start hl1 RepZ.empty hnd) e1
  obtain ⟨ht, σ2, k5, k6, k7, k8, k10, -⟩ := sim_runs (close_any k3 k2 hnd) e2
  obtain ⟨v, a1, a2, a3⟩ := view_exists k6.tree
  have hn' : (tN .dcg t.tree ++ batchCells l).Nodup := count_nodup fun x => by
    have := hc x
    have h1 := k10 x
    simp only [tN, List.nil_append] at h1
    rw [List.count_append]
    omega
  have hnv : (nodeNames v).Nodup := by rw [a3]; exact names_nodup (List.Nodup.of_append_left hn')
  obtain ⟨a, w, s, c1, c2, c3, c4, -⟩ := hR.step hnew trivial a1 a2 hne hnv e3
  obtain ⟨outs, σ3, g1, g2⟩ := between_any hR l ⟨k6, k7, k8, hne, a1, a2, c3, hn', fun w hw => by cases hw⟩ hl3 e4
  obtain ⟨f0, hrun⟩ : Runs (hrerunSession run new ops l) σ (a, w, s, outs) σ3 := k1.bind (k5.bind (c1.bind (g1.bind .pure)))
  refine ⟨a, w, s, outs, f0, fun f hf => by rw [hrun f hf]; rfl, c2, ?_, g2⟩
  rw [← a2, plain_size]
  exact c4

/-! ### The theorems -/

/-- **C83, folds.** As C80, for any edits that do not leave the sequence empty: also such that pop across archive points of the tree, on both sides, or
leave the cursor between two archive points. The results are those of folding from scratch. After a batch the function runs at most
`(2 * k + 1) * gap` times, where `k` is the sum over the edits of the depth of the tree before, times 1 and the number of crossings, and of the named
archive points added. -/
theorem C83_fold [LawfulMeta E M] [DecidableEq R] {f : Fns (TreeData E M) R} {p : Name} {ops : List (LOp E)}
    {l : List (List (RazMeta.Index E M × List (LOp E)))} (hn : (LOp.cells ops ++ batchCells l).Nodup) (hl : FullReruns (M := M) ops l) {b : Option R}
    {size : Nat} {rest : List (Option R × Nat × Nat)} (hr : rerunAnySession (M := M) (fun t => t.tree.foldUpMeta f.up) ops l = .ok (b, size, rest))
    (σ : RMem E M) : ∃ work T outs f0, (∀ n, f0 ≤ n → (hrerunSession (refold f p) Table.empty ops l n σ).map (·.1) = .ok (b, work, T, outs)) ∧ work ≤ size ∧
      List.Forall₂ (fun (q : Option R × Nat × Nat) (o : Option R × Nat × RTable E M R) => o.1 = q.1 ∧ o.2.1 ≤ (2 * q.2.1 + 1) * q.2.2) rest outs := by
  obtain ⟨a, work, T, outs, f0, h1, rfl, h3, h4⟩ := reruns_any (fold_reuses f p) ⟨.start, fun _ => rfl⟩ hn hl hr σ
  exact ⟨work, T, outs, f0, h1, h3, h4⟩

/-- **C83, maps.** The same for `RazTree::map`. -/
theorem C83_map [LawfulMeta E M] [RazMeta F N] [DecidableEq F] [DecidableEq N] {f : E → F} {ops : List (LOp E)}
    {l : List (List (RazMeta.Index E M × List (LOp E)))} (hn : (LOp.cells ops ++ batchCells l).Nodup) (hl : FullReruns (M := M) ops l) {b : RazTree F N}
    {size : Nat} {rest : List (RazTree F N × Nat × Nat)} (hr : rerunAnySession (M := M) (fun t => t.map f) ops l = .ok (b, size, rest)) (σ : RMem E M) :
    ∃ (a : HTree N) (work : Nat) (s : RSpace E M F N) (outs : List (HTree N × Nat × RSpace E M F N)) (f0 : Nat),
      (∀ n, f0 ≤ n → (hrerunSession (countedMap f) Space.empty ops l n σ).map (·.1) = .ok (a, work, s, outs)) ∧ Holds s.mem a b ∧ work ≤ size ∧
      List.Forall₂ (fun (q : RazTree F N × Nat × Nat) (o : HTree N × Nat × RSpace E M F N) =>
        Holds o.2.2.mem o.1 q.1 ∧ o.2.1 ≤ (2 * q.2.1 + 1) * q.2.2) rest outs :=
  reruns_any (map_reuses f) .start hn hl hr σ

/-- **C83, reverse and filter.** The same for the two example programs. -/
theorem C83_rebuild [LawfulMeta E M] [RazMeta E N] [DecidableEq N] {c : Rebuild E} {ops : List (LOp E)} {l : List (List (RazMeta.Index E M × List (LOp E)))}
    (hn : (LOp.cells ops ++ batchCells l).Nodup) (hl : FullReruns (M := M) ops l) {b : Option (RazTree E N)} {size : Nat}
    {rest : List (Option (RazTree E N) × Nat × Nat)} (hr : rerunAnySession (M := M) c.scratch ops l = .ok (b, size, rest)) (σ : RMem E M) :
    ∃ (a : Option (HTree N)) (work : Nat) (s : GSpace E M N) (outs : List (Option (HTree N) × Nat × GSpace E M N)) (f0 : Nat),
      (∀ n, f0 ≤ n → (hrerunSession (countedRebuild c) Space.empty ops l n σ).map (·.1) = .ok (a, work, s, outs)) ∧
      (∃ x y, a = some x ∧ b = some y ∧ Holds s.mem x y) ∧ work ≤ size ∧
      List.Forall₂ (fun (q : Option (RazTree E N) × Nat × Nat) (o : Option (HTree N) × Nat × GSpace E M N) =>
        (∃ x y, o.1 = some x ∧ q.1 = some y ∧ Holds o.2.2.mem x y) ∧ o.2.1 ≤ (2 * q.2.1 + 1) * q.2.2) rest outs :=
  reruns_any (rebuild_reuses c) .start hn hl hr σ

theorem titled_any [LawfulMeta E M] : ∀ (l : List (RazMeta.Index E M × List (LOp E))) {t t' : RazTree E M} {k : Nat}, TreeTitled t →
    (∀ q ∈ l, ∀ op ∈ q.2, op.Titles) → t.NeverEmpty l → t.editsAny l = .ok (t', k) → TreeTitled t'
  | [], t, t', k, h, _, _, he => by cases he; exact h
  | (i, ops) :: l, t, t', k, h, ht, hl, he => by
    obtain ⟨o, -, he⟩ := bind_ok.1 he
    obtain ⟨z, -, he⟩ := bind_ok.1 he
    obtain ⟨t1, e1, he⟩ := bind_ok.1 he
    obtain ⟨⟨t2, k'⟩, e2, hfin⟩ := bind_ok.1 he
    cases hfin
    exact titled_any l (titled_edit h (ht _ List.mem_cons_self) hl.1 e1) (fun q hq => ht q (List.mem_cons_of_mem _ hq)) (hl.2 t1 e1).2 e2

theorem titled_reruns_any [LawfulMeta E M] {val : RazTree E M → P B} : ∀ (l : List (List (RazMeta.Index E M × List (LOp E)))) {t : RazTree E M} {rest},
    TreeTitled t → (∀ es ∈ l, ∀ q ∈ es, ∀ op ∈ q.2, op.Titles) → t.NeverEmptied l → t.rerunsAny val l = .ok rest → ∀ q ∈ rest, q.2.2 ≤ 1
  | [], t, rest, _, _, _, hr => by cases hr; simp
  | es :: l, t, rest, h, ht, hl, hr => by
    obtain ⟨⟨t', k⟩, e1, hr⟩ := bind_ok.1 hr
    obtain ⟨x, e2, hr⟩ := bind_ok.1 hr
    obtain ⟨rest', e3, hfin⟩ := bind_ok.1 hr
    cases hfin
    have h' := titled_any es h (ht _ List.mem_cons_self) hl.1 e1
    intro q hq
    rcases List.mem_cons.1 hq with rfl | hq
    · exact h'.gap
    · exact titled_reruns_any l h' (fun q hq => ht q (List.mem_cons_of_mem _ hq)) (hl.2 t' k e1) e3 q hq

/-- **C83, named archive points.** If all archive points have names then every gap is at most 1: the bound after a batch is `2 * k + 1`. -/
theorem C83_named [LawfulMeta E M] {val : RazTree E M → P B} {ops : List (LOp E)} {l : List (List (RazMeta.Index E M × List (LOp E)))}
    (hl : FullReruns (M := M) ops l) (ht : ∀ op ∈ ops, op.Titles) (ht' : ∀ es ∈ l, ∀ q ∈ es, ∀ op ∈ q.2, op.Titles) {b : B} {size : Nat}
    {rest : List (B × Nat × Nat)} (hr : rerunAnySession (M := M) val ops l = .ok (b, size, rest)) : ∀ q ∈ rest, (2 * q.2.1 + 1) * q.2.2 ≤ 2 * q.2.1 + 1 := by
  obtain ⟨z, e1, hr⟩ := bind_ok.1 hr
  obtain ⟨t, e2, hr⟩ := bind_ok.1 hr
  obtain ⟨x, e3, hr⟩ := bind_ok.1 hr
  obtain ⟨rest', e4, hfin⟩ := bind_ok.1 hr
  cases hfin
  have h0 : AllTitled (Raz.new : Raz E M) := ⟨ZInv.empty, fun i hi => (by cases hi), fun i hi => (by cases hi)⟩
  intro q hq
  have := titled_reruns_any l (titled_unfocus (titled_lops h0 ht hl.1 e1) e2) ht' (hl.2 z t e1 e2).2 e4 q hq
  exact Nat.le_trans (Nat.mul_le_mul_left _ this) (Nat.le_of_eq (Nat.mul_one _))

omit [RazMeta E M] [DecidableEq E] [DecidableEq M] in
theorem near_hand {l : List (Item E)} (h : Iodyn.Near l) : atHand l = true ∧ atMark l = false := by
  obtain ⟨i, r, rfl, h⟩ := h
  cases i with
  | mark lev nm => exact absurd rfl (h lev nm)
  | elem => exact ⟨rfl, rfl⟩
  | pend => exact ⟨rfl, rfl⟩

omit [DecidableEq E] [DecidableEq M] in
theorem local_crossings : ∀ {ops : List (LOp E)} {z z' : Raz E M}, z.Local ops → z.lops ops = .ok z' → z.crossings ops = 0
  | [], z, z', hl, _ => by
    rcases hl with hl | hl <;> simp [Raz.crossings, (near_hand hl).1]
  | op :: l, z, z', hl, ho => by
    obtain ⟨z1, h1, ho⟩ := bind_ok.1 ho
    have h2 := local_crossings (hl.2 z1 h1) ho
    have h3 := hl.1
    simp only [Raz.crossings, h1, h2]
    cases op with
    | popL => simp [LOp.crosses, (near_hand h3).2]
    | popR => simp [LOp.crosses, (near_hand h3).2]
    | _ => rfl

omit [DecidableEq E] [DecidableEq M] in
theorem local_any : ∀ (l : List (RazMeta.Index E M × List (LOp E))) {t t' : RazTree E M} {k : Nat}, t.LocalEdit l → t.edits l = .ok (t', k) →
    t.editsAny l = .ok (t', k)
  | [], t, t', k, _, he => he
  | (i, ops) :: l, t, t', k, hl, he => by
    obtain ⟨t1, e1, he⟩ := bind_ok.1 he
    obtain ⟨⟨t2, k'⟩, e2, hfin⟩ := bind_ok.1 he
    cases hfin
    have h1 := local_any l (hl.2 t1 e1) e2
    have e1' := e1
    obtain ⟨o, f1, e1⟩ := bind_ok.1 e1
    obtain ⟨z, f2, e1⟩ := bind_ok.1 e1
    obtain ⟨z', f3, -⟩ := bind_ok.1 e1
    have h2 : z.crossings ops = 0 := by
      cases o with
      | none => cases f2
      | some z0 => cases f2; exact local_crossings (hl.1 z f1) f3
    refine bind_ok.2 ⟨o, f1, bind_ok.2 ⟨z, f2, bind_ok.2 ⟨t1, e1', bind_ok.2 ⟨_, h1, ?_⟩⟩⟩⟩
    simp [h2, pure, Except.pure]

omit [DecidableEq E] [DecidableEq M] in
theorem local_reruns_any {val : RazTree E M → P B} : ∀ (l : List (List (RazMeta.Index E M × List (LOp E)))) {t : RazTree E M} {rest}, t.LocalBatches l →
    t.reruns val l = .ok rest → t.rerunsAny val l = .ok rest
  | [], t, rest, _, hr => hr
  | es :: l, t, rest, hl, hr => by
    obtain ⟨⟨t', k⟩, e1, hr⟩ := bind_ok.1 hr
    obtain ⟨x, e2, hr⟩ := bind_ok.1 hr
    obtain ⟨rest', e3, hfin⟩ := bind_ok.1 hr
    cases hfin
    exact bind_ok.2 ⟨_, local_any es hl.1 e1, bind_ok.2 ⟨_, e2, bind_ok.2 ⟨_, local_reruns_any l (hl.2 t' k e1) e3, rfl⟩⟩⟩

omit [DecidableEq E] [DecidableEq M] in
/-- **C83, local edits.** For local edits the numbers are those of C80. -/
theorem C83_local {val : RazTree E M → P B} {ops : List (LOp E)} {l : List (List (RazMeta.Index E M × List (LOp E)))} (hl : LocalReruns (M := M) ops l)
    {q : B × Nat × List (B × Nat × Nat)} (hr : rerunSession (M := M) val ops l = .ok q) : rerunAnySession (M := M) val ops l = .ok q := by
  obtain ⟨z, e1, hr⟩ := bind_ok.1 hr
  obtain ⟨t, e2, hr⟩ := bind_ok.1 hr
  obtain ⟨x, e3, hr⟩ := bind_ok.1 hr
  obtain ⟨rest', e4, hfin⟩ := bind_ok.1 hr
  cases hfin
  exact bind_ok.2 ⟨z, e1, bind_ok.2 ⟨t, e2, bind_ok.2 ⟨x, e3, bind_ok.2 ⟨rest', local_reruns_any l (hl.2 z t e1 e2) e4, rfl⟩⟩⟩⟩

omit [DecidableEq E] [DecidableEq M] in
theorem crossings_pops : ∀ (ops : List (LOp E)) (z : Raz E M), z.crossings ops ≤ LOp.pops ops + 1
  | [], z => by unfold Raz.crossings; split <;> omega
  | op :: l, z => by
    unfold Raz.crossings
    split
    · rename_i z' _
      have := crossings_pops l z'
      cases op <;> simp only [LOp.crosses, LOp.pops] <;> (try split) <;> omega
    · omega

omit [DecidableEq E] [DecidableEq M] in
/-- **C83, pops.** The number of a single edit is at most the depth of the tree before, times 2 and the number of its pops, and the named archive points
added. -/
theorem C83_pops {t t' : RazTree E M} {i : RazMeta.Index E M} {ops : List (LOp E)} {k : Nat} (h : t.editsAny [(i, ops)] = .ok (t', k)) :
    k ≤ (2 + LOp.pops ops) * t.tree.depth + LOp.points ops := by
  obtain ⟨o, -, he⟩ := bind_ok.1 h
  obtain ⟨z, -, he⟩ := bind_ok.1 he
  obtain ⟨t1, e1, he⟩ := bind_ok.1 he
  obtain ⟨⟨t2, k'⟩, e2, hfin⟩ := bind_ok.1 he
  cases e2
  cases hfin
  have := Nat.mul_le_mul_right t.tree.depth (show 1 + z.crossings ops ≤ 2 + LOp.pops ops by have := crossings_pops ops z; omega)
  omega

/-! ### A session that meets the conditions -/

/-- `LOp.Lifts` as a test. -/
def liftsB : List (LOp E) → Bool
  | [] => true
  | .archL lev _ :: l => decide (1 ≤ lev) && liftsB l
  | .archR lev _ :: l => decide (1 ≤ lev) && liftsB l
  | _ :: l => liftsB l

omit [DecidableEq E] in
theorem liftsB_sound : ∀ {ops : List (LOp E)}, liftsB ops = true → ∀ op ∈ ops, op.Lifts
  | [], _, o, h => by cases h
  | op :: l, hb, o, h => by
    cases op <;> simp only [liftsB, Bool.and_eq_true, decide_eq_true_eq] at hb <;> rcases List.mem_cons.1 h with rfl | h <;>
      first | trivial | exact hb.1 | exact liftsB_sound hb.2 o h | exact liftsB_sound hb o h

/-- The tree has a node. -/
def isNode : Tree D → Bool
  | .nil => false
  | _ => true

theorem isNode_sound {t : Tree D} (h : isNode t = true) : t ≠ .nil := by rintro rfl; cases h

/-- `RazTree.NeverEmpty` as a test. -/
def fullB : List (RazMeta.Index E M × List (LOp E)) → RazTree E M → Bool
  | [], _ => true
  | (i, ops) :: l, t => liftsB ops && match t.edit i ops with
    | .ok t' => isNode t'.tree && fullB l t'
    | .error _ => true

omit [DecidableEq E] [DecidableEq M] in
theorem fullB_sound : ∀ {l : List (RazMeta.Index E M × List (LOp E))} {t : RazTree E M}, fullB l t = true → t.NeverEmpty l
  | [], t, _ => trivial
  | (i, ops) :: l, t, h => by
    simp only [fullB, Bool.and_eq_true] at h
    refine ⟨liftsB_sound h.1, fun t' ht => ?_⟩
    have h2 := h.2
    rw [ht] at h2
    simp only [Bool.and_eq_true] at h2
    exact ⟨isNode_sound h2.1, fullB_sound h2.2⟩

/-- `RazTree.NeverEmptied` as a test. -/
def fullBatchesB : List (List (RazMeta.Index E M × List (LOp E))) → RazTree E M → Bool
  | [], _ => true
  | es :: l, t => fullB es t && match t.editsAny es with
    | .ok (t', _) => fullBatchesB l t'
    | .error _ => true

omit [DecidableEq E] [DecidableEq M] in
theorem fullBatchesB_sound : ∀ {l : List (List (RazMeta.Index E M × List (LOp E)))} {t : RazTree E M}, fullBatchesB l t = true → t.NeverEmptied l
  | [], t, _ => trivial
  | es :: l, t, h => by
    simp only [fullBatchesB, Bool.and_eq_true] at h
    refine ⟨fullB_sound h.1, fun t' k ht => fullBatchesB_sound ?_⟩
    have := h.2; rw [ht] at this; exact this

/-- `FullReruns` as a test. -/
def fullRerunsB (ops : List (LOp E)) (l : List (List (RazMeta.Index E M × List (LOp E)))) : Bool :=
  liftsB ops && match (do let z ← (Raz.new : Raz E M).lops ops; z.unfocus : P (RazTree E M)) with
    | .ok t => isNode t.tree && fullBatchesB l t
    | .error _ => true

omit [DecidableEq E] [DecidableEq M] in
theorem fullRerunsB_sound {ops : List (LOp E)} {l : List (List (RazMeta.Index E M × List (LOp E)))} (h : fullRerunsB (M := M) ops l = true) :
    FullReruns (M := M) ops l := by
  simp only [fullRerunsB, Bool.and_eq_true] at h
  refine ⟨liftsB_sound h.1, fun z t e1 e2 => ?_⟩
  have h2 := h.2
  rw [show (do let z ← (Raz.new : Raz E M).lops ops; z.unfocus : P (RazTree E M)) = .ok t from bind_ok.2 ⟨z, e1, e2⟩] at h2
  simp only [Bool.and_eq_true] at h2
  exact ⟨isNode_sound h2.1, fullBatchesB_sound h2.2⟩

/-- Two batches for the sequence `exOps`: pops across two archive points on the left; then pops of all that is next to the cursor, and pops across
archive points on the right. -/
def exCrossing : List (List (RazMeta.Index Nat Count × List (LOp Nat))) :=
  [[((5 : Nat), [.popL, .popL, .popL, .pushL 10])], [((2 : Nat), [.popL]), ((3 : Nat), [.popR, .popR, .archL 2 (some (.usize 8)), .pushR 20])]]

set_option synthInstance.maxSize 1000 in
/-- The conditions of `C83_fold` and `C83_named`. The session is not one of C80. -/
example : (LOp.cells exOps ++ batchCells exCrossing).Nodup ∧ FullReruns (M := Count) exOps exCrossing ∧ (∀ op ∈ exOps, op.Titles) ∧
    (∀ es ∈ exCrossing, ∀ q ∈ es, ∀ op ∈ q.2, op.Titles) ∧ rerunsB (M := Count) exOps exCrossing = false ∧
    rerunAnySession (M := Count) (fun t => t.tree.foldUpMeta sumF.fns.up) exOps exCrossing = .ok (some 36, 15, [(some 34, 9, 1), (some 37, 16, 1)]) := by
  refine ⟨by decide +kernel, fullRerunsB_sound (by decide +kernel), ?_, ?_, by decide +kernel, by decide +kernel⟩
  · simp [exOps, LOp.Titles]
  · intro es h1 q h2
    simp only [exCrossing, List.mem_cons, List.not_mem_nil, or_false] at h1
    rcases h1 with rfl | rfl <;> simp only [List.mem_cons, List.not_mem_nil, or_false] at h2
    · subst h2; simp [LOp.Titles]
    · rcases h2 with rfl | rfl <;> simp [LOp.Titles]

set_option synthInstance.maxSize 1000 in
/-- The last condition of `C83_map`: elements of the mapped sequences, numbers and gaps. -/
example : (rerunAnySession (M := Count) (fun t => (t.map (· + 1) : P (RazTree Nat Count))) exOps exCrossing).map
    (fun x => (x.1.elems, x.2.1, x.2.2.map (fun q => (q.1.elems, q.2)))) =
    .ok ([2, 3, 4, 5, 6, 7, 8, 9], 15, [([2, 3, 11, 7, 8, 9], 9, 1), ([2, 11, 7, 21], 16, 1)]) := by
  decide +kernel

set_option synthInstance.maxSize 1000 in
/-- The last condition of `C83_rebuild`. -/
example : (rerunAnySession (M := Count) (Rebuild.scratch (N := Count) .reverse) exOps exCrossing).map
    (fun x => (x.1.map (·.elems), x.2.1, x.2.2.map (fun q => (q.1.map (·.elems), q.2)))) =
    .ok (some [8, 7, 6, 5, 4, 3, 2, 1], 15, [(some [8, 7, 6, 10, 2, 1], 9, 1), (some [20, 6, 10, 1], 16, 1)]) := by
  decide +kernel

/-- The condition of `C83_pops`, for the first edit of the session: three pops, at depth 3. -/
example : ((do let z ← (Raz.new : Raz Nat Count).lops exOps; let t ← z.unfocus; let (_, k) ← t.editsAny exCrossing.head!; return (k, t.tree.depth)) : P (Nat × Nat)) =
    .ok (9, 3) := by
  decide +kernel

/-- The conditions of `C83_local` are those of C80; the session is that of C80. -/
example : LocalReruns (M := Count) exOps exBatches ∧
    (rerunSession (M := Count) (fun t => t.tree.foldUpMeta sumF.fns.up) exOps exBatches).toOption.isSome = true :=
  ⟨rerunsB_sound (by decide +kernel), by decide +kernel⟩

/-- The work of the three computations in this session over the store. -/
example : (hrerunSession (M := Count) (refold sumF.fns .unit) Table.empty exOps exCrossing 99 Store.empty).map (fun x => (x.1.2.1, x.1.2.2.2.map (·.2.1))) =
      .ok (15, [4, 6]) ∧
    (hrerunSession (M := Count) (countedMap (N := Count) (· + 1)) Space.empty exOps exCrossing 99 Store.empty).map (fun x => (x.1.2.1, x.1.2.2.2.map (·.2.1))) =
      .ok (15, [4, 6]) ∧
    (hrerunSession (M := Count) (countedRebuild (N := Count) .reverse) Space.empty exOps exCrossing 99 Store.empty).map
      (fun x => (x.1.2.1, x.1.2.2.2.map (·.2.1))) = .ok (15, [4, 6]) := by
  refine ⟨by decide +kernel, by decide +kernel, by decide +kernel⟩

end Iodyn.Incr
