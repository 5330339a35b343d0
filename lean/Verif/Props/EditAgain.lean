import Verif.Spec.EditAgain
import Verif.Props.EditCost
import Verif.Props.IncrFold
/-
C80 the work of memoised computations between batches of edits.
-/
namespace Iodyn.Incr
open Iodyn.Heap
variable {E M F N A B Sp R D X : Type}

theorem Shared.trans {S S' : List Name} {v v' v'' : Tree D} (h : Shared S v v') (h' : Shared S' v' v'') : Shared (S ++ S') v v'' := by
  intro lv n d l r hw hn
  exact h lv n d l r (h' lv n d l r hw (fun hx => hn (List.mem_append_right _ hx))) (fun hx => hn (List.mem_append_left _ hx))

variable [RazMeta E M]

/-- A batch of edits: the old sequence and the new one. -/
structure Moved (σ : RMem E M) (ht : HTree M) (t : RazTree E M) (σ' : RMem E M) (ht' : HTree M) (t' : RazTree E M) (cells : List Name) (k : Nat) : Prop where
  rep : RepRT .dcg σ' ht' t'
  inv : TInv t'
  canon : Canon t'.tree
  full : t'.tree ≠ .nil
  names : Sub (tN .dcg t'.tree) (tN .dcg t.tree ++ cells)
  shared : ∀ {v v'}, View σ ht.tree v → plain v = t.tree → View σ' ht'.tree v' → plain v' = t'.tree → ∃ S, S.length ≤ k ∧ Shared S v v'

theorem moves [LawfulMeta E M] : ∀ (l : List (RazMeta.Index E M × List (LOp E))) {σ : RMem E M} {ht : HTree M} {t t' : RazTree E M} {k : Nat},
    RepRT .dcg σ ht t → TInv t → Canon t.tree → t.tree ≠ .nil → (tN .dcg t.tree ++ restCells l).Nodup → t.LocalEdit l → t.edits l = .ok (t', k) →
    ∃ ht' σ', Runs (ht.edits .dcg l) σ ht' σ' ∧ Moved σ ht t σ' ht' t' (restCells l) k
  | [], σ, ht, t, t', k, hr, hi, hc, hf, hn, hl, he => by
    cases he
    refine ⟨ht, σ, .pure, hr, hi, hc, hf, fun x => by simp [restCells], ?_⟩
    intro v v' h1 h2 h3 h4
    rw [View.unique h1 h3]
    exact ⟨[], Nat.le_refl _, fun lv n d l r hw _ => hw⟩
  | (i, ops) :: l, σ, ht, t, t2, k, hr, hi, hc, hf, hn, hl, he => by
    unfold RazTree.edits at he
    obtain ⟨t1, e1, he⟩ := bind_ok.1 he
    obtain ⟨⟨t3, k'⟩, e2, hfin⟩ := bind_ok.1 he
    cases hfin
    have hcount := nodup_count hn
    simp only [restCells, List.flatMap_cons, List.count_append] at hcount
    obtain ⟨ht1, σ1, a1, a2, S, a3⟩ := sim_runs (edit_sim hr hi hc hl.1 (count_nodup fun x => by
      have := hcount x; simp only [List.count_append]; omega)) e1
    have hsub := a3.names
    obtain ⟨ht2, σ2, b1, b2⟩ := moves l a2 a3.inv a3.canon a3.full (count_nodup fun x => by
      have := hcount x
      have := hsub x
      simp only [List.count_append, restCells] at *
      omega) (hl.2 t1 e1) e2
    refine ⟨ht2, σ2, a1.bind b1, b2.rep, b2.inv, b2.canon, b2.full, fun x => ?_, ?_⟩
    · have := hsub x
      have := b2.names x
      simp only [List.count_append, restCells, List.flatMap_cons] at *
      omega
    · intro v v2 h1 h2 h3 h4
      obtain ⟨v1, c1, c2, -⟩ := view_exists a2.tree
      obtain ⟨S', d1, d2⟩ := b2.shared c1 c2 h3 h4
      refine ⟨S ++ S', ?_, (edited_shared a3 hr a2 h1 h2 c1 c2).trans d2⟩
      have := a3.len
      simp only [List.length_append]
      omega

/-- A computation that stores its calls: after computing for a list of trees (the last one first), which is what `Hist` says, the next one gives
the result, and runs at most where the last one has not been. -/
structure Reuses (run : HTree M → Sp → HR E M (A × Nat × Sp)) (val : RazTree E M → P B) (Rel : B → A → Sp → Prop)
    (Hist : Sp → List (Tree (Tr × TreeData E M)) → Prop) [DecidableEq E] [DecidableEq M] : Prop where
  step : ∀ {s vs σ} {ht : HTree M} {t : RazTree E M} {v b}, Hist s vs → NoReturn vs v → View σ ht.tree v → plain v = t.tree → t.tree ≠ .nil →
    (nodeNames v).Nodup → val t = .ok b → ∃ a w s', Runs (run ht s) σ (a, w, s') σ ∧ Rel b a s' ∧ Hist s' (v :: vs) ∧ w ≤ v.size ∧
      ∀ v0 vs', vs = v0 :: vs' → w ≤ cost (points v0) v

variable [DecidableEq E] [DecidableEq M]

/-- What holds between the batches. -/
structure Between (Hist : Sp → List (Tree (Tr × TreeData E M)) → Prop) (σ : RMem E M) (ht : HTree M) (t : RazTree E M) (s : Sp)
    (v : Tree (Tr × TreeData E M)) (vs : List (Tree (Tr × TreeData E M))) (rest : List Name) : Prop where
  rep : RepRT .dcg σ ht t
  inv : TInv t
  canon : Canon t.tree
  full : t.tree ≠ .nil
  view : View σ ht.tree v
  plain : plain v = t.tree
  hist : Hist s (v :: vs)
  nodup : (tN .dcg t.tree ++ rest).Nodup
  past : ∀ w ∈ vs, ∀ x ∈ nodeNames w, x ∉ rest

theorem between_moved {run : HTree M → Sp → HR E M (A × Nat × Sp)} {val : RazTree E M → P B} {Rel : B → A → Sp → Prop}
    {Hist : Sp → List (Tree (Tr × TreeData E M)) → Prop} (hR : Reuses run val Rel Hist) {σ : RMem E M} {ht : HTree M} {t t' : RazTree E M} {s : Sp}
    {v : Tree (Tr × TreeData E M)} {vs : List (Tree (Tr × TreeData E M))} {ht' : HTree M} {σ' : RMem E M} {cells rest : List Name} {k : Nat} {b : B}
    (g : Between Hist σ ht t s v vs (cells ++ rest)) (h3 : Moved σ ht t σ' ht' t' cells k) (hb : val t' = .ok b) :
    ∃ a w s' v', Runs (run ht' s) σ' (a, w, s') σ' ∧ Rel b a s' ∧ w ≤ (2 * k + 1) * t'.tree.gap ∧
      Between Hist σ' ht' t' s' v' (v :: vs) rest := by
  have hc := nodup_count g.nodup
  simp only [List.count_append] at hc
  obtain ⟨v', a1, a2, a3⟩ := view_exists h3.rep.tree
  have hsub := h3.names
  have hn' : (tN .dcg t'.tree ++ rest).Nodup := count_nodup fun x => by
    have := hc x
    have := hsub x
    simp only [List.count_append] at *
    omega
  have hn : (nodeNames v').Nodup := by rw [a3]; exact names_nodup (List.Nodup.of_append_left hn')
  have hnv : ∀ x, x ∈ nodeNames v ↔ x ∈ tN .dcg t.tree := fun x => by rw [← nodeNames_plain, g.plain, names_mem]
  have hr : NoReturn (v :: vs) v' := by
    intro m hm hno w hw hmw
    obtain ⟨n, k1, k2⟩ := memo_name hm
    obtain ⟨n', k3, k4⟩ := memo_name hmw
    have hnn : n = n' := by rcases k2 with rfl | rfl <;> rcases k4 with k4 | k4 <;> cases k4 <;> rfl
    subst hnn
    have hnot : n ∉ nodeNames v := by
      intro hnv
      have := name_memo (by rw [g.plain]; exact g.inv.wf.resolve_left g.full) n hnv
      rcases k2 with rfl | rfl
      · exact hno this.1
      · exact hno this.2
    rw [a3, names_mem] at k1
    rcases List.mem_append.1 (hsub.subset k1) with k1 | k1
    · exact hnot ((hnv n).2 k1)
    · exact g.past w hw n k3 (List.mem_append_left _ k1)
  obtain ⟨a, w, s', c1, c2, c3, -, c5⟩ := hR.step g.hist hr a1 a2 h3.full hn hb
  obtain ⟨S, d1, d2⟩ := h3.shared g.view g.plain a1 a2
  refine ⟨a, w, s', v', c1, c2, ?_, h3.rep, h3.inv, h3.canon, h3.full, a1, a2, c3, hn', ?_⟩
  · refine Nat.le_trans (c5 v vs rfl) (Nat.le_trans (cost_top d2) (Nat.le_trans (top_bound hn) ?_))
    rw [← a2, gap_plain]
    exact Nat.mul_le_mul_right _ (by omega)
  · intro w hw x hx hx'
    rcases List.mem_cons.1 hw with rfl | hw
    · have b1 := List.count_pos_iff.2 ((hnv x).1 hx)
      have b2 := List.count_pos_iff.2 hx'
      have := hc x
      omega
    · exact g.past w hw x hx (List.mem_append_right _ hx')

theorem between_step [LawfulMeta E M] {run : HTree M → Sp → HR E M (A × Nat × Sp)} {val : RazTree E M → P B} {Rel : B → A → Sp → Prop}
    {Hist : Sp → List (Tree (Tr × TreeData E M)) → Prop} (hR : Reuses run val Rel Hist) {σ : RMem E M} {ht : HTree M} {t t' : RazTree E M} {s : Sp}
    {v : Tree (Tr × TreeData E M)} {vs : List (Tree (Tr × TreeData E M))} {es : List (RazMeta.Index E M × List (LOp E))} {rest : List Name} {k : Nat} {b : B}
    (g : Between Hist σ ht t s v vs (restCells es ++ rest)) (hl : t.LocalEdit es) (he : t.edits es = .ok (t', k)) (hb : val t' = .ok b) :
    ∃ ht' σ' a w s' v', Runs (ht.edits .dcg es) σ ht' σ' ∧ Runs (run ht' s) σ' (a, w, s') σ' ∧ Rel b a s' ∧ w ≤ (2 * k + 1) * t'.tree.gap ∧
      Between Hist σ' ht' t' s' v' (v :: vs) rest := by
  have hc := nodup_count g.nodup
  simp only [List.count_append] at hc
  obtain ⟨ht', σ', h1, h3⟩ := moves es g.rep g.inv g.canon g.full (count_nodup fun x => by
    have := hc x; simp only [List.count_append]; omega) hl he
  obtain ⟨a, w, s', v', c1, c2, c3, c4⟩ := between_moved hR g h3 hb
  exact ⟨ht', σ', a, w, s', v', h1, c1, c2, c3, c4⟩

theorem between_all [LawfulMeta E M] {run : HTree M → Sp → HR E M (A × Nat × Sp)} {val : RazTree E M → P B} {Rel : B → A → Sp → Prop}
    {Hist : Sp → List (Tree (Tr × TreeData E M)) → Prop} (hR : Reuses run val Rel Hist) : ∀ (l : List (List (RazMeta.Index E M × List (LOp E))))
    {σ : RMem E M} {ht : HTree M} {t : RazTree E M} {s : Sp} {v : Tree (Tr × TreeData E M)} {vs : List (Tree (Tr × TreeData E M))} {rest},
    Between Hist σ ht t s v vs (batchCells l) → t.LocalBatches l → t.reruns val l = .ok rest → ∃ outs σ', Runs (ht.reruns run s l) σ outs σ' ∧
      List.Forall₂ (fun (q : B × Nat × Nat) (o : A × Nat × Sp) => Rel q.1 o.1 o.2.2 ∧ o.2.1 ≤ (2 * q.2.1 + 1) * q.2.2) rest outs := by
  intro l
  induction l with
  | nil =>
    intro σ ht t s v vs rest g hl hr
    cases hr
    exact ⟨[], σ, .pure, .nil⟩
  | cons es l ih =>
    intro σ ht t s v vs rest g hl hr
    unfold RazTree.reruns at hr
    obtain ⟨⟨t', k⟩, e1, hr⟩ := bind_ok.1 hr
    obtain ⟨b, e2, hr⟩ := bind_ok.1 hr
    obtain ⟨rest', e3, hfin⟩ := bind_ok.1 hr
    cases hfin
    obtain ⟨ht', σ', a, w, s', v', k1, k2, k3, k4, k5⟩ := between_step hR (rest := batchCells l) g hl.1 e1 e2
    obtain ⟨outs, σ'', k6, k7⟩ := ih k5 (hl.2 t' k e1) e3
    exact ⟨(a, w, s') :: outs, σ'', k1.bind (k2.bind (k6.bind .pure)), .cons ⟨k3, k4⟩ k7⟩

theorem reruns_of [LawfulMeta E M] {run : HTree M → Sp → HR E M (A × Nat × Sp)} {val : RazTree E M → P B} {Rel : B → A → Sp → Prop}
    {Hist : Sp → List (Tree (Tr × TreeData E M)) → Prop} (hR : Reuses run val Rel Hist) {new : Sp} (hnew : Hist new []) {ops : List (LOp E)}
    {l : List (List (RazMeta.Index E M × List (LOp E)))} (hn : (LOp.cells ops ++ batchCells l).Nodup) (hl : LocalReruns (M := M) ops l) {b : B} {size : Nat}
    {rest : List (B × Nat × Nat)} (hr : rerunSession (M := M) val ops l = .ok (b, size, rest)) (σ : RMem E M) :
    ∃ a work s outs f0, (∀ f, f0 ≤ f → (hrerunSession run new ops l f σ).map (·.1) = .ok (a, work, s, outs)) ∧ Rel b a s ∧ work ≤ size ∧
      List.Forall₂ (fun (q : B × Nat × Nat) (o : A × Nat × Sp) => Rel q.1 o.1 o.2.2 ∧ o.2.1 ≤ (2 * q.2.1 + 1) * q.2.2) rest outs := by
  unfold rerunSession at hr
  obtain ⟨z, e1, hr⟩ := bind_ok.1 hr
  obtain ⟨t, e2, hr⟩ := bind_ok.1 hr
  obtain ⟨x, e3, hr⟩ := bind_ok.1 hr
  obtain ⟨rest', e4, hfin⟩ := bind_ok.1 hr
  cases hfin
  have hc := nodup_count hn
  simp only [List.count_append] at hc
  have start : LInvs (Raz.new : Raz E M) (Raz.new : Raz E M) [] 0 := ⟨ZInv.empty, ZC.empty, rfl, rfl, fun x => Nat.le_refl _, Nat.le_refl _⟩
  have hz : ∀ x, (cN .dcg (Raz.new : Raz E M).lForest ++ cN .dcg (Raz.new : Raz E M).rForest).count x = 0 := fun x => rfl
  have hnd : (cN .dcg (Raz.new : Raz E M).lForest ++ cN .dcg (Raz.new : Raz E M).rForest ++ LOp.cells ops).Nodup := count_nodup fun x => by
    have := hc x
    rw [List.count_append, hz]
    omega
  obtain ⟨hz', σ1, k1, k2, k3, k4, -⟩ := sim_runs (lops_sim (σ := σ) ops start hl.1 RepZ.empty hnd) e1
  obtain ⟨ht, σ2, k5, k6, k7, k8, k9, k10, -⟩ := sim_runs (close_sim k3 k4 k2 hnd) e2
  obtain ⟨v, a1, a2, a3⟩ := view_exists k6.tree
  have hn' : (tN .dcg t.tree ++ batchCells l).Nodup := count_nodup fun x => by
    have := hc x
    have h1 := k10 x
    rw [List.count_append, hz] at h1
    simp only [List.nil_append] at h1
    rw [List.count_append]
    omega
  have hnv : (nodeNames v).Nodup := by rw [a3]; exact names_nodup (List.Nodup.of_append_left hn')
  obtain ⟨a, w, s, c1, c2, c3, c4, -⟩ := hR.step hnew trivial a1 a2 k9 hnv e3
  obtain ⟨outs, σ3, g1, g2⟩ := between_all hR l ⟨k6, k7, k8, k9, a1, a2, c3, hn', fun w hw => by cases hw⟩ (hl.2 z t e1 e2) e4
  obtain ⟨f0, hrun⟩ : Runs (hrerunSession run new ops l) σ (a, w, s, outs) σ3 := k1.bind (k5.bind (c1.bind (g1.bind .pure)))
  refine ⟨a, w, s, outs, f0, fun f hf => by rw [hrun f hf]; rfl, c2, ?_, g2⟩
  rw [← a2, plain_size]
  exact c4

omit [RazMeta E M] [DecidableEq E] [DecidableEq M] in
theorem view_root {σ : RMem E M} {h : Option Tr} {v : Tree (Tr × TreeData E M)} {t : Tree (TreeData E M)} (hv : View σ h v) (hp : plain v = t)
    (ht : t ≠ .nil) : ∃ k, h = some k := by
  cases hv with
  | nil => exact absurd hp.symm ht
  | node => exact ⟨_, rfl⟩

/-- `fold_up` stores its calls. -/
theorem fold_reuses [DecidableEq R] (F : Fns (TreeData E M) R) (p : Name) :
    Reuses (refold F p) (fun t : RazTree E M => t.tree.foldUpMeta F.up) (fun b a _ => a = b)
      (fun T vs => UpHistory (fun _ => F) p T vs ∧ (vs = [] → T = Table.empty)) := by
  constructor
  rintro s vs σ ht t v b ⟨hs, h0⟩ hr hv hp hf hn hb
  obtain ⟨x, rfl⟩ := fold_some hf hb
  obtain ⟨h, hh⟩ := view_root hv hp hf
  rw [hh] at hv
  rw [← hp] at hb
  cases vs with
  | nil =>
    rw [h0 rfl] at hs ⊢
    obtain ⟨o, o1, o2, o3⟩ := first_fold (F := fun _ => F) (p := p) hv hn hb
    subst o2
    exact ⟨_, _, _, refold_runs hh o1, rfl, ⟨.fold hs hv hn hr hb (o1 _ (Nat.le_refl _)), fun h => by cases h⟩, o3, fun _ _ h => by cases h⟩
  | cons v0 vs =>
    obtain ⟨o, o1, o2, o3⟩ := C60_session (F := fun _ => F) hs hv hn hb
    subst o2
    refine ⟨_, _, _, refold_runs hh o1, rfl, ⟨.fold hs hv hn hr hb (o1 _ (Nat.le_refl _)), fun h => (by cases h)⟩, Nat.le_trans o3 (cost_le_size _ _), ?_⟩
    rintro _ _ ⟨⟩
    exact o3

variable [RazMeta F N] [DecidableEq F] [DecidableEq N]

/-- `RazTree::map` stores its calls. -/
theorem map_reuses (f : E → F) :
    Reuses (countedMap f) (fun t : RazTree E M => (t.map f : P (RazTree F N))) (fun b a s => Holds s.mem a b)
      (MapHistory (razMapFn f : MapFn (TreeData E M) (TreeData F N))) := by
  constructor
  intro s vs σ ht t v b hs hr hv hp hf hn hb
  obtain ⟨h, hh⟩ := view_root hv hp hf
  rw [hh] at hv
  rw [razMap_eq, ← hp] at hb
  obtain ⟨t', e1, e2⟩ := bind_ok.1 hb
  have main : ∃ o, (∀ n, v.size ≤ n → amrun (mapBody (razMapFn f : MapFn (TreeData E M) (TreeData F N))) σ n h s = some (.ok o)) ∧
      (∃ w, View o.space.mem (some o.val) w ∧ plain w = t') ∧ o.work ≤ v.size ∧ ∀ v0 vs', vs = v0 :: vs' → o.work ≤ cost (points v0) v := by
    cases vs with
    | nil =>
      have h1 := map_run (X' := Nat × List F) (razMapFn f : MapFn (TreeData E M) (TreeData F N)) σ [] v v.size (Nat.le_refl _) h s hv hn hs.kept.inv
      rw [e1] at h1
      obtain ⟨o, h2, p⟩ := h1
      exact ⟨o, fun n hle => amrun_mono hle h2, p.res _ p.facts, Nat.le_trans (p.work (fun q _ h => by cases h)) (cost_le_size [] v), fun _ _ h => by cases h⟩
    | cons v0 vs =>
      obtain ⟨o, o1, o2, o3⟩ := C62_session hs hv hn e1
      exact ⟨o, o1, o2, Nat.le_trans o3 (cost_le_size _ _), by rintro _ _ ⟨⟩; exact o3⟩
  obtain ⟨o, o1, ⟨w, w1, w2⟩, o3, o4⟩ := main
  have hb' : b.tree = t' := by
    unfold mkRazTree at e2
    obtain ⟨y, -, hfin⟩ := bind_ok.1 e2
    cases hfin
    rfl
  refine ⟨⟨b.info, some o.val⟩, o.work, o.space, ⟨v.size, fun n hle => ?_⟩, ⟨rfl, fun n hle => ?_⟩, .map hs hv hn hr (o1 _ (Nat.le_refl _)), o3, o4⟩
  · unfold countedMap razMap
    simp only [hh, o1 n hle, mkTree_view w1, w2, e2, Except.map]
  · rw [hb', ← w2]
    exact readTree_view w1 n (by rw [← plain_size, w2, ← hb']; exact hle)

/-- Reverse and filter store their calls. -/
theorem rebuild_reuses [RazMeta E N] (c : Rebuild E) :
    Reuses (countedRebuild c) (fun t : RazTree E M => (c.scratch t : P (Option (RazTree E N)))) (fun b a s => ∃ x y, a = some x ∧ b = some y ∧ Holds s.mem x y)
      (FoldHistory c.node) := by
  constructor
  intro s vs σ ht t v b hs hr hv hp hf hn hb
  obtain ⟨h, hh⟩ := view_root hv hp hf
  rw [hh] at hv
  obtain ⟨mt, tr⟩ := t
  simp only at hp
  subst hp
  obtain ⟨y, rfl⟩ := scratch_some hv mt hb
  have main : ∃ o, (∀ n, v.size ≤ n → amrun (upBody c.node) σ n h s = some (.ok o)) ∧ (∃ w, View o.space.mem o.val.tree w ∧ y = ⟨o.val.info, plain w⟩) ∧
      o.work ≤ v.size ∧ ∀ v0 vs', vs = v0 :: vs' → o.work ≤ cost (points v0) v := by
    cases vs with
    | nil =>
      obtain ⟨o, h1, h2, p⟩ := rebuild_part (hs.kept (Up.node_ok c)).inv [] hv hn mt hb
      exact ⟨o, h1, h2, Nat.le_trans (p.work (fun q _ h => by cases h)) (cost_le_size [] v), fun _ _ h => by cases h⟩
    | cons v0 vs =>
      obtain ⟨o, o1, o2, o3, -⟩ := C73_session hs hv hn hb
      exact ⟨o, o1, o2, Nat.le_trans o3 (cost_le_size _ _), by rintro _ _ ⟨⟩; exact o3⟩
  obtain ⟨o, o1, ⟨w, w1, rfl⟩, o3, o4⟩ := main
  refine ⟨some o.val, o.work, o.space, ⟨v.size, fun n hle => ?_⟩, ⟨_, _, rfl, rfl, rfl, fun n hle => ?_⟩, .fold hs hv hn hr (o1 _ (Nat.le_refl _)), o3, o4⟩
  · unfold countedRebuild rebuildIn
    simp only [hh, o1 n hle]
  · exact readTree_view w1 n (by rw [← plain_size]; exact hle)

/-! ### The theorems -/

/-- **C80, folds.** A sequence is made and folded (`fold_up`); then come batches of edits, the fold after each batch. All cells get different
names, and the edits are local. The results are those of folding from scratch. The first fold runs the function at most once per node.
After a batch it runs at most `(2 * k + 1) * gap` times, where `k` is the sum of the depths before each edit and of the archive points with
names added in the batch, and `gap` the size of the largest part of the tree without names. -/
theorem C80_fold [LawfulMeta E M] [DecidableEq R] {f : Fns (TreeData E M) R} {p : Name} {ops : List (LOp E)}
    {l : List (List (RazMeta.Index E M × List (LOp E)))} (hn : (LOp.cells ops ++ batchCells l).Nodup) (hl : LocalReruns (M := M) ops l) {b : Option R}
    {size : Nat} {rest : List (Option R × Nat × Nat)} (hr : rerunSession (M := M) (fun t => t.tree.foldUpMeta f.up) ops l = .ok (b, size, rest))
    (σ : RMem E M) : ∃ work T outs f0, (∀ n, f0 ≤ n → (hrerunSession (refold f p) Table.empty ops l n σ).map (·.1) = .ok (b, work, T, outs)) ∧ work ≤ size ∧
      List.Forall₂ (fun (q : Option R × Nat × Nat) (o : Option R × Nat × RTable E M R) => o.1 = q.1 ∧ o.2.1 ≤ (2 * q.2.1 + 1) * q.2.2) rest outs := by
  obtain ⟨a, work, T, outs, f0, h1, rfl, h3, h4⟩ := reruns_of (fold_reuses f p) ⟨.start, fun _ => rfl⟩ hn hl hr σ
  exact ⟨work, T, outs, f0, h1, h3, h4⟩

/-- **C80, maps.** The same for `RazTree::map`: behind the handles are, each time, the sequences mapped from scratch with their metadata. -/
theorem C80_map [LawfulMeta E M] {f : E → F} {ops : List (LOp E)} {l : List (List (RazMeta.Index E M × List (LOp E)))}
    (hn : (LOp.cells ops ++ batchCells l).Nodup) (hl : LocalReruns (M := M) ops l) {b : RazTree F N} {size : Nat} {rest : List (RazTree F N × Nat × Nat)}
    (hr : rerunSession (M := M) (fun t => t.map f) ops l = .ok (b, size, rest)) (σ : RMem E M) :
    ∃ (a : HTree N) (work : Nat) (s : RSpace E M F N) (outs : List (HTree N × Nat × RSpace E M F N)) (f0 : Nat),
      (∀ n, f0 ≤ n → (hrerunSession (countedMap f) Space.empty ops l n σ).map (·.1) = .ok (a, work, s, outs)) ∧ Holds s.mem a b ∧ work ≤ size ∧
      List.Forall₂ (fun (q : RazTree F N × Nat × Nat) (o : HTree N × Nat × RSpace E M F N) =>
        Holds o.2.2.mem o.1 q.1 ∧ o.2.1 ≤ (2 * q.2.1 + 1) * q.2.2) rest outs :=
  reruns_of (map_reuses f) .start hn hl hr σ

/-- **C80, reverse and filter.** The same for the two example programs. -/
theorem C80_rebuild [LawfulMeta E M] [RazMeta E N] {c : Rebuild E} {ops : List (LOp E)} {l : List (List (RazMeta.Index E M × List (LOp E)))}
    (hn : (LOp.cells ops ++ batchCells l).Nodup) (hl : LocalReruns (M := M) ops l) {b : Option (RazTree E N)} {size : Nat}
    {rest : List (Option (RazTree E N) × Nat × Nat)} (hr : rerunSession (M := M) c.scratch ops l = .ok (b, size, rest)) (σ : RMem E M) :
    ∃ (a : Option (HTree N)) (work : Nat) (s : GSpace E M N) (outs : List (Option (HTree N) × Nat × GSpace E M N)) (f0 : Nat),
      (∀ n, f0 ≤ n → (hrerunSession (countedRebuild c) Space.empty ops l n σ).map (·.1) = .ok (a, work, s, outs)) ∧
      (∃ x y, a = some x ∧ b = some y ∧ Holds s.mem x y) ∧ work ≤ size ∧
      List.Forall₂ (fun (q : Option (RazTree E N) × Nat × Nat) (o : Option (HTree N) × Nat × GSpace E M N) =>
        (∃ x y, o.1 = some x ∧ q.1 = some y ∧ Holds o.2.2.mem x y) ∧ o.2.1 ≤ (2 * q.2.1 + 1) * q.2.2) rest outs :=
  reruns_of (rebuild_reuses c) .start hn hl hr σ

theorem titled_edits [LawfulMeta E M] : ∀ (l : List (RazMeta.Index E M × List (LOp E))) {t t' : RazTree E M} {k : Nat}, TreeTitled t →
    (∀ q ∈ l, ∀ op ∈ q.2, op.Titles) → t.LocalEdit l → t.edits l = .ok (t', k) → TreeTitled t'
  | [], t, t', k, h, _, _, he => by cases he; exact h
  | (i, ops) :: l, t, t', k, h, ht, hl, he => by
    obtain ⟨t1, e1, he⟩ := bind_ok.1 he
    obtain ⟨⟨t2, k'⟩, e2, hfin⟩ := bind_ok.1 he
    cases hfin
    exact titled_edits l (titled_edit h (ht _ List.mem_cons_self) (edit_lifts hl.1 e1) e1) (fun q hq => ht q (List.mem_cons_of_mem _ hq)) (hl.2 t1 e1) e2

theorem titled_reruns [LawfulMeta E M] {val : RazTree E M → P B} : ∀ (l : List (List (RazMeta.Index E M × List (LOp E)))) {t : RazTree E M} {rest},
    TreeTitled t → (∀ es ∈ l, ∀ q ∈ es, ∀ op ∈ q.2, op.Titles) → t.LocalBatches l → t.reruns val l = .ok rest → ∀ q ∈ rest, q.2.2 ≤ 1
  | [], t, rest, _, _, _, hr => by cases hr; simp
  | es :: l, t, rest, h, ht, hl, hr => by
    obtain ⟨⟨t', k⟩, e1, hr⟩ := bind_ok.1 hr
    obtain ⟨x, e2, hr⟩ := bind_ok.1 hr
    obtain ⟨rest', e3, hfin⟩ := bind_ok.1 hr
    cases hfin
    have h' := titled_edits es h (ht _ List.mem_cons_self) hl.1 e1
    intro q hq
    rcases List.mem_cons.1 hq with rfl | hq
    · exact h'.gap
    · exact titled_reruns l h' (fun q hq => ht q (List.mem_cons_of_mem _ hq)) (hl.2 t' k e1) e3 q hq

/-- **C80, named archive points.** If all archive points have names then every gap is at most 1, for all of these computations: the bound after a
batch is `2 * k + 1`. -/
theorem C80_named [LawfulMeta E M] {val : RazTree E M → P B} {ops : List (LOp E)} {l : List (List (RazMeta.Index E M × List (LOp E)))}
    (hl : LocalReruns (M := M) ops l) (ht : ∀ op ∈ ops, op.Titles) (ht' : ∀ es ∈ l, ∀ q ∈ es, ∀ op ∈ q.2, op.Titles) {b : B} {size : Nat}
    {rest : List (B × Nat × Nat)} (hr : rerunSession (M := M) val ops l = .ok (b, size, rest)) : ∀ q ∈ rest, (2 * q.2.1 + 1) * q.2.2 ≤ 2 * q.2.1 + 1 := by
  obtain ⟨z, e1, hr⟩ := bind_ok.1 hr
  obtain ⟨t, e2, hr⟩ := bind_ok.1 hr
  obtain ⟨x, e3, hr⟩ := bind_ok.1 hr
  obtain ⟨rest', e4, hfin⟩ := bind_ok.1 hr
  cases hfin
  have h0 : AllTitled (Raz.new : Raz E M) := ⟨ZInv.empty, fun i hi => (by cases hi), fun i hi => (by cases hi)⟩
  intro q hq
  have := titled_reruns l (titled_unfocus (titled_lops h0 ht (local_lifts hl.1 e1) e1) e2) ht' (hl.2 z t e1 e2) e4 q hq
  exact Nat.le_trans (Nat.mul_le_mul_left _ this) (Nat.le_of_eq (Nat.mul_one _))

/-! ### A session that meets the conditions -/

/-- `RazTree.LocalBatches` as a test. -/
def batchesB : List (List (RazMeta.Index E M × List (LOp E))) → RazTree E M → Bool
  | [], _ => true
  | es :: l, t => editB es t && match t.edits es with
    | .ok (t', _) => batchesB l t'
    | .error _ => true

omit [DecidableEq E] [DecidableEq M] in
theorem batchesB_sound : ∀ {l : List (List (RazMeta.Index E M × List (LOp E)))} {t : RazTree E M}, batchesB l t = true → t.LocalBatches l
  | [], t, _ => trivial
  | es :: l, t, h => by
    simp only [batchesB, Bool.and_eq_true] at h
    refine ⟨editB_sound h.1, fun t' k ht => batchesB_sound ?_⟩
    have := h.2; rw [ht] at this; exact this

/-- `LocalReruns` as a test. -/
def rerunsB (ops : List (LOp E)) (l : List (List (RazMeta.Index E M × List (LOp E)))) : Bool :=
  localB ops (Raz.new : Raz E M) && match (do let z ← (Raz.new : Raz E M).lops ops; z.unfocus : P (RazTree E M)) with
    | .ok t => batchesB l t
    | .error _ => true

omit [DecidableEq E] [DecidableEq M] in
theorem rerunsB_sound {ops : List (LOp E)} {l : List (List (RazMeta.Index E M × List (LOp E)))} (h : rerunsB (M := M) ops l = true) :
    LocalReruns (M := M) ops l := by
  simp only [rerunsB, Bool.and_eq_true] at h
  refine ⟨localB_sound h.1, fun z t e1 e2 => batchesB_sound ?_⟩
  have := h.2
  rw [show (do let z ← (Raz.new : Raz E M).lops ops; z.unfocus : P (RazTree E M)) = .ok t from bind_ok.2 ⟨z, e1, e2⟩] at this
  exact this

/-- Two batches for the sequence `exOps`: one of two edits, one of one edit. -/
def exBatches : List (List (RazMeta.Index Nat Count × List (LOp Nat))) :=
  [[((1 : Nat), [.popL, .pushL 10]), ((4 : Nat), [.pushL 20, .archL 1 (some (.usize 8)), .pushL 30])], [((7 : Nat), [.pushR 40, .pushR 50, .popR])]]

set_option synthInstance.maxSize 1000 in
/-- The conditions of `C80_fold` and `C80_named`. -/
example : (LOp.cells exOps ++ batchCells exBatches).Nodup ∧ LocalReruns (M := Count) exOps exBatches ∧ (∀ op ∈ exOps, op.Titles) ∧
    (∀ es ∈ exBatches, ∀ q ∈ es, ∀ op ∈ q.2, op.Titles) ∧
    rerunSession (M := Count) (fun t => t.tree.foldUpMeta sumF.fns.up) exOps exBatches = .ok (some 36, 15, [(some 95, 7, 1), (some 135, 4, 1)]) := by
  refine ⟨by decide +kernel, rerunsB_sound (by decide +kernel), ?_, ?_, by decide +kernel⟩
  · simp [exOps, LOp.Titles]
  · intro es h1 q h2
    simp only [exBatches, List.mem_cons, List.not_mem_nil, or_false] at h1
    rcases h1 with rfl | rfl <;> simp only [List.mem_cons, List.not_mem_nil, or_false] at h2
    · rcases h2 with rfl | rfl <;> simp [LOp.Titles]
    · subst h2; simp [LOp.Titles]

set_option synthInstance.maxSize 1000 in
/-- The last condition of `C80_map`: elements of the mapped sequences, steps and gaps. -/
example : (rerunSession (M := Count) (fun t => (t.map (· + 1) : P (RazTree Nat Count))) exOps exBatches).map
    (fun x => (x.1.elems, x.2.1, x.2.2.map (fun q => (q.1.elems, q.2)))) =
    .ok ([2, 3, 4, 5, 6, 7, 8, 9], 15, [([11, 3, 4, 5, 21, 31, 6, 7, 8, 9], 7, 1), ([11, 3, 4, 5, 21, 31, 6, 41, 7, 8, 9], 4, 1)]) := by
  decide +kernel

set_option synthInstance.maxSize 1000 in
/-- The last condition of `C80_rebuild`. -/
example : (rerunSession (M := Count) (Rebuild.scratch (N := Count) .reverse) exOps exBatches).map
    (fun x => (x.1.map (·.elems), x.2.1, x.2.2.map (fun q => (q.1.map (·.elems), q.2)))) =
    .ok (some [8, 7, 6, 5, 4, 3, 2, 1], 15, [(some [8, 7, 6, 5, 30, 20, 4, 3, 2, 10], 7, 1), (some [8, 7, 6, 40, 5, 30, 20, 4, 3, 2, 10], 4, 1)]) := by
  decide +kernel

/-- The work of the three computations in this session over the store. -/
example : (hrerunSession (M := Count) (refold sumF.fns .unit) Table.empty exOps exBatches 99 Store.empty).map (fun x => (x.1.2.1, x.1.2.2.2.map (·.2.1))) =
      .ok (15, [8, 4]) ∧
    (hrerunSession (M := Count) (countedMap (N := Count) (· + 1)) Space.empty exOps exBatches 99 Store.empty).map (fun x => (x.1.2.1, x.1.2.2.2.map (·.2.1))) =
      .ok (15, [8, 4]) ∧
    (hrerunSession (M := Count) (countedRebuild (N := Count) .reverse) Space.empty exOps exBatches 99 Store.empty).map
      (fun x => (x.1.2.1, x.1.2.2.2.map (·.2.1))) = .ok (15, [8, 4]) := by
  refine ⟨by decide +kernel, by decide +kernel, by decide +kernel⟩

end Iodyn.Incr
