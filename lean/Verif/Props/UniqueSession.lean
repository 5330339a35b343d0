import Verif.Spec.UniqueSession
import Verif.Proof.UniqueCut
import Verif.Props.UniqueMean
import Verif.Props.ListCost
import Verif.Props.IncrObs
import Verif.Props.MeanWork
/-
C97: the work of `unique_elms` between batches of edits, in the mean over all hash functions.
-/
namespace Iodyn.Incr
open Iodyn.Heap
open Iodyn.Skip (Skiplist hashOf)
variable {E M : Type} [DecidableEq E] {L : Nat}

/-! ### Measures of trees -/

omit [DecidableEq E] in
theorem leaves_elems : ∀ (v : Tree (Tr × TreeData E M)) (c : Option Name), Chunked (plain v) → leafElems (leavesOf c v) = treeElems (plain v) := by
  intro v
  induction v with
  | nil => intro c h; cases h
  | node lv n q l r ihl ihr =>
    intro c h
    obtain ⟨t, d⟩ := q
    have h0 := h
    rcases Uq.chunked_cases h with ⟨rfl, rfl, x, w, rfl⟩ | ⟨hl, hr, m, rfl, h1⟩
    · simp [leavesOf, Tree.isSome, ownLeaf, leafElems, plain, treeElems]
    · rw [(h1 c Stage.start).1, Uq.leafElems_append, ihl c hl, ihr (some m) hr]
      rcases h0 with ⟨h2, -⟩ | ⟨-, -, hd, -⟩
      · cases l with
        | nil => cases hl
        | node lv n q l r => obtain ⟨t, d⟩ := q; cases h2
      · cases d with
        | leaf w => exact absurd rfl (hd w)
        | _ => rfl

omit [DecidableEq E] in
theorem leaves_widest : ∀ (v : Tree (Tr × TreeData E M)) (c : Option Name), Chunked (plain v) → ∀ l ∈ leavesOf c v, l.2.2.length ≤ widest (plain v) := by
  intro v
  induction v with
  | nil => intro c h; cases h
  | node lv n q l r ihl ihr =>
    intro c h
    obtain ⟨t, d⟩ := q
    have h0 := h
    rcases Uq.chunked_cases h with ⟨rfl, rfl, x, w, rfl⟩ | ⟨hl, hr, m, rfl, h1⟩
    · intro y hy
      simp only [leavesOf, Tree.isSome, Bool.or_self, Bool.false_eq_true, if_false, ownLeaf, List.mem_singleton] at hy
      subst hy
      simp [plain, widest]
    · intro y hy
      have hw : widest (plain (.node lv (some m) (t, d) l r)) = max (widest (plain l)) (widest (plain r)) := by
        rcases h0 with ⟨h2, -⟩ | ⟨-, -, hd, -⟩
        · cases l with
          | nil => cases hl
          | node lv n q l r => obtain ⟨t, d⟩ := q; cases h2
        · cases d with
          | leaf w => exact absurd rfl (hd w)
          | _ => rfl
      rw [(h1 c Stage.start).1, List.mem_append] at hy
      rw [hw]
      rcases hy with hy | hy
      · exact Nat.le_trans (ihl c hl y hy) (Nat.le_max_left _ _)
      · exact Nat.le_trans (ihr (some m) hr y hy) (Nat.le_max_right _ _)

theorem count_mostOften (l : List E) (y : E) : l.count y ≤ mostOften l := by
  by_cases hy : y ∈ l
  · have le : ∀ (a : List Nat) {x : Nat}, x ∈ a → x ≤ a.foldr max 0 := by
      intro a
      induction a with
      | nil => intro x h; cases h
      | cons z a ih =>
        intro x h
        rcases List.mem_cons.1 h with rfl | h
        · exact Nat.le_max_left _ _
        · exact Nat.le_trans (ih h) (Nat.le_max_right _ _)
    exact le _ (List.mem_map_of_mem (f := fun x => l.count x) hy)
  · rw [List.count_eq_zero.2 hy]; exact Nat.zero_le _

theorem depthOf_plain {D : Type} : ∀ v : Tree (Tr × D), depthOf (plain v) = depthOf v
  | .nil => rfl
  | .node lv n (h, d) l r => by simp only [plain, depthOf, depthOf_plain l, depthOf_plain r]

/-! ### Batches -/

variable [DecidableEq M] [Fintype E]

/-- **C97, trees.** In the second tree all nodes but those with names in `S` are as in the first, with the same names from the left, and the names of the first tree occur in the
second in the same order. Take the mean over all functions from the elements to 64-bit hashes. In all cases the run over the second tree ends; in the mean it
evaluates at most the nodes that are new, and the depth times `(|S| + 1) * (1 + 2 * g * r * (log m + 2 + m / 2 ^ L))`, where no leaf has more than `g` elements, no
element occurs more than `r` times, and there are at most `m` different elements. -/
theorem C97_trees (hL : 1 ≤ L) (hL' : L ≤ 63) {s : (E → Fin (2 ^ 64)) → UqSpace E M} {v : Tree (Tr × TreeData E M)} {vs : List (Tree (Tr × TreeData E M))}
    (hs : ∀ w, UqHistory (hashOf w) L (s w) (v :: vs)) (hu0 : UqTree v) {σ : RMem E M} {h : Tr} {v' : Tree (Tr × TreeData E M)} (hv : View σ (some h) v') (hu : UqTree v')
    (hr : NoReturn (v :: vs) v') {n : Nat} (hm : v'.size ≤ n) {S : List Name} (hsh : SharedFrom S startName v v') (hsub : (inNames v).Sublist (inNames v'))
    {g r m : Nat} (hg : ∀ l ∈ leavesOf startName v, l.2.2.length ≤ g) (hg' : ∀ l ∈ leavesOf startName v', l.2.2.length ≤ g)
    (hc : ∀ y, (leafElems (leavesOf startName v')).count y ≤ r) (hd : different (leafElems (leavesOf startName v')) ≤ m) :
    ∃ outs : (E → Fin (2 ^ 64)) → OOut (Heap.Cell (TreeData E M) (Nat × List E)) (Skip.Path E Unit) ObsParam (Skip.ObsRes E Unit) (LrKey Skiplist) Skiplist Skiplist,
      (∀ w, orun skipView (lrObsBody (uniqueNode (hashOf w))) σ n ⟨h, startName, Eval.UniqueElms.start L⟩ (s w) = some (.ok (outs w))) ∧
      ∑ w, (outs w).work ≤ (2 ^ 64) ^ Fintype.card E * (costFrom (pointsFrom startName v) startName v' + depthOf v' *
        ((S.length + 1) * (1 + 2 * g * (r * (Nat.clog 2 m + 2 + m / 2 ^ L))))) := by
  have each := fun w => C95_work hL hL' (hs w) hu0 hv hu hr hm
  refine ⟨fun w => (each w).choose, fun w => (each w).choose_spec.1, ?_⟩
  refine Nat.le_trans (Finset.sum_le_sum fun w _ => (each w).choose_spec.2.1) ?_
  have key := Uq.changed_mean (L := L) (m := m) hL' hu0 hu hsh hsub hg hg' hc (by rw [List.card_toFinset]; exact hd)
  rw [Finset.sum_add_distrib, Finset.sum_const, Finset.card_univ, Fintype.card_fun, Fintype.card_fin, smul_eq_mul, ← Finset.mul_sum]
  refine Nat.le_trans (Nat.add_le_add_left (Nat.mul_le_mul_left _ key) _) (Nat.le_of_eq ?_)
  generalize (2 ^ 64) ^ Fintype.card E = N
  generalize r * (Nat.clog 2 m + 2 + m / 2 ^ L) = R
  ring

variable [RazMeta E M]

/-- What holds between the batches, with all hash functions side by side. -/
structure UqBetween (L : Nat) (σ : RMem E M) (ht : HTree M) (t : RazTree E M) (s : (E → Fin (2 ^ 64)) → UqSpace E M) (v : Tree (Tr × TreeData E M))
    (vs : List (Tree (Tr × TreeData E M))) (rest : List Name) : Prop where
  btw : Between (fun s vs => ∀ w, UqHistory (hashOf w) L (s w) vs) σ ht t s v vs rest
  whole : Whole t
  tree : UqTree v
  reach : t.Reachable .any
  start : .str "start" ∉ tN .dcg t.tree ++ rest
  unit : .unit ∉ tN .dcg t.tree ++ rest

omit [RazMeta E M] [Fintype E] in
theorem countedUnique_runs {hash : E → Word} {σ : RMem E M} {ht : HTree M} {h : Tr} (hh : ht.tree = some h) {s : UqSpace E M} {k : Nat} {o}
    (ho : ∀ n, k ≤ n → orun skipView (lrObsBody (uniqueNode hash)) σ n ⟨h, startName, Eval.UniqueElms.start L⟩ s = some (.ok o)) :
    Runs (countedUnique hash L ht s) σ (o.val, o.work, o.space) σ := by
  refine ⟨k, fun f hf => ?_⟩
  unfold countedUnique uniqueIn
  have := ho f hf
  simp only [hh, this]
  unfold startName at this
  simp only [this]

omit [DecidableEq E] [DecidableEq M] [Fintype E] in
theorem reach_edits [LawfulMeta E M] {u : Usage} : ∀ {es : List (RazMeta.Index E M × List (LOp E))} {t t' : RazTree E M} {k : Nat}, t.Reachable u → t.LocalEdit es →
    t.edits es = .ok (t', k) → t'.Reachable u
  | [], t, t', k, h, _, he => by cases he; exact h
  | (i, ops) :: es, t, t', k, h, hl, he => by
    obtain ⟨t1, e1, he⟩ := bind_ok.1 he
    obtain ⟨⟨t2, k2⟩, e2, hfin⟩ := bind_ok.1 he
    cases hfin
    refine reach_edits (reach_edit h ?_ e1) (hl.2 t1 e1) e2
    obtain ⟨o, f1, e1⟩ := bind_ok.1 e1
    obtain ⟨z, f2, e1⟩ := bind_ok.1 e1
    obtain ⟨z', f3, -⟩ := bind_ok.1 e1
    cases o with
    | none => cases f2
    | some z0 => cases f2; exact local_lifts (hl.1 z f1) f3

omit [RazMeta E M] [Fintype E] in
theorem history_rerun {hash : E → Word} {s : UqSpace E M} {vs : List (Tree (Tr × TreeData E M))} (h : UqHistory hash L s vs) :
    Rerun skipView (lrObsBody (uniqueNode hash)) s := by
  induction h with
  | start => exact .start
  | fold _ _ _ _ _ ho ih => exact .run ih ho

omit [Fintype E] in
theorem uq_finds {hash : E → Word} (hL : 1 ≤ L) (hL' : L ≤ 63) {s : UqSpace E M} {vs : List (Tree (Tr × TreeData E M))} (hs : UqHistory hash L s vs)
    {σ : RMem E M} {ht : HTree M} {h : Tr} (hh : ht.tree = some h) {t : RazTree E M} {v : Tree (Tr × TreeData E M)} (hv : View σ ht.tree v) (he : plain v = t.tree)
    (hr : t.Reachable .any) (hu : UqTree v) {o} (ho : orun skipView (lrObsBody (uniqueNode hash)) σ v.size ⟨h, startName, Eval.UniqueElms.start L⟩ s = some (.ok o)) :
    Finds hash t.elems o.val o.space := by
  obtain ⟨sk, s', h1, h2⟩ := C93_again hash hL hL' (history_rerun hs) hv he hr hu.names hu.unit hu.start
  have h1 := h1 v.size (Nat.le_refl _)
  unfold startName at ho
  unfold uniqueIn at h1
  simp only [hh, ho] at h1
  cases h1
  exact h2

theorem uq_step [LawfulMeta E M] (hL : 1 ≤ L) (hL' : L ≤ 63) {σ : RMem E M} {ht : HTree M} {t t' : RazTree E M} {s : (E → Fin (2 ^ 64)) → UqSpace E M}
    {v : Tree (Tr × TreeData E M)} {vs : List (Tree (Tr × TreeData E M))} {es : List (RazMeta.Index E M × List (LOp E))} {rest : List Name} {k : Nat}
    (g : UqBetween L σ ht t s v vs (restCells es ++ rest)) (hT : ∀ q ∈ es, ∀ op ∈ q.2, op.Titles) (hl : t.LocalEdit es) (he : t.edits es = .ok (t', k)) :
    ∃ (ht' : HTree M) (σ' : RMem E M) (a : (E → Fin (2 ^ 64)) → Skiplist) (work : (E → Fin (2 ^ 64)) → Nat) (s' : (E → Fin (2 ^ 64)) → UqSpace E M)
      (v' : Tree (Tr × TreeData E M)), Runs (ht.edits .dcg es) σ ht' σ' ∧ (∀ w, Runs (countedUnique (hashOf w) L ht' (s w)) σ' (a w, work w, s' w) σ') ∧
      (∀ w, Finds (hashOf w) t'.elems (a w) (s' w)) ∧ ∑ w, work w ≤ (2 ^ 64) ^ Fintype.card E * uqBound L k t.tree t'.tree ∧ UqBetween L σ' ht' t' s' v' (v :: vs) rest := by
  have b := g.btw
  have hc := nodup_count b.nodup
  simp only [List.count_append] at hc
  obtain ⟨ht', σ', h1, h3, h4, h6, h5⟩ := movesFrom es b.rep b.canon g.whole (count_nodup fun x => by
    have := hc x; simp only [List.count_append]; omega) hT hl he
  obtain ⟨v', a1, a2, a3⟩ := view_exists h3.rep.tree
  have hsub := h3.names
  have hn' : (tN .dcg t'.tree ++ rest).Nodup := count_nodup fun x => by
    have := hc x
    have := hsub x
    simp only [List.count_append] at *
    omega
  have hn : (nodeNames v').Nodup := by rw [a3]; exact names_nodup (List.Nodup.of_append_left hn')
  have hnv : ∀ x, x ∈ nodeNames v ↔ x ∈ tN .dcg t.tree := fun x => by rw [← nodeNames_plain, b.plain, names_mem]
  have hr : NoReturn (v :: vs) v' := by
    intro m hm hno w hw hmw
    obtain ⟨n, k1, k2⟩ := memo_name hm
    obtain ⟨n', k3, k4⟩ := memo_name hmw
    have hnn : n = n' := by rcases k2 with rfl | rfl <;> rcases k4 with k4 | k4 <;> cases k4 <;> rfl
    subst hnn
    have hnot : n ∉ nodeNames v := by
      intro hnv
      have := name_memo (by rw [b.plain]; exact b.inv.wf.resolve_left b.full) n hnv
      rcases k2 with rfl | rfl
      · exact hno this.1
      · exact hno this.2
    rw [a3, names_mem] at k1
    rcases List.mem_append.1 (hsub.subset k1) with k1 | k1
    · exact hnot ((hnv n).2 k1)
    · exact b.past w hw n k3 (List.mem_append_left _ k1)
  have away : ∀ x, x ∉ tN .dcg t.tree ++ (restCells es ++ rest) → x ∉ tN .dcg t'.tree ++ rest := by
    intro x h hx
    rcases List.mem_append.1 hx with hx | hx
    · rcases List.mem_append.1 (hsub.subset hx) with hx | hx
      · exact h (List.mem_append_left _ hx)
      · exact h (List.mem_append_right _ (List.mem_append_left _ hx))
    · exact h (List.mem_append_right _ (List.mem_append_right _ hx))
  have hst := away _ g.start
  have hun := away _ g.unit
  have hno : ∀ x, x ∉ tN .dcg t'.tree ++ rest → x ∉ nodeNames v' := fun x h hx => h (List.mem_append_left _ (names_mem.1 (a3 ▸ hx)))
  have hch : Chunked (plain v') := by
    rw [a2]
    exact h4.chunked (fun hx => hst (List.mem_append_left _ (names_mem.1 hx)))
  have hu : UqTree v' := ⟨hn, hno _ hun, hno _ hst, hch⟩
  obtain ⟨h, hh⟩ := view_root a1 a2 h3.full
  have a1' := a1
  rw [hh] at a1'
  obtain ⟨S, d1, d2⟩ := h5 b.view b.plain a1 a2 startName
  have hin : (inNames v).Sublist (inNames v') := by rw [← inNames_plain v, ← inNames_plain v', b.plain, a2]; exact h6
  have el : leafElems (leavesOf startName v') = treeElems t'.tree := by rw [leaves_elems v' _ hch, a2]
  obtain ⟨outs, o1, o2⟩ := C97_trees hL hL' b.hist g.tree a1' hu hr (Nat.le_refl _) d2 hin (g := max (widest t.tree) (widest t'.tree))
    (fun l hl => Nat.le_trans (leaves_widest v _ g.tree.chunked l hl) (by rw [b.plain]; exact Nat.le_max_left _ _))
    (fun l hl => Nat.le_trans (leaves_widest v' _ hch l hl) (by rw [a2]; exact Nat.le_max_right _ _))
    (fun y => count_mostOften _ y) (Nat.le_refl _)
  rw [el] at o2
  have mono : ∀ w n, v'.size ≤ n → orun skipView (lrObsBody (uniqueNode (hashOf w))) σ' n ⟨h, startName, Eval.UniqueElms.start L⟩ (s w) = some (.ok (outs w)) :=
    fun w n hm => Obs.orun_mono hm (o1 w)
  have hre := reach_edits g.reach hl he
  refine ⟨ht', σ', fun w => (outs w).val, fun w => (outs w).work, fun w => (outs w).space, v', h1, fun w => countedUnique_runs hh (mono w),
    fun w => uq_finds hL hL' (b.hist w) hh a1 a2 hre hu (o1 w), ?_,
    ⟨h3.rep, h3.inv, h3.canon, h3.full, a1, a2, fun w => .fold (b.hist w) a1' hu hr (Nat.le_refl _) (o1 w), hn', ?_⟩, h4, hu, hre, hst, hun⟩
  · refine Nat.le_trans o2 (Nat.mul_le_mul_left _ ?_)
    have w1 := Nat.le_trans (costFrom_top d2) (top_bound hn)
    have w2 : v'.gap ≤ 1 := by rw [← gap_plain, a2]; exact h4.titled.gap
    have w3 := Nat.mul_le_mul_left (2 * S.length + 1) w2
    have w4 : S.length + 1 ≤ 2 * k + 1 := by omega
    unfold uqBound
    rw [← a2, depthOf_plain, a2]
    exact Nat.add_le_add (by omega) (Nat.mul_le_mul_left _ (Nat.mul_le_mul_right _ w4))
  · intro w hw x hx hx'
    rcases List.mem_cons.1 hw with rfl | hw
    · have b1 := List.count_pos_iff.2 ((hnv x).1 hx)
      have b2 := List.count_pos_iff.2 hx'
      have := hc x
      omega
    · exact b.past w hw x hx (List.mem_append_right _ hx')

theorem uq_all [LawfulMeta E M] (hL : 1 ≤ L) (hL' : L ≤ 63) : ∀ (l : List (List (RazMeta.Index E M × List (LOp E))))
    {σ : RMem E M} {ht : HTree M} {t : RazTree E M} {s : (E → Fin (2 ^ 64)) → UqSpace E M} {v : Tree (Tr × TreeData E M)} {vs : List (Tree (Tr × TreeData E M))} {rest},
    UqBetween L σ ht t s v vs (batchCells l) → (∀ es ∈ l, ∀ q ∈ es, ∀ op ∈ q.2, op.Titles) → t.LocalBatches l →
    t.reruns (fun t => .ok t) l = .ok rest → ∃ (outs : (E → Fin (2 ^ 64)) → List (Skiplist × Nat × UqSpace E M)) (σ' : RMem E M) (works : List ((E → Fin (2 ^ 64)) → Nat)),
      (∀ w, Runs (ht.reruns (countedUnique (hashOf w) L) (s w) l) σ (outs w) σ') ∧ (∀ w, (outs w).map (·.2.1) = works.map (· w)) ∧
      (∀ w, List.Forall₂ (fun (q : RazTree E M × Nat × Nat) (o : Skiplist × Nat × UqSpace E M) => Finds (hashOf w) q.1.elems o.1 o.2.2) rest (outs w)) ∧ UqMeans L t rest works := by
  intro l
  induction l with
  | nil =>
    intro σ ht t s v vs rest g hT hl hr
    cases hr
    exact ⟨fun _ => [], σ, [], fun _ => .pure, fun _ => rfl, fun _ => .nil, trivial⟩
  | cons es l ih =>
    intro σ ht t s v vs rest g hT hl hr
    unfold RazTree.reruns at hr
    obtain ⟨⟨t', k⟩, e1, hr⟩ := bind_ok.1 hr
    obtain ⟨b, e2, hr⟩ := bind_ok.1 hr
    obtain ⟨rest', e3, hfin⟩ := bind_ok.1 hr
    cases e2
    cases hfin
    obtain ⟨ht', σ', a, work, s', v', k1, k2, k2', k3, k4⟩ := uq_step (rest := batchCells l) hL hL' g (hT _ List.mem_cons_self) hl.1 e1
    obtain ⟨outs, σ'', works, k5, k6, k6', k7⟩ := ih k4 (fun es hes => hT es (List.mem_cons_of_mem _ hes)) (hl.2 t' k e1) e3
    exact ⟨fun w => (a w, work w, s' w) :: outs w, σ'', work :: works, fun w => k1.bind ((k2 w).bind ((k5 w).bind .pure)),
      fun w => by simp only [List.map_cons, k6], fun w => .cons (k2' w) (k6' w), k3, k7⟩

/-- What the first run leaves behind. -/
def UqFirst (σ : RMem E M) (ht : HTree M) (t : RazTree E M) (v : Tree (Tr × TreeData E M)) : Prop :=
  UqTree v ∧ ∃ (a : (E → Fin (2 ^ 64)) → Skiplist) (s : (E → Fin (2 ^ 64)) → UqSpace E M),
    (∀ w, Runs (countedUnique (hashOf w) L ht OSpace.empty) σ (a w, t.tree.size, s w) σ) ∧ (∀ w, Finds (hashOf w) t.elems (a w) (s w)) ∧ ∀ w, UqHistory (hashOf w) L (s w) [v]

omit [Fintype E] in
theorem uq_first [LawfulMeta E M] (hL : 1 ≤ L) (hL' : L ≤ 63) {σ : RMem E M} {ht : HTree M} {t : RazTree E M} {v : Tree (Tr × TreeData E M)} (a1 : View σ ht.tree v)
    (a2 : plain v = t.tree) (hw : Whole t) (hr : t.Reachable .any) (hf : t.tree ≠ .nil) (hn : (nodeNames v).Nodup) (hst : .str "start" ∉ nodeNames v) (hun : .unit ∉ nodeNames v) :
    UqFirst (L := L) σ ht t v := by
  have hch : Chunked (plain v) := by
    rw [a2]
    exact hw.chunked (fun hx => hst (by rw [← nodeNames_plain, a2]; exact hx))
  have hut : UqTree v := ⟨hn, hun, hst, hch⟩
  obtain ⟨h, hh⟩ := view_root a1 a2 hf
  have a1' := a1
  rw [hh] at a1'
  have each := fun w : E → Fin (2 ^ 64) => C95_first (hash := hashOf w) hL hL' a1' hut (Nat.le_refl _)
  refine ⟨hut, fun w => (each w).choose.val, fun w => (each w).choose.space, fun w => ?_,
    fun w => uq_finds hL hL' .start hh a1 a2 hr hut (each w).choose_spec.1, fun w => .fold .start a1' hut trivial (Nat.le_refl _) (each w).choose_spec.1⟩
  have := countedUnique_runs hh fun n hm => Obs.orun_mono hm (each w).choose_spec.1
  have hs : (each w).choose.work = t.tree.size := by rw [(each w).choose_spec.2, ← a2, plain_size]
  rwa [hs] at this

/-- **C97, batches of edits.** A sequence is made and `unique_elms` runs over it; then come batches of edits, and `unique_elms` again after each batch. All cells get
different names, none of which `unique_elms` itself uses; all archive points have names; and the edits are local. Take the mean over all functions from the
elements to 64-bit hashes. Every session ends, and each skip list finds exactly the elements of the sequence. The first run visits each node once, whatever the hash function. After each batch the mean work is within
`uqBound`: logarithmic in the number of different elements (as long as there are not more of these than paths), if leaves are short, no element occurs often,
and the trees are not deep. -/
theorem C97_batches [LawfulMeta E M] (hL : 1 ≤ L) (hL' : L ≤ 63) {ops : List (LOp E)} {l : List (List (RazMeta.Index E M × List (LOp E)))}
    (hn : (LOp.cells ops ++ batchCells l).Nodup) (hs : .str "start" ∉ LOp.cells ops ++ batchCells l) (hu : .unit ∉ LOp.cells ops ++ batchCells l)
    (ht : ∀ op ∈ ops, op.Titles) (ht' : ∀ es ∈ l, ∀ q ∈ es, ∀ op ∈ q.2, op.Titles) (hl : LocalReruns (M := M) ops l) {t : RazTree E M} {size : Nat}
    {rest : List (RazTree E M × Nat × Nat)} (hr : rerunSession (fun t => .ok t) ops l = .ok (t, size, rest)) (σ : RMem E M) :
    ∃ works : List ((E → Fin (2 ^ 64)) → Nat), (∀ w, ∃ (a : Skiplist) (s : UqSpace E M) (outs : List (Skiplist × Nat × UqSpace E M)) (f0 : Nat),
      (∀ n, f0 ≤ n → (hrerunSession (countedUnique (hashOf w) L) OSpace.empty ops l n σ).map (·.1) = .ok (a, size, s, outs)) ∧
      Finds (hashOf w) t.elems a s ∧
      List.Forall₂ (fun (q : RazTree E M × Nat × Nat) (o : Skiplist × Nat × UqSpace E M) => Finds (hashOf w) q.1.elems o.1 o.2.2) rest outs ∧
      outs.map (·.2.1) = works.map (· w)) ∧ UqMeans L t rest works := by
  unfold rerunSession at hr
  obtain ⟨z, e1, hr⟩ := bind_ok.1 hr
  obtain ⟨t, e2, hr⟩ := bind_ok.1 hr
  obtain ⟨x, e3, hr⟩ := bind_ok.1 hr
  obtain ⟨rest', e4, hfin⟩ := bind_ok.1 hr
  cases e3
  cases hfin
  have hc := nodup_count hn
  simp only [List.count_append] at hc
  have start : LInvs (Raz.new : Raz E M) (Raz.new : Raz E M) [] 0 := ⟨ZInv.empty, ZC.empty, rfl, rfl, fun x => Nat.le_refl _, Nat.le_refl _⟩
  have hz : ∀ x, (cN .dcg (Raz.new : Raz E M).lForest ++ cN .dcg (Raz.new : Raz E M).rForest).count x = 0 := fun x => rfl
  have hnd : (cN .dcg (Raz.new : Raz E M).lForest ++ cN .dcg (Raz.new : Raz E M).rForest ++ LOp.cells ops).Nodup := count_nodup fun x => by
    have := hc x
    rw [List.count_append, hz]
    omega
  obtain ⟨hz', σ1, k1, k2, k3, k4, -⟩ := sim_runs (lops_sim (σ := σ) ops start hl.1 RepZ.empty hnd) e1
  obtain ⟨ht0, σ2, k5, k6, k7, k8, k9, k10, -⟩ := sim_runs (close_sim k3 k4 k2 hnd) e2
  obtain ⟨v, a1, a2, a3⟩ := view_exists k6.tree
  have hle : Sub (tN .dcg t.tree) (LOp.cells ops) := fun x => by
    have h1 := k10 x
    rw [List.count_append, hz] at h1
    simpa using h1
  have hn' : (tN .dcg t.tree ++ batchCells l).Nodup := count_nodup fun x => by
    have := hc x
    have := hle x
    rw [List.count_append]
    omega
  have hnv : (nodeNames v).Nodup := by rw [a3]; exact names_nodup (List.Nodup.of_append_left hn')
  have away : ∀ x, x ∉ LOp.cells ops ++ batchCells l → x ∉ tN .dcg t.tree ++ batchCells l := by
    intro x h hx
    rcases List.mem_append.1 hx with hx | hx
    · exact h (List.mem_append_left _ (hle.subset hx))
    · exact h (List.mem_append_right _ hx)
  have hst := away _ hs
  have hun := away _ hu
  have hno : ∀ x, x ∉ tN .dcg t.tree ++ batchCells l → x ∉ nodeNames v := fun x h hx => h (List.mem_append_left _ (names_mem.1 (a3 ▸ hx)))
  have hw := Whole.make ht hl.1 e1 e2
  have hre : t.Reachable .any := .unfocus (reach_lops .new (local_lifts hl.1 e1) e1) e2
  obtain ⟨hut, a, s, f1, f2', f2⟩ : UqFirst (L := L) σ2 ht0 t v := uq_first hL hL' a1 a2 hw hre k9 hnv (hno _ hst) (hno _ hun)
  obtain ⟨outs, σ3, works, g1, g2, g2', g3⟩ := uq_all hL hL' l (v := v) (vs := [])
    ⟨⟨k6, k7, k8, k9, a1, a2, f2, hn', fun w hw => by cases hw⟩, hw, hut, hre, hst, hun⟩ ht' (hl.2 z t e1 e2) e4
  refine ⟨works, fun w => ?_, g3⟩
  obtain ⟨f0, hrun⟩ : Runs (hrerunSession (countedUnique (hashOf w) L) OSpace.empty ops l) σ (a w, t.tree.size, s w, outs w) σ3 :=
    k1.bind (k5.bind ((f1 w).bind ((g1 w).bind .pure)))
  exact ⟨a w, s w, outs w, f0, fun n hf => by rw [hrun n hf]; rfl, f2' w, g2' w, g2 w⟩

/-! ### Sessions of the driver -/

open Iodyn.Eval
variable {G R : Type}

/-- What holds between the edits of the driver. -/
structure UqHeld (L : Nat) (σ : RMem E M) (ht : HTree M) (s : EvalRaz E M G) (t : RazTree E M) (sp : (E → Fin (2 ^ 64)) → UqSpace E M)
    (v : Tree (Tr × TreeData E M)) (vs : List (Tree (Tr × TreeData E M))) : Prop where
  tree : s.raztree = some t
  btw : UqBetween L σ ht t sp v vs []
  num : Numbered s.names (tN .dcg t.tree)
  past : ∀ w ∈ vs, Numbered s.names (nodeNames w)

omit [DecidableEq E] [DecidableEq M] [Fintype E] [RazMeta E M] in
theorem numbered_unit {k : Nat} {l : List Name} (h : Numbered k l) : .unit ∉ l := by
  intro hx
  obtain ⟨i, -, h | h⟩ := h _ hx <;> cases h

omit [Fintype E] [DecidableEq M] [RazMeta E M] in
theorem uqBound_mono {k k' : Nat} (h : k ≤ k') (t t' : Tree (TreeData E M)) : uqBound L k t t' ≤ uqBound L k' t t' :=
  Nat.add_le_add (by omega) (Nat.mul_le_mul_left _ (Nat.mul_le_mul_right _ (by omega)))

theorem uqHeld_step [LawfulMeta E M] (hL : 1 ≤ L) (hL' : L ≤ 63) {edit : HEval M G → R → HR E M (HEval M G × R)}
    {edit' : EvalRaz E M G → R → P (EvalRaz E M G × R)} {batch : Nat} (hc : Heap.Calls edit edit' batch) (h0 : 0 < batch) {σ : RMem E M} {ht : HTree M}
    {s s' : EvalRaz E M G} (hg : s.namegauge = 1) {t : RazTree E M} {sp : (E → Fin (2 ^ 64)) → UqSpace E M} {v : Tree (Tr × TreeData E M)}
    {vs : List (Tree (Tr × TreeData E M))} {rng rng' : R} (g : UqHeld L σ ht s t sp v vs) (he : edit' s rng = .ok (s', rng')) {t' : RazTree E M}
    (ht' : s'.raztree = some t') :
    ∃ (hT : HTree M) (σ' : RMem E M) (a : (E → Fin (2 ^ 64)) → Skiplist) (work : (E → Fin (2 ^ 64)) → Nat) (sp' : (E → Fin (2 ^ 64)) → UqSpace E M)
      (v' : Tree (Tr × TreeData E M)), Runs (edit (toH s ht) rng) σ (toH s' hT, rng') σ' ∧
      (∀ w, Runs (countedUnique (hashOf w) L hT (sp w)) σ' (a w, work w, sp' w) σ') ∧
      (∀ w, Finds (hashOf w) t'.elems (a w) (sp' w)) ∧
      ∑ w, work w ≤ (2 ^ 64) ^ Fintype.card E * uqBound L (t.tree.depth + batch / s.datagauge + 1) t.tree t'.tree ∧ s'.datagauge = s.datagauge ∧
      s'.namegauge = s.namegauge ∧ UqHeld L σ' hT s' t' sp' v' (v :: vs) := by
  obtain ⟨i, ops, t1, k, c1, c2, c3, c4, c5, c6, c7, c8, c9, c10, c11⟩ := hc s t rng s' rng' g.tree he
  rw [ht'] at c2
  cases c2
  have b := g.btw.btw
  have hl : t.LocalEdit [(i, ops)] := ⟨fun z _ => adds_local c3 (.inr (by omega)), fun _ _ => trivial⟩
  have he' : t.edits [(i, ops)] = .ok (t', t.tree.depth + LOp.points ops + 0) := bind_ok.2 ⟨t', c1, rfl⟩
  have hnd : (tN .dcg t.tree).Nodup := by have := b.nodup; rwa [List.append_nil] at this
  have hnum := nodup_count (nodup_num (e := .dcg) (n := k) g.num hnd)
  have hcells : restCells [(i, ops)] = LOp.cells ops := by simp [restCells]
  have hn : (tN .dcg t.tree ++ restCells [(i, ops)]).Nodup := count_nodup fun x => by
    have h1 := hnum x
    have h2 := c6 x
    rw [hcells]
    simp only [List.count_append] at *
    omega
  obtain ⟨_, _, _, hm⟩ := moves [(i, ops)] b.rep b.inv b.canon b.full hn hl he'
  have hb1 : UqBetween L σ ht t sp v vs (restCells [(i, ops)] ++ []) := by
    refine ⟨⟨b.rep, b.inv, b.canon, b.full, b.view, b.plain, b.hist, by rw [List.append_nil]; exact hn, fun w hw x hx hx' => ?_⟩, g.btw.whole, g.btw.tree, g.btw.reach, ?_, ?_⟩
    · rw [List.append_nil, hcells] at hx'
      obtain ⟨j, h1, -, h2⟩ := numN_mem (c6.subset hx')
      obtain ⟨j', h3, h4⟩ := g.past w hw x hx
      rcases h2 with rfl | rfl <;> rcases h4 with h4 | h4 <;> cases h4 <;> omega
    · rw [List.append_nil, hcells]
      intro hx
      rcases List.mem_append.1 hx with hx | hx
      · exact numbered_start g.num hx
      · obtain ⟨j, -, -, h2⟩ := numN_mem (c6.subset hx)
        rcases h2 with h2 | h2 <;> cases h2
    · rw [List.append_nil, hcells]
      intro hx
      rcases List.mem_append.1 hx with hx | hx
      · exact numbered_unit g.num hx
      · obtain ⟨j, -, -, h2⟩ := numN_mem (c6.subset hx)
        rcases h2 with h2 | h2 <;> cases h2
  obtain ⟨hT, σ', a, work, sp', v', r1, r2, r3, r4, r5⟩ := uq_step hL hL' hb1 (fun q hq => by
    rw [List.mem_singleton] at hq; subst hq; exact c8 hg) hl he'
  have hnv : ∀ x, x ∈ nodeNames v ↔ x ∈ tN .dcg t.tree := fun x => by rw [← nodeNames_plain, b.plain, names_mem]
  refine ⟨hT, σ', a, work, sp', v', ?_, r2, r3, ?_, c9, c10, ht', r5, ?_, ?_⟩
  · obtain ⟨f0, r1⟩ := r1
    refine ⟨f0, fun f hf => c11 ht b.rep.info f σ hT σ' ?_⟩
    have := r1 f hf
    simp only [HTree.edits] at this
    rwa [show (ht.edit .dcg i ops >>= fun t' => (Pure.pure t' : HR E M _)) = ht.edit .dcg i ops from hbind_pure _] at this
  · rw [hg, Nat.one_mul] at c7
    exact Nat.le_trans r4 (Nat.mul_le_mul_left _ (uqBound_mono (by omega) _ _))
  · rw [c5]
    refine numbered_num (e := .dcg) (n := k) g.num fun x => ?_
    have h1 := hm.names x
    have h2 := c6 x
    rw [hcells] at h1
    simp only [List.count_append] at *
    omega
  · intro w hw
    rcases List.mem_cons.1 hw with rfl | hw
    · intro x hx
      obtain ⟨j, h1, h2⟩ := g.num x ((hnv x).1 hx)
      exact ⟨j, by omega, h2⟩
    · exact numbered_le (g.past w hw) (by omega)

theorem uqHeld_all [LawfulMeta E M] (hL : 1 ≤ L) (hL' : L ≤ 63) {edit : HEval M G → R → HR E M (HEval M G × R)}
    {edit' : EvalRaz E M G → R → P (EvalRaz E M G × R)} {batch : Nat} (hc : Heap.Calls edit edit' batch) (h0 : 0 < batch) (p : Params) :
    ∀ (n : Nat) {σ : RMem E M} {ht : HTree M} {s : EvalRaz E M G} {t : RazTree E M} {sp : (E → Fin (2 ^ 64)) → UqSpace E M} {v : Tree (Tr × TreeData E M)}
      {vs : List (Tree (Tr × TreeData E M))} {rng rng' : R} {as : List (Unit × (RazTree E M × Unit))}, UqHeld L σ ht s t sp v vs → s.namegauge = 1 →
      s.datagauge = p.datagauge →
      Eval.testLoop edit' (plainly (T := Unit) (fun s => unwrap s.raztree >>= withTree fun _ => .ok ())) n s () rng = .ok (as, rng') →
      ∃ (outs : (E → Fin (2 ^ 64)) → List (Skiplist × Nat × UqSpace E M)) (σ' : RMem E M) (works : List ((E → Fin (2 ^ 64)) → Nat)),
        (∀ w, Runs (Heap.testLoop edit (HEval.comp (keeping (countedUnique (hashOf w) L))) n (toH s ht) (sp w) rng) σ (outs w, rng') σ') ∧
        (∀ w, (outs w).map (·.2.1) = works.map (· w)) ∧
        (∀ w, List.Forall₂ (fun (q : Unit × (RazTree E M × Unit)) (o : Skiplist × Nat × UqSpace E M) => Finds (hashOf w) q.2.1.elems o.1 o.2.2) as (outs w)) ∧
        uqAfter L p batch t (as.map Prod.snd) works := by
  intro n
  induction n with
  | zero =>
    intro σ ht s t sp v vs rng rng' as g _ _ h
    cases h
    exact ⟨fun _ => [], σ, [], fun _ => .pure, fun _ => rfl, fun _ => .nil, trivial⟩
  | succ n ih =>
    intro σ ht s t sp v vs rng rng' as g hng hdg h
    unfold Eval.testLoop at h
    obtain ⟨⟨s1, r1⟩, e1, h⟩ := bind_ok.1 h
    obtain ⟨⟨u, t1, b⟩, e2, h⟩ := bind_ok.1 h
    obtain ⟨⟨as1, r2⟩, e3, hfin⟩ := bind_ok.1 h
    cases hfin
    obtain ⟨e4, e5⟩ := plain_answer e2
    simp only at e4 e5
    obtain ⟨hT, σ1, a, work, sp', v', k1, k2, k3, k4, k5, k6, k7⟩ := uqHeld_step hL hL' hc h0 hng g e1 e4
    obtain ⟨outs, σ2, works, k8, k9, k9', k10⟩ := ih k7 (by rw [k6, hng]) (by rw [k5, hdg]) e3
    refine ⟨fun w => (a w, work w, sp' w) :: outs w, σ2, work :: works, fun w => ?_, fun w => by simp only [List.map_cons, k9],
      fun w => .cons (k3 w) (k9' w), by rw [← hdg]; exact k4, k10⟩
    unfold Heap.testLoop
    exact k1.bind ((comp_keeping (k2 w)).bind ((k8 w).bind .pure))

theorem uq_session [LawfulMeta E M] (hL : 1 ≤ L) (hL' : L ≤ 63) {edit : HEval M G → R → HR E M (HEval M G × R)} {edit' : EvalRaz E M G → R → P (EvalRaz E M G × R)}
    {batch : Nat} (hc : Heap.Calls edit edit' batch) (h0 : 0 < batch) {C : Coord G E} {word : R → BitVec 64 × R} {p : Params} (hs : 0 < p.size) (hg : p.namegauge = 1)
    {coord : G} {rng rng' : R} {as : List (RazTree E M × Unit)} (h : sessionV C word p coord rng edit' (withTree fun _ => .ok ()) = .ok (as, rng')) :
    ∃ works : List ((E → Fin (2 ^ 64)) → Nat), (∀ w, ∃ outs : List (Skiplist × Nat × UqSpace E M),
      Ends (sessionH C word p coord rng edit (keeping (countedUnique (hashOf w) L)) OSpace.empty) (.ok (outs, rng')) ∧
      List.Forall₂ (fun (a : RazTree E M × Unit) (o : Skiplist × Nat × UqSpace E M) => Finds (hashOf w) a.1.elems o.1 o.2.2) as outs ∧
      outs.map (·.2.1) = works.map (· w)) ∧ uqWithin L p batch as works := by
  unfold sessionV at h
  cases hx : Eval.test (createRaz C word p coord) edit' (plainly (T := Unit) (fun s => unwrap s.raztree >>= withTree fun _ => .ok ()))
      p.changes () rng with
  | error q => rw [hx] at h; cases h
  | ok x =>
    obtain ⟨as0, r0⟩ := x
    rw [hx] at h
    cases h
    unfold Eval.test at hx
    obtain ⟨⟨s, r1⟩, e1, hx⟩ := bind_ok.1 hx
    obtain ⟨⟨u, t, b⟩, e2, hx⟩ := bind_ok.1 hx
    obtain ⟨⟨as1, r2⟩, e3, hfin⟩ := bind_ok.1 hx
    cases hfin
    obtain ⟨e4, e5⟩ := plain_answer e2
    obtain ⟨ops, z, t', c1, c2, c3, c4, c5, c6, c7, c8, c9, c10⟩ := incInit_calls e1
    simp only at e4 e5
    rw [e4] at c3
    cases c3
    have hl : (Raz.new : Raz E M).Local ops := adds_local c4 (.inr (by omega))
    have hz : ∀ x, (cN .dcg (Raz.new : Raz E M).lForest ++ cN .dcg (Raz.new : Raz E M).rForest).count x = 0 := fun x => rfl
    have hnum := nodup_count (numN_nodup (e := .dcg) 0 s.names)
    have hnd : (cN .dcg (Raz.new : Raz E M).lForest ++ cN .dcg (Raz.new : Raz E M).rForest ++ LOp.cells ops).Nodup := count_nodup fun x => by
      have h1 := hnum x
      have h2 := c6 x
      rw [List.count_append, hz]
      omega
    have start : LInvs (Raz.new : Raz E M) (Raz.new : Raz E M) [] 0 := ⟨ZInv.empty, ZC.empty, rfl, rfl, fun x => Nat.le_refl _, Nat.le_refl _⟩
    obtain ⟨hz', σ1, k1, k2, k3, k4, -⟩ := sim_runs (lops_sim (σ := Store.empty) ops start hl RepZ.empty hnd) c1
    obtain ⟨ht, σ2, k5, k6, k7, k8, k9, k10, -⟩ := sim_runs (close_sim k3 k4 k2 hnd) c2
    obtain ⟨v, a1, a2, a3⟩ := view_exists k6.tree
    have hsub : Sub (tN .dcg t.tree) (numN .dcg 0 s.names) := fun x => by
      have h1 := k10 x
      have h2 := c6 x
      rw [List.count_append, hz] at h1
      simp only [List.nil_append] at h1
      omega
    have hn' : (tN .dcg t.tree).Nodup := count_nodup fun x => by
      have h1 := hsub x
      have h2 := hnum x
      omega
    have hN : Numbered s.names (tN .dcg t.tree) := fun x hx => by
      obtain ⟨j, -, h1, h2⟩ := numN_mem (hsub.subset hx)
      exact ⟨j, by omega, h2⟩
    have hw := Whole.make (c7 hg) hl c1 c2
    have hre : t.Reachable .any := .unfocus (reach_lops .new (local_lifts hl c1) c1) c2
    have fst : UqFirst (L := L) σ2 ht t v := uq_first hL hL' a1 a2 hw hre k9 (by rw [a3]; exact names_nodup hn') (fun hx => numbered_start hN (names_mem.1 (a3 ▸ hx)))
      (fun hx => numbered_unit hN (names_mem.1 (a3 ▸ hx)))
    obtain ⟨hut, a, sp, f1, f2', f2⟩ := fst
    have hh : UqHeld L σ2 ht s t sp v [] :=
      ⟨e4, ⟨⟨k6, k7, k8, k9, a1, a2, f2, by rw [List.append_nil]; exact hn', fun w hw => by cases hw⟩, hw, hut, hre,
        by rw [List.append_nil]; exact numbered_start hN, by rw [List.append_nil]; exact numbered_unit hN⟩, hN, fun w hw => by cases hw⟩
    obtain ⟨outs, σ3, works, g1, g2, g2', g3⟩ := uqHeld_all hL hL' hc h0 p p.changes hh (by rw [c9, hg]) c8 e3
    refine ⟨(fun _ => t.tree.size) :: works, fun w => ?_, fun _ => rfl, g3⟩
    have hrun : Runs (sessionH C word p coord rng edit (keeping (countedUnique (hashOf w) L)) OSpace.empty) Store.empty ((a w, t.tree.size, sp w) :: outs w, r0) σ3 := by
      unfold sessionH Heap.test
      refine Runs.bind (a := (toH s ht, r1)) (σ' := σ2) ?_ ((comp_keeping (f1 w)).bind ((g1 w).bind .pure))
      rw [c10]
      exact k1.bind (k5.bind .pure)
    obtain ⟨f0, hrun⟩ := hrun
    exact ⟨(a w, t.tree.size, sp w) :: outs w, ⟨f0, fun f hf => by rw [hrun f hf]; rfl⟩, .cons (f2' w) (List.forall₂_map_left_iff.2 (g2' w)), by simp only [List.map_cons, g2]⟩

/-- **C97, sessions of the driver** (eval/examples/unique_elms.rs). The harness makes a sequence of at least one element with a name for every archive point, gathers
its elements with stored calls, and then in turn edits it with batches of at least one element and gathers the elements again. Take the mean over all functions
from the elements to 64-bit hashes. Each skip list finds exactly the elements of the sequence. The first run visits each node once. After each edit the mean work is within `uqBound` with the depth of the tree before the edit
and the number of archive points that the edit adds. For all parameters, generators and random streams for which the session does not panic; with positions, -/
theorem C97_session (hL : 1 ≤ L) (hL' : L ≤ 63) {C : Coord G E} {word : R → BitVec 64 × R} {p : Params} (hs : 0 < p.size) (hg : p.namegauge = 1) {o : Edit}
    (ho : 0 < o.size) {coord : G} {rng rng' : R} {as : List (RazTree E Count × Unit)}
    (h : sessionV C word p coord rng (fun s r => o.run C word s r) (withTree fun _ => .ok ()) = .ok (as, rng')) :
    ∃ works : List ((E → Fin (2 ^ 64)) → Nat), (∀ w, ∃ outs : List (Skiplist × Nat × UqSpace E Count),
      Ends (sessionH C word p coord rng (editH C word o) (keeping (countedUnique (hashOf w) L)) OSpace.empty) (.ok (outs, rng')) ∧
      List.Forall₂ (fun (a : RazTree E Count × Unit) (o : Skiplist × Nat × UqSpace E Count) => Finds (hashOf w) a.1.elems o.1 o.2.2) as outs ∧
      outs.map (·.2.1) = works.map (· w)) ∧ uqWithin L p o.size as works :=
  uq_session hL hL' (edit_calls C word o) ho hs hg h

/-- and with names as places of the edits. -/
theorem C97_session_names (hL : 1 ≤ L) (hL' : L ≤ 63) {C : Coord G E} {word : R → BitVec 64 × R} {p : Params} (hs : 0 < p.size) (hg : p.namegauge = 1) {o : Edit}
    (ho : 0 < o.size) {order : R → List Name → List Name} {coord : G} {rng rng' : R} {as : List (RazTree E Names × Unit)}
    (h : sessionV C word p coord rng (fun s r => o.runN C word (order r) s r) (withTree fun _ => .ok ()) = .ok (as, rng')) :
    ∃ works : List ((E → Fin (2 ^ 64)) → Nat), (∀ w, ∃ outs : List (Skiplist × Nat × UqSpace E Names),
      Ends (sessionH C word p coord rng (editHN C word order o) (keeping (countedUnique (hashOf w) L)) OSpace.empty) (.ok (outs, rng')) ∧
      List.Forall₂ (fun (a : RazTree E Names × Unit) (o : Skiplist × Nat × UqSpace E Names) => Finds (hashOf w) a.1.elems o.1 o.2.2) as outs ∧
      outs.map (·.2.1) = works.map (· w)) ∧ uqWithin L p o.size as works :=
  uq_session hL hL' (editN_calls C word order o) ho hs hg h

/-- **C97, no panics.** Within the number types the session on values does not panic; so the bounds hold without further conditions, and the elements are those that the
edits make on a plain list. -/
theorem C97_total (hL : 1 ≤ L) (hL' : L ≤ 63) {C : Coord G E} {word : R → BitVec 64 × R} {p : Params} (hg : p.namegauge = 1) {coord : G} {rng : R} (hp : InRange p)
    (hs : 0 < p.size) {o : Edit} (ho : Possible p o) (ho' : 0 < o.size) :
    ∃ (as : List (RazTree E Count × Unit)) (works : List ((E → Fin (2 ^ 64)) → Nat)) (rng' : R), Matches C p coord o (fun xs a => a.1.elems = xs) as ∧
      (∀ w, ∃ outs : List (Skiplist × Nat × UqSpace E Count),
        Ends (sessionH C word p coord rng (editH C word o) (keeping (countedUnique (hashOf w) L)) OSpace.empty) (.ok (outs, rng')) ∧
        List.Forall₂ (fun (a : RazTree E Count × Unit) (o : Skiplist × Nat × UqSpace E Count) => Finds (hashOf w) a.1.elems o.1 o.2.2) as outs ∧
        outs.map (·.2.1) = works.map (· w)) ∧ uqWithin L p o.size as works := by
  obtain ⟨as, rng', h1, h2⟩ := sessionV_total (B := RazTree E Count × Unit) (scratch := withTree fun _ => .ok ())
    (Q := fun xs a => a.1.elems = xs) C word p coord rng hp ho (fun t _ => ⟨(t, ()), rfl, rfl⟩)
  obtain ⟨works, h3, h4⟩ := C97_session hL hL' hs hg ho' h1
  exact ⟨as, works, rng', h2, h3, h4⟩

/-! ### Sessions that meet the conditions -/

/-- The elements 1 to 8 with named archive points. -/
def exUqOps : List (LOp (Fin 64)) :=
  [.pushL 1, .archL 1 (some (.usize 1)), .pushL 2, .archL 2 (some (.usize 2)), .pushL 3, .archL 1 (some (.usize 3)), .pushL 4,
    .archL 3 (some (.usize 4)), .pushL 5, .archL 1 (some (.usize 5)), .pushL 6, .archL 2 (some (.usize 6)), .pushL 7,
    .archL 1 (some (.usize 7)), .pushL 8]

/-- Two batches: two edits, of which one repeats an element, and one edit. -/
def exUqBatches : List (List (RazMeta.Index (Fin 64) Count × List (LOp (Fin 64)))) :=
  [[((1 : Nat), [.popL, .pushL 10]), ((4 : Nat), [.pushL 20, .archL 1 (some (.usize 8)), .pushL 7])], [((7 : Nat), [.pushR 40, .pushR 50, .popR])]]

set_option synthInstance.maxSize 1000 in
/-- The conditions of `C97_batches`; the elements after each batch, and the bounds. -/
example : (LOp.cells exUqOps ++ batchCells exUqBatches).Nodup ∧ .str "start" ∉ LOp.cells exUqOps ++ batchCells exUqBatches ∧
    .unit ∉ LOp.cells exUqOps ++ batchCells exUqBatches ∧
    LocalReruns (M := Count) exUqOps exUqBatches ∧ (∀ op ∈ exUqOps, op.Titles) ∧ (∀ es ∈ exUqBatches, ∀ q ∈ es, ∀ op ∈ q.2, op.Titles) ∧
    (rerunSession (M := Count) (fun t => .ok t) exUqOps exUqBatches).map
      (fun x => (x.1.elems, x.2.1, x.2.2.map (fun q => (q.1.elems.map Fin.val, q.2)))) =
      .ok ([1, 2, 3, 4, 5, 6, 7, 8], 15, [([10, 2, 3, 4, 20, 7, 5, 6, 7, 8], 7, 1), ([10, 2, 3, 4, 20, 7, 5, 40, 6, 7, 8], 4, 1)]) := by
  refine ⟨by decide +kernel, by decide +kernel, by decide +kernel, rerunsB_sound (by decide +kernel), ?_, ?_, by decide +kernel⟩
  · simp [exUqOps, LOp.Titles]
  · intro es h1 q h2
    simp only [exUqBatches, List.mem_cons, List.not_mem_nil, or_false] at h1
    rcases h1 with rfl | rfl <;> simp only [List.mem_cons, List.not_mem_nil, or_false] at h2
    · rcases h2 with rfl | rfl <;> simp [LOp.Titles]
    · subst h2; simp [LOp.Titles]

/-- What the model gives for one hash function: the work of each run. -/
example : (hrerunSession (M := Count) (countedUnique (fun x => BitVec.ofNat 64 (x.val * 37)) 6) OSpace.empty exUqOps exUqBatches 99 Store.empty).map
    (fun x => (x.1.2.1, x.1.2.2.2.map (·.2.1))) = .ok (15, [17, 7]) := by
  decide +kernel

/-- A source of elements for the driver. -/
def exFin : Coord Nat (Fin 64) := ⟨fun g => (Fin.ofNat 64 (5 * g), g + 1), fun g => (7 * g, g + 1)⟩

/-- Depth and size of the trees of a session of the driver; the number of elements. -/
theorem exFin_session : (sessionV (M := Count) exFin exWord exLong 0 0 (fun s r => (Edit.insert 2).run exFin exWord s r) (withTree fun _ => .ok ())).map
      (fun x => x.1.map fun a => (a.1.tree.depth, a.1.tree.size, a.1.elems.length)) =
    .ok [(6, 39, 40), (6, 41, 42), (7, 43, 44), (7, 43, 46), (7, 45, 48)] := by
  decide +kernel

/-- How deep they are, how many elements differ, how often one occurs at most, and the length of the longest leaf. -/
theorem exFin_sizes : (sessionV (M := Count) exFin exWord exLong 0 0 (fun s r => (Edit.insert 2).run exFin exWord s r) (withTree fun _ => .ok ())).map
      (fun x => x.1.map fun a => [depthOf a.1.tree, different (treeElems a.1.tree), mostOften (treeElems a.1.tree), widest a.1.tree]) =
    .ok [[7, 40, 1, 2], [7, 42, 1, 2], [8, 44, 1, 3], [8, 46, 1, 4], [8, 48, 1, 4]] := by
  decide +kernel

/-- The conditions of `C97_session` are met: four means, of which the first is at most 3960 (the bounds are of use for longer sequences, since they grow with the logarithm). -/
example : ∃ w0 w1 w2 w3 w4 : (Fin 64 → Fin (2 ^ 64)) → Nat, (∀ w, ∃ outs rng',
      Ends (sessionH (M := Count) exFin exWord exLong 0 0 (editH exFin exWord (.insert 2)) (keeping (countedUnique (hashOf w) 6)) OSpace.empty) (.ok (outs, rng')) ∧
      outs.map (·.2.1) = [w0 w, w1 w, w2 w, w3 w, w4 w]) ∧ (∀ w, w0 w = 39) ∧ ∑ w, w1 w ≤ (2 ^ 64) ^ Fintype.card (Fin 64) * 3960 := by
  have h := exFin_session
  have h' := exFin_sizes
  cases hx : sessionV (M := Count) exFin exWord exLong 0 0 (fun s r => (Edit.insert 2).run exFin exWord s r) (withTree fun _ => .ok ()) with
  | error q => rw [hx] at h; cases h
  | ok x =>
    obtain ⟨as, rng'⟩ := x
    rw [hx] at h h'
    obtain ⟨works, h1, h2⟩ := C97_session (L := 6) (by decide) (by decide) (by decide) (by decide) (by decide) hx
    have h := Except.ok.inj h
    have h' := Except.ok.inj h'
    simp only at h h'
    obtain ⟨⟨t0, b0⟩, ⟨t1, b1⟩, ⟨t2, b2⟩, ⟨t3, b3⟩, ⟨t4, b4⟩, rfl⟩ : ∃ a b c d e, as = [a, b, c, d, e] := by
      rcases as with _ | ⟨a, _ | ⟨b, _ | ⟨c, _ | ⟨d, _ | ⟨e, _ | ⟨f, as⟩⟩⟩⟩⟩⟩ <;> simp at h
      exact ⟨a, b, c, d, e, rfl⟩
    simp only [List.map_cons, List.map_nil, List.cons.injEq, Prod.mk.injEq, and_true] at h h'
    rcases works with _ | ⟨o0, _ | ⟨o1, _ | ⟨o2, _ | ⟨o3, _ | ⟨o4, _ | ⟨o5, works⟩⟩⟩⟩⟩⟩ <;> simp only [uqWithin, uqAfter, and_false] at h2
    refine ⟨o0, o1, o2, o3, o4, fun w => ?_, fun w => by rw [h2.1 w]; exact h.1.2.1, Nat.le_trans h2.2.1 (Nat.mul_le_mul_left _ ?_)⟩
    · obtain ⟨outs, g1, -, g2⟩ := h1 w
      exact ⟨outs, rng', g1, g2⟩
    · obtain ⟨⟨-, -, -, d3⟩, ⟨e0, e1, e2, e3⟩, -⟩ := h'
      have hd : t0.tree.depth = 6 := h.1.1
      unfold uqBound
      rw [hd, d3, e0, e1, e2, e3]
      decide +kernel

end Iodyn.Incr
