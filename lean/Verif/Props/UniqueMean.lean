import Verif.Proof.UniqueMean
import Verif.Props.UniqueWork
/-
C96: the work of memoised runs of `unique_elms`, in the mean over all hash functions.
-/
namespace Iodyn.Incr
open Iodyn.Heap
open Iodyn.Skip (Skiplist Path ObsRes common hashOf)

section
variable {E M : Type} {L : Nat} [DecidableEq E] [DecidableEq M] [Fintype E]

/-- **C96, changed leaves.** Take the mean over all functions from the elements to 64-bit hashes. An edit replaces the leaves `A` by the leaves `B`; no element occurs more
than `r` times after the leaf `l` that comes next. Then in the mean at most `|B| + 1 + z * r * (log m + 2 + m / 2 ^ L)` leaves depend on something else, where `z`
is the number of elements of `A`, `B` and `l` and `m` is the number of different elements after `l`. -/
theorem C96_leaves (hL : L ≤ 63) {v v' : Tree (Tr × TreeData E M)} (hu : UqTree v) {P A B S : List (Leaf E)} {l : Leaf E} (e : leavesOf startName v = P ++ A ++ l :: S)
    (e' : leavesOf startName v' = P ++ B ++ l :: S) {r : Nat} (hr : ∀ y, (leafElems S).count y ≤ r) :
    ∑ w : E → Fin (2 ^ 64), changedLeaves L (hashOf w) v v' ≤ (2 ^ 64) ^ Fintype.card E *
      (B.length + 1 + (leafElems (A ++ B ++ [l])).length * (r * (Nat.clog 2 (leafElems S).toFinset.card + 2 + (leafElems S).toFinset.card / 2 ^ L))) := by
  have h1 := Finset.sum_le_sum fun w (_ : w ∈ (Finset.univ : Finset (E → Fin (2 ^ 64)))) => C95_edit (L := L) (hash := hashOf w) hu e e'
  have h2 := Uq.touched_mean hL (leafElems (A ++ B ++ [l])) hr
  rw [Finset.sum_add_distrib, Finset.sum_const, Finset.card_univ, Fintype.card_fun, Fintype.card_fin, smul_eq_mul] at h1
  rw [Nat.mul_add]
  exact Nat.le_trans h1 (Nat.add_le_add_left h2 _)

/-- **C96, the mean work.** Take the mean over all functions from the elements to 64-bit hashes, with the same trees. In all cases the run after the edit ends; in the mean it
evaluates at most the nodes that are new, and the depth times `|B| + 1 + z * r * (log m + 2 + m / 2 ^ L)`: logarithmic in what comes after the edit, as long as that
does not have more different elements than there are paths. -/
theorem C96_mean (hL : 1 ≤ L) (hL' : L ≤ 63) {s : (E → Fin (2 ^ 64)) → UqSpace E M} {v : Tree (Tr × TreeData E M)} {vs : List (Tree (Tr × TreeData E M))}
    (hs : ∀ w, UqHistory (hashOf w) L (s w) (v :: vs)) (hu0 : UqTree v) {σ : RMem E M} {h : Tr} {v' : Tree (Tr × TreeData E M)} (hv : View σ (some h) v') (hu : UqTree v')
    (hr : NoReturn (v :: vs) v') {n : Nat} (hm : v'.size ≤ n) {P A B S : List (Leaf E)} {l : Leaf E} (e : leavesOf startName v = P ++ A ++ l :: S)
    (e' : leavesOf startName v' = P ++ B ++ l :: S) {r : Nat} (hc : ∀ y, (leafElems S).count y ≤ r) :
    ∃ works : (E → Fin (2 ^ 64)) → Nat,
      (∀ w, ∃ o, orun skipView (lrObsBody (uniqueNode (hashOf w))) σ n ⟨h, startName, Eval.UniqueElms.start L⟩ (s w) = some (.ok o) ∧ o.work = works w) ∧
      ∑ w, works w ≤ (2 ^ 64) ^ Fintype.card E * (costFrom (pointsFrom startName v) startName v' + depthOf v' *
        (B.length + 1 + (leafElems (A ++ B ++ [l])).length * (r * (Nat.clog 2 (leafElems S).toFinset.card + 2 + (leafElems S).toFinset.card / 2 ^ L)))) := by
  have each := fun w => C95_work hL hL' (hs w) hu0 hv hu hr hm
  refine ⟨fun w => (each w).choose.work, fun w => ⟨_, (each w).choose_spec.1, rfl⟩, ?_⟩
  refine Nat.le_trans (Finset.sum_le_sum fun w _ => (each w).choose_spec.2.1) ?_
  rw [Finset.sum_add_distrib, Finset.sum_const, Finset.card_univ, Fintype.card_fun, Fintype.card_fin, smul_eq_mul, ← Finset.mul_sum, Nat.mul_add, Nat.mul_left_comm _ (depthOf v')]
  exact Nat.add_le_add_left (Nat.mul_le_mul_left _ (C96_leaves hL' hu0 e e' hc)) _
end

/-! ### Cases -/

/-- Twelve of 64 elements, each in a leaf of its own. -/
def exSome : List (Cmd (Fin 64) (RazMeta.Index (Fin 64) Count)) :=
  [.new] ++ ([(1, 2), (2, 5), (3, 3), (4, 1), (5, 6), (6, 2), (7, 4), (8, 1), (9, 3), (10, 2), (11, 2)].flatMap fun q =>
    [.op 0 (.pushL (Fin.ofNat 64 (q.1 * 5))), .op 0 (.archL q.2 (some (.usize q.1)))]) ++ [.op 0 (.pushL 60), .op 0 .unfocus]

/-- The conditions of `C96_leaves` and `C96_mean`, for an edit of the fourth of twelve leaves: in the mean at most `2 + 4 * 5` leaves depend on something else (and of course at
most twelve; the bound gains on longer sequences, where it only grows with the logarithm). -/
example : ∃ (s : (Fin 64 → Fin (2 ^ 64)) → UqSpace (Fin 64) Count) (v v' : Tree (Tr × TreeData (Fin 64) Count)) (σ : RMem (Fin 64) Count) (h : Tr) (P A B S : List (Leaf (Fin 64))) (l : Leaf (Fin 64)),
    (∀ w, UqHistory (hashOf w) 6 (s w) [v]) ∧ UqTree v ∧ View σ (some h) v' ∧ UqTree v' ∧ NoReturn [v] v' ∧ v'.size = 23 ∧
    leavesOf startName v = P ++ A ++ l :: S ∧ leavesOf startName v' = P ++ B ++ l :: S ∧
    (leafElems P).map Fin.val = [5, 10, 15] ∧ (leafElems A).map Fin.val = [20] ∧ (leafElems B).map Fin.val = [20, 22] ∧ (leafElems [l]).map Fin.val = [25] ∧
    (leafElems S).map Fin.val = [30, 35, 40, 45, 50, 55, 60] ∧ (∀ y, (leafElems S).count y ≤ 1) ∧
    (∑ w, changedLeaves 6 (hashOf w) v v') ≤ (2 ^ 64) ^ Fintype.card (Fin 64) * 22 := by
  have hx : (do
      let (vs, σ, _, v1) ← treeNext exSome [] Store.empty
      let (_, _, _, v2) ← treeNext [.op 0 (.focus (4 : Nat)), .op 0 (.pushL 22), .op 0 .unfocus] vs σ
      let l1 := leavesOf startName v1
      let l2 := leavesOf startName v2
      return ([uqTreeB v1, uqTreeB v2, treeReturnB [v1] v2, decide (l1.take 3 = l2.take 3), decide (l1.drop 4 = l2.drop 4)], v2.size,
        (l1.map fun l => l.2.2.map Fin.val), (l2.map fun l => l.2.2.map Fin.val))) =
      some (List.replicate 5 true, 23, [[5], [10], [15], [20], [25], [30], [35], [40], [45], [50], [55], [60]],
        [[5], [10], [15], [20, 22], [25], [30], [35], [40], [45], [50], [55], [60]]) := by decide +kernel
  obtain ⟨⟨vs1, σ1, h1, v1⟩, e1, hx⟩ := Option.bind_eq_some_iff.1 hx
  obtain ⟨⟨vs2, σ2, h2, v2⟩, e2, hx⟩ := Option.bind_eq_some_iff.1 hx
  have hx := Option.some.inj hx
  simp only [Prod.mk.injEq, decide_eq_true_eq, List.replicate, List.cons.injEq, and_true] at hx
  obtain ⟨⟨x1, x2, x3, x4, x5⟩, y1, z1, z2⟩ := hx
  have split : ∀ {l2 : List (Leaf (Fin 64))} {a2 b2 c2 d2 e2 : List Nat} {r2 : List (List Nat)}, l2.map (fun l => l.2.2.map Fin.val) = a2 :: b2 :: c2 :: d2 :: e2 :: r2 →
      ∃ x y, l2 = l2.take 3 ++ [x] ++ y :: l2.drop 5 ∧ l2.drop 4 = y :: l2.drop 5 ∧ x.2.2.map Fin.val = d2 ∧ y.2.2.map Fin.val = e2 ∧
        (l2.take 3).map (fun l => l.2.2.map Fin.val) = [a2, b2, c2] ∧ (l2.drop 5).map (fun l => l.2.2.map Fin.val) = r2 := by
    intro l2 a2 b2 c2 d2 e2 r2 h
    rcases l2 with _ | ⟨a, _ | ⟨b, _ | ⟨c, _ | ⟨d, _ | ⟨e, l2⟩⟩⟩⟩⟩ <;> simp at h
    obtain ⟨rfl, rfl, rfl, rfl, rfl, rfl⟩ := h
    exact ⟨d, e, by simp, by simp, rfl, rfl, by simp, by simp⟩
  obtain ⟨A, l, p1, p2, p3, p4, p5, p6⟩ := split z1
  obtain ⟨B, l', q1, q2, q3, -⟩ := split z2
  rw [← x5, p2] at q2
  obtain ⟨rfl, q2⟩ := List.cons.inj q2
  rw [← x4, ← q2] at q1
  generalize (leavesOf startName v1).take 3 = P at *
  generalize (leavesOf startName v1).drop 5 = S at *
  have elems : ∀ ls : List (Leaf (Fin 64)), (leafElems ls).map Fin.val = (ls.map fun l => l.2.2.map Fin.val).flatten := by
    intro ls
    induction ls with
    | nil => rfl
    | cons a ls ih =>
      have : leafElems (a :: ls) = a.2.2 ++ leafElems ls := rfl
      rw [this, List.map_append, ih]
      rfl
  have eS : (leafElems S).map Fin.val = [30, 35, 40, 45, 50, 55, 60] := by rw [elems, p6]; rfl
  have hS : leafElems S = [30, 35, 40, 45, 50, 55, 60] := (List.map_injective_iff.2 Fin.val_injective) (eS.trans (by decide))
  have hnd : (leafElems S).Nodup := by rw [hS]; decide
  have hc : ∀ y, (leafElems S).count y ≤ 1 := List.nodup_iff_count_le_one.1 hnd
  have ex := fun w => UqHistory.extend (hash := hashOf w) (L := 6) (by decide) (by decide) .start (treeNext_view e1) (uqTreeB_ok x1) trivial
  refine ⟨fun w => (ex w).choose, v1, v2, σ2, h2, P, [A], [B], S, l, fun w => (ex w).choose_spec, uqTreeB_ok x1, treeNext_view e2, uqTreeB_ok x2, treeReturnB_ok x3, y1, p1, q1,
    by rw [elems, p5]; rfl, by rw [elems, List.map_cons, p3]; rfl, by rw [elems, List.map_cons, q3]; rfl, by rw [elems, List.map_cons, p4]; rfl, eS, hc, ?_⟩
  have key := C96_leaves (L := 6) (by decide) (uqTreeB_ok x1) p1 q1 hc
  have k1 : (leafElems ([A] ++ [B] ++ [l])).length = 4 := by
    have := congrArg List.length (elems ([A] ++ [B] ++ [l]))
    rw [List.length_map] at this
    rw [this]
    simp only [List.cons_append, List.nil_append, List.map_cons, List.map_nil, p3, q3, p4]
    rfl
  have k2 : (leafElems S).toFinset.card = 7 := by
    rw [List.toFinset_card_of_nodup hnd, hS]; rfl
  have k3 : Nat.clog 2 7 = 3 := by decide +kernel
  rw [k1, k2, k3] at key
  exact key

end Iodyn.Incr
