import Verif.Spec.MeanUnique
import Verif.Proof.MeanSquare
import Verif.Props.MeanAny
import Verif.Props.UniqueSession
/-
C98: the mean work of `to_list` and `unique_elms` between batches of edits, over all random levels (and all hash functions).
-/
namespace Iodyn
variable {E : Type}

/-! ### Means -/

theorem square_mean {n : Nat} (h63 : n ≤ 2 ^ 63) {l : List (Item E)} (hs : (levelsOf l).Nodup) (hn : ∀ k ∈ levelsOf l, k < n) :
    ∑ w : Fin n → Fin (2 ^ 64), deepest (levelsOf (l.map (Item.at (drawn w)))) ^ 2 ≤
      (2 ^ 64) ^ n * (sixLogs (marksOf l).length ^ 2 + sixLogs (marksOf l).length + 2) := by
  obtain ⟨J, j1, j2, j3⟩ := slot_levels hs hn
  have h := deepest_square j1 h63
  rw [j2] at h
  simp only [j3]
  exact h

theorem sixLogs_mono {a b : Nat} (h : a ≤ b) : sixLogs a ≤ sixLogs b := Nat.mul_le_mul_left _ (Nat.clog_mono_right 2 (by omega))

theorem peak_first (items : List (Item E)) (l : List (Nat × List (LOp E))) : (marksOf items).length ≤ peak items l := by
  cases l with
  | nil => exact Nat.le_refl _
  | cons q l => exact Nat.le_max_left _ _

theorem peak_last : ∀ (l : List (Nat × List (LOp E))) (items : List (Item E)), (marksOf (editLists items l)).length ≤ peak items l
  | [], items => Nat.le_refl _
  | (i, ops) :: l, items => Nat.le_trans (peak_last l _) (Nat.le_max_right _ _)

/-- The sum of `φ` of the depths before each edit. -/
def deepSum (φ : Nat → Nat) (f : Nat → Nat) (items : List (Item E)) : List (Nat × List (LOp E)) → Nat
  | [] => 0
  | (i, ops) :: l => φ (deepest (levelsOf (items.map (Item.at f)))) + deepSum φ f (editList i ops items) l

theorem edit_slots {n : Nat} {i : Nat} {ops : List (LOp E)} {l : List (Nat × List (LOp E))} {items : List (Item E)} (hi : i ≤ (elemsOf items).length)
    (hs : (levelsOf items ++ restSlots ((i, ops) :: l)).Nodup) (hn : ∀ k ∈ levelsOf items ++ restSlots ((i, ops) :: l), k < n) :
    (levelsOf (editList i ops items) ++ restSlots l).Nodup ∧ ∀ k ∈ levelsOf (editList i ops items) ++ restSlots l, k < n := by
  have he := edit_levels hi ops
  have hc := nodup_slots hs
  simp only [restSlots, List.flatMap_cons, List.count_append] at hc
  refine ⟨slots_nodup fun x => ?_, fun k hk => hn k (List.count_pos_iff.1 ?_)⟩
  · have := hc x; have := he x; simp only [restSlots, List.count_append] at *; omega
  · have h1 := List.count_pos_iff.2 hk
    have := he k
    simp only [restSlots, List.flatMap_cons, List.count_append] at *
    omega

theorem deepSum_mean {n m B : Nat} {φ : Nat → Nat} (hφ : ∀ l : List (Item E), (levelsOf l).Nodup → (∀ k ∈ levelsOf l, k < n) → (marksOf l).length ≤ m →
      ∑ w : Fin n → Fin (2 ^ 64), φ (deepest (levelsOf (l.map (Item.at (drawn w))))) ≤ (2 ^ 64) ^ n * B) :
    ∀ (l : List (Nat × List (LOp E))) {items : List (Item E)}, (levelsOf items ++ restSlots l).Nodup → (∀ k ∈ levelsOf items ++ restSlots l, k < n) →
    localList items l = true → peak items l ≤ m → ∑ w : Fin n → Fin (2 ^ 64), deepSum φ (drawn w) items l ≤ (2 ^ 64) ^ n * (l.length * B)
  | [], items, hs, hn, hl, hp => by simp [deepSum]
  | (i, ops) :: l, items, hs, hn, hl, hp => by
    simp only [localList, Bool.and_eq_true, decide_eq_true_eq] at hl
    obtain ⟨⟨⟨hi, -⟩, -⟩, hl⟩ := hl
    obtain ⟨hs', hn'⟩ := edit_slots hi hs hn
    have ih := deepSum_mean hφ l hs' hn' hl (Nat.le_trans (Nat.le_max_right _ _) hp)
    have h1 := hφ items (List.Nodup.of_append_left hs) (fun k hk => hn k (List.mem_append_left _ hk)) (Nat.le_trans (Nat.le_max_left _ _) hp)
    simp only [deepSum]
    rw [Finset.sum_add_distrib, List.length_cons, Nat.succ_mul, Nat.mul_add, Nat.add_comm]
    exact Nat.add_le_add ih h1

theorem deep_pairs (f : Nat → Nat) (a : Nat) : ∀ (l : List (Nat × List (LOp E))) (items : List (Item E)),
    2 * a * deepSum id f items l ≤ l.length * a ^ 2 + deepSum (· ^ 2) f items l
  | [], items => by simp [deepSum]
  | (i, ops) :: l, items => by
    have ih := deep_pairs f a l (editList i ops items)
    simp only [deepSum, id_eq, List.length_cons]
    generalize deepest (levelsOf (items.map (Item.at f))) = d
    have : 2 * a * d ≤ a ^ 2 + d ^ 2 := by
      zify
      nlinarith [sq_nonneg ((a : ℤ) - d)]
    rw [Nat.mul_add, Nat.succ_mul l.length]
    omega

/-- The sum of the depths before each edit and of the points added. -/
def stepsAt (f : Nat → Nat) (items : List (Item E)) (es : List (Nat × List (LOp E))) : Nat := deepSum id f items es + pointsOf es

theorem steps_mean {n : Nat} (h63 : n ≤ 2 ^ 63) {es : List (Nat × List (LOp E))} {items : List (Item E)} (hs : (levelsOf items ++ restSlots es).Nodup)
    (hn : ∀ k ∈ levelsOf items ++ restSlots es, k < n) (hl : localList items es = true) :
    ∑ w : Fin n → Fin (2 ^ 64), (4 * stepsAt (drawn w) items es + 1) ≤ (2 ^ 64) ^ n * listLog items es := by
  have h1 := deepSum_mean (φ := id) (B := sixLogs (peak items es) + 2) (fun l h1 h2 h3 => by
    refine Nat.le_trans (depth_mean h63 h1 h2) (Nat.mul_le_mul_left _ ?_)
    have := sixLogs_mono h3
    omega) es hs hn hl (Nat.le_refl _)
  have hc : ∀ c : Nat, ∑ _w : Fin n → Fin (2 ^ 64), c = (2 ^ 64) ^ n * c := fun c => by
    rw [Finset.sum_const, Finset.card_univ, Fintype.card_fun, Fintype.card_fin, Fintype.card_fin]; rfl
  unfold stepsAt listLog
  rw [Finset.sum_add_distrib, ← Finset.mul_sum, Finset.sum_add_distrib, hc, hc]
  generalize (2 ^ 64) ^ n = N at *
  calc _ ≤ 4 * (N * (es.length * (sixLogs (peak items es) + 2)) + N * pointsOf es) + N * 1 := by omega
    _ = _ := by ring

theorem product_mean {n : Nat} (h63 : n ≤ 2 ^ 63) {es : List (Nat × List (LOp E))} {items : List (Item E)} (hs : (levelsOf items ++ restSlots es).Nodup)
    (hn : ∀ k ∈ levelsOf items ++ restSlots es, k < n) (hl : localList items es = true) :
    ∑ w : Fin n → Fin (2 ^ 64), (deepest (levelsOf ((editLists items es).map (Item.at (drawn w)))) + 1) * (2 * stepsAt (drawn w) items es + 1) ≤
      (2 ^ 64) ^ n * (2 * es.length * (sixLogs (peak items es) + 2) ^ 2 + (2 * pointsOf es + 1) * (sixLogs (peak items es) + 2)) := by
  obtain ⟨-, hcnt⟩ := edits_mean h63 es hs hn hl
  have hnd := nodup_slots hs
  have hs' : (levelsOf (editLists items es)).Nodup := slots_nodup fun x => Nat.le_trans (hcnt x) (hnd x)
  have hn' : ∀ k ∈ levelsOf (editLists items es), k < n := fun k hk => hn k (List.count_pos_iff.1 (Nat.lt_of_lt_of_le (List.count_pos_iff.2 hk) (hcnt k)))
  have hp := sixLogs_mono (peak_last es items)
  have m1 := depth_mean h63 hs' hn'
  have m2 := square_mean h63 hs' hn'
  have m3 := deepSum_mean (φ := (· ^ 2)) (B := sixLogs (peak items es) ^ 2 + sixLogs (peak items es) + 2) (fun l h1 h2 h3 => by
    refine Nat.le_trans (square_mean h63 h1 h2) (Nat.mul_le_mul_left _ ?_)
    have := sixLogs_mono h3
    have := Nat.pow_le_pow_left this 2
    omega) es hs hn hl (Nat.le_refl _)
  have hc : ∀ c : Nat, ∑ _w : Fin n → Fin (2 ^ 64), c = (2 ^ 64) ^ n * c := fun c => by
    rw [Finset.sum_const, Finset.card_univ, Fintype.card_fun, Fintype.card_fin, Fintype.card_fin]; rfl
  have point : ∀ w : Fin n → Fin (2 ^ 64), (deepest (levelsOf ((editLists items es).map (Item.at (drawn w)))) + 1) * (2 * stepsAt (drawn w) items es + 1) ≤
      es.length * (deepest (levelsOf ((editLists items es).map (Item.at (drawn w)))) ^ 2 + 2 * deepest (levelsOf ((editLists items es).map (Item.at (drawn w)))) + 1) +
        deepSum (· ^ 2) (drawn w) items es + (2 * pointsOf es + 1) * (deepest (levelsOf ((editLists items es).map (Item.at (drawn w)))) + 1) := by
    intro w
    have h := deep_pairs (drawn w) (deepest (levelsOf ((editLists items es).map (Item.at (drawn w)))) + 1) es items
    generalize deepest (levelsOf ((editLists items es).map (Item.at (drawn w)))) = d at *
    generalize deepSum (· ^ 2) (drawn w) items es = q at *
    unfold stepsAt
    generalize deepSum id (drawn w) items es = k at *
    calc _ = 2 * (d + 1) * k + (2 * pointsOf es + 1) * (d + 1) := by ring
      _ ≤ es.length * (d + 1) ^ 2 + q + (2 * pointsOf es + 1) * (d + 1) := Nat.add_le_add_right h _
      _ = _ := by ring
  refine Nat.le_trans (Finset.sum_le_sum fun w _ => point w) ?_
  rw [Finset.sum_add_distrib, Finset.sum_add_distrib, ← Finset.mul_sum, ← Finset.mul_sum, Finset.sum_add_distrib, Finset.sum_add_distrib, Finset.sum_add_distrib,
    ← Finset.mul_sum, hc]
  generalize (2 ^ 64) ^ n = N at *
  generalize hS : sixLogs (peak items es) = S at *
  generalize sixLogs (marksOf (editLists items es)).length = S' at *
  have n1 : ∑ w : Fin n → Fin (2 ^ 64), deepest (levelsOf ((editLists items es).map (Item.at (drawn w)))) ≤ N * (S + 1) :=
    Nat.le_trans m1 (Nat.mul_le_mul_left _ (by omega))
  have n2 : ∑ w : Fin n → Fin (2 ^ 64), deepest (levelsOf ((editLists items es).map (Item.at (drawn w)))) ^ 2 ≤ N * (S ^ 2 + S + 2) :=
    Nat.le_trans m2 (Nat.mul_le_mul_left _ (by have := Nat.pow_le_pow_left hp 2; omega))
  generalize ∑ w : Fin n → Fin (2 ^ 64), deepest (levelsOf ((editLists items es).map (Item.at (drawn w)))) = D1 at *
  generalize ∑ w : Fin n → Fin (2 ^ 64), deepest (levelsOf ((editLists items es).map (Item.at (drawn w)))) ^ 2 = D2 at *
  generalize ∑ w : Fin n → Fin (2 ^ 64), deepSum (fun x => x ^ 2) (drawn w) items es = D3 at *
  have k1 : D2 + 2 * D1 + N * 1 ≤ N * (S ^ 2 + 3 * S + 5) := by
    calc _ ≤ N * (S ^ 2 + S + 2) + 2 * (N * (S + 1)) + N * 1 := by omega
      _ = _ := by ring
  have k2 : D1 + N * 1 ≤ N * (S + 2) := by
    calc _ ≤ N * (S + 1) + N * 1 := by omega
      _ = _ := by ring
  calc _ ≤ es.length * (N * (S ^ 2 + 3 * S + 5)) + N * (es.length * (S ^ 2 + S + 2)) + (2 * pointsOf es + 1) * (N * (S + 2)) :=
        Nat.add_le_add (Nat.add_le_add (Nat.mul_le_mul_left _ k1) m3) (Nat.mul_le_mul_left _ k2)
    _ = N * (es.length * (2 * S ^ 2 + 4 * S + 7) + (2 * pointsOf es + 1) * (S + 2)) := by ring
    _ ≤ N * (2 * es.length * (S + 2) ^ 2 + (2 * pointsOf es + 1) * (S + 2)) := Nat.mul_le_mul_left _ (Nat.add_le_add_right (by
        calc _ ≤ es.length * (2 * S ^ 2 + 8 * S + 8) := Nat.mul_le_mul_left _ (by omega)
          _ = _ := by ring) _)

end Iodyn

namespace Iodyn.Incr
open Iodyn.Heap
open Iodyn.Skip (Skiplist hashOf)
variable {E : Type} {f : Nat → Nat} {L : Nat}

/-! ### Trees and lists -/

theorem run_le : ∀ (l : List (Item E)) (c : Nat), c ≤ longestRun c l
  | [], c => Nat.le_refl _
  | .elem _ :: l, c => Nat.le_trans (Nat.le_succ c) (run_le l (c + 1))
  | .mark _ _ :: _, _ => Nat.le_max_left _ _
  | .pend _ _ :: _, _ => Nat.le_max_left _ _

theorem run_elems : ∀ (v : List E) (c : Nat) (r : List (Item E)), longestRun c (v.map .elem ++ r) = longestRun (c + v.length) r
  | [], c, r => rfl
  | x :: v, c, r => by
    show longestRun (c + 1) (v.map .elem ++ r) = _
    rw [run_elems v]
    simp only [List.length_cons]
    congr 1
    omega

theorem run_mark : ∀ (l : List (Item E)) (c a : Nat) (nm : Option Name) (r : List (Item E)),
    longestRun c (l ++ .mark a nm :: r) = max (longestRun c l) (longestRun 0 r)
  | [], c, a, nm, r => rfl
  | .elem _ :: l, c, a, nm, r => run_mark l (c + 1) a nm r
  | .mark _ _ :: l, c, a, nm, r => by
    show max c (longestRun 0 (l ++ _)) = max (max c (longestRun 0 l)) _
    rw [run_mark l, Nat.max_assoc]
  | .pend _ _ :: l, c, a, nm, r => by
    show max c (longestRun 0 (l ++ _)) = max (max c (longestRun 0 l)) _
    rw [run_mark l, Nat.max_assoc]

theorem run_at : ∀ (l : List (Item E)) (c : Nat), longestRun c (l.map (Item.at f)) = longestRun c l
  | [], c => rfl
  | .elem _ :: l, c => run_at l (c + 1)
  | .mark _ _ :: l, c => congrArg (max c) (run_at l 0)
  | .pend _ _ :: l, c => congrArg (max c) (run_at l 0)

variable {M : Type} [RazMeta E M]

theorem tree_run {t : Tree (TreeData E M)} (h : WF t) : widest t = longestRun 0 t.items := by
  induction h with
  | leaf v =>
    have := run_elems v 0 []
    simp only [List.append_nil, Nat.zero_add] at this
    exact this.symm
  | branch _ _ _ ihl ihr =>
    simp only [widest, Tree.items]
    rw [run_mark, ihl, ihr]

theorem tree_elems {t : Tree (TreeData E M)} (h : WF t) : treeElems t = elemsOf t.items := by
  induction h with
  | leaf v => simp [treeElems, Tree.items]
  | branch _ _ _ ihl ihr => simp [treeElems, Tree.items, ihl, ihr]

theorem tree_size {t : Tree (TreeData E M)} (h : WF t) : t.size = 2 * (levelsOf t.items).length + 1 := by
  induction h with
  | leaf v => 
    have : ∀ v : List E, levelsOf (v.map Item.elem) = [] := fun v => by induction v with
      | nil => rfl
      | cons x v ih => exact ih
    simp [Tree.size, Tree.items, this]
  | branch _ _ _ ihl ihr =>
    simp only [Tree.size, Tree.items]
    rw [levelsOf_append, levelsOf_cons (.mark _ _), ihl, ihr]
    simp only [List.length_append]
    have : ∀ a b, (levelsOf [(Item.mark a b : Item E)]).length = 1 := fun _ _ => rfl
    rw [this]
    omega

theorem tree_depth {t : Tree (TreeData E M)} (h : WF t) : depthOf t = t.depth + 1 := by
  induction h with
  | leaf v => rfl
  | @branch lv nm l r _ hl hr ihl ihr =>
    have : (Tree.node lv nm (.branch (metaOf lv nm l) (metaOf lv nm r)) l r : Tree (TreeData E M)).depth = 1 + max l.depth r.depth := by
      cases hl <;> rfl
    rw [this]
    simp only [depthOf, ihl, ihr]
    omega

/-! ### The work with given levels -/

section
variable [DecidableEq E]

/-- What a batch costs with given levels. -/
def uqAt (L : Nat) (f : Nat → Nat) (items : List (Item E)) (es : List (Nat × List (LOp E))) : Nat :=
  (4 * stepsAt f items es + 1) + (deepest (levelsOf ((editLists items es).map (Item.at f))) + 1) * ((2 * stepsAt f items es + 1) * searchBound L items (editLists items es))

/-- The same for all batches. -/
def uqAts (L : Nat) (f : Nat → Nat) (items : List (Item E)) : List (List (Nat × List (LOp E))) → List Nat
  | [] => []
  | es :: l => uqAt L f items es :: uqAts L f (editLists items es) l

theorem bound_at {t t' : RazTree E Count} {items : List (Item E)} {es : List (Nat × List (LOp E))} (hs : Stands f t items) (hs' : Stands f t' (editLists items es))
    (hr' : t'.Reachable .edit) : uqBound L (stepsAt f items es) t.tree t'.tree = uqAt L f items es := by
  have w := hs.inv.wf.resolve_left hs.full
  have w' := hs'.inv.wf.resolve_left hs'.full
  have d := C88_depth hr'
  have e : t.tree.items = items.map (Item.at f) := hs.eq
  have e' : t'.tree.items = (editLists items es).map (Item.at f) := hs'.eq
  unfold uqBound uqAt searchBound
  rw [tree_depth w', d, hs'.eq, tree_run w, tree_run w', tree_elems w', e, e', run_at, run_at, at_elems]

theorem uqAts_mean {n : Nat} (h63 : n ≤ 2 ^ 63) : ∀ (l : List (List (Nat × List (LOp E)))) {items : List (Item E)}, (levelsOf items ++ batchSlots l).Nodup →
    (∀ k ∈ levelsOf items ++ batchSlots l, k < n) → localLists items l = true → ∀ j : Nat,
    ∑ w : Fin n → Fin (2 ^ 64), (uqAts L (drawn w) items l)[j]?.elim 0 id ≤ (2 ^ 64) ^ n * ((uqLogs L items l)[j]?.elim 0 id)
  | [], items, hs, hn, hl, j => by simp [uqAts, uqLogs]
  | es :: l, items, hs, hn, hl, j => by
    simp only [localLists, Bool.and_eq_true] at hl
    have hb : batchSlots (es :: l) = restSlots es ++ batchSlots l := rfl
    rw [hb] at hs hn
    have hc := nodup_slots hs
    simp only [List.count_append] at hc
    have h1 : (levelsOf items ++ restSlots es).Nodup := slots_nodup fun x => by have := hc x; simp only [List.count_append]; omega
    have h2 : ∀ k ∈ levelsOf items ++ restSlots es, k < n := fun k hk => hn k (by simp only [List.mem_append] at hk ⊢; tauto)
    cases j with
    | zero =>
      simp only [uqAts, uqLogs, List.getElem?_cons_zero, Option.elim_some, id_eq]
      have m1 := steps_mean h63 h1 h2 hl.1
      have m2 := product_mean h63 h1 h2 hl.1
      unfold uqAt uqLog
      simp only [← Nat.mul_assoc]
      rw [Finset.sum_add_distrib, ← Finset.sum_mul, Nat.mul_add, ← Nat.mul_assoc]
      exact Nat.add_le_add m1 (Nat.mul_le_mul_right _ m2)
    | succ j =>
      have h3 := (edits_mean h63 es h1 h2 hl.1).2
      simp only [uqAts, uqLogs, List.getElem?_cons_succ]
      refine uqAts_mean h63 l (slots_nodup fun x => ?_) (fun k hk => hn k (List.count_pos_iff.1 ?_)) hl.2 j
      · have := hc x; have := h3 x; simp only [List.count_append] at *; omega
      · have := List.count_pos_iff.2 hk; have := h3 k; simp only [List.count_append] at *; omega

end

/-- The steps of all batches. -/
def stepsAts (f : Nat → Nat) (items : List (Item E)) : List (List (Nat × List (LOp E))) → List Nat
  | [] => []
  | es :: l => stepsAt f items es :: stepsAts f (editLists items es) l

theorem stepsAts_mean {n : Nat} (h63 : n ≤ 2 ^ 63) : ∀ (l : List (List (Nat × List (LOp E)))) {items : List (Item E)}, (levelsOf items ++ batchSlots l).Nodup →
    (∀ k ∈ levelsOf items ++ batchSlots l, k < n) → localLists items l = true → ∀ j : Nat,
    ∑ w : Fin n → Fin (2 ^ 64), ((stepsAts (drawn w) items l)[j]?.elim 0 fun k => 4 * k + 1) ≤ (2 ^ 64) ^ n * ((listLogs items l)[j]?.elim 0 id)
  | [], items, hs, hn, hl, j => by simp [stepsAts, listLogs]
  | es :: l, items, hs, hn, hl, j => by
    simp only [localLists, Bool.and_eq_true] at hl
    have hb : batchSlots (es :: l) = restSlots es ++ batchSlots l := rfl
    rw [hb] at hs hn
    have hc := nodup_slots hs
    simp only [List.count_append] at hc
    have h1 : (levelsOf items ++ restSlots es).Nodup := slots_nodup fun x => by have := hc x; simp only [List.count_append]; omega
    have h2 : ∀ k ∈ levelsOf items ++ restSlots es, k < n := fun k hk => hn k (by simp only [List.mem_append] at hk ⊢; tauto)
    cases j with
    | zero =>
      simp only [stepsAts, listLogs, List.getElem?_cons_zero, Option.elim_some, id_eq]
      exact steps_mean h63 h1 h2 hl.1
    | succ j =>
      have h3 := (edits_mean h63 es h1 h2 hl.1).2
      simp only [stepsAts, listLogs, List.getElem?_cons_succ]
      refine stepsAts_mean h63 l (slots_nodup fun x => ?_) (fun k hk => hn k (List.count_pos_iff.1 ?_)) hl.2 j
      · have := hc x; have := h3 x; simp only [List.count_append] at *; omega
      · have := List.count_pos_iff.2 hk; have := h3 k; simp only [List.count_append] at *; omega

/-! ### Sessions with given levels -/

theorem deep_edits (hf : ∀ k, 1 ≤ f k) : ∀ (l : List (Nat × List (LOp E))) {t : RazTree E Count} {items : List (Item E)}, Stands f t items → t.Reachable .edit →
    localList items l = true → ∃ t', t.edits (editsAt f l) = .ok (t', stepsAt f items l) ∧ t'.Reachable .edit ∧ Stands f t' (editLists items l) ∧ t.LocalEdit (editsAt f l)
  | [], t, items, h, hr, _ => ⟨t, rfl, hr, h, trivial⟩
  | (i, ops) :: l, t, items, h, hr, hl => by
    simp only [localList, Bool.and_eq_true, decide_eq_true_eq] at hl
    obtain ⟨t1, e1, e2, e3⟩ := stands_next hf h hr hl.1.1.1 hl.1.1.2 hl.1.2
    obtain ⟨z, t1', k1, k2, -⟩ := stands_edit hf h hl.1.1.1 hl.1.1.2 hl.1.2
    obtain ⟨t2, f1, f2, f3, f4⟩ := deep_edits hf l e3 e2 hl.2
    refine ⟨t2, ?_, f2, f3, fun z' hz => ?_, fun t' ht => ?_⟩
    · refine bind_ok.2 ⟨t1, e1, bind_ok.2 ⟨(t2, _), f1, ?_⟩⟩
      have hd := C88_depth hr
      rw [h.eq] at hd
      show Except.ok (t2, t.tree.depth + LOp.points (ops.map (LOp.at f)) + stepsAt f (editList i ops items) l) = _
      rw [hd, at_points]
      simp only [stepsAt, deepSum, pointsOf, id_eq]
      congr 2
      omega
    · rw [k1] at hz
      cases hz
      exact k2
    · rw [e1] at ht
      cases ht
      exact f4

/-- The batches as `reruns` sees them: trees and steps. -/
inductive DeepRuns (f : Nat → Nat) : RazTree E Count → List (Item E) → List (List (Nat × List (LOp E))) → List (RazTree E Count × Nat × Nat) → Prop
  | nil {t : RazTree E Count} {items : List (Item E)} : DeepRuns f t items [] []
  | cons {t t' : RazTree E Count} {items : List (Item E)} {es : List (Nat × List (LOp E))} {l : List (List (Nat × List (LOp E)))} {g : Nat} {rest} :
      Stands f t items → Stands f t' (editLists items es) → t'.Reachable .edit → DeepRuns f t' (editLists items es) l rest →
      DeepRuns f t items (es :: l) ((t', stepsAt f items es, g) :: rest)

theorem deep_reruns (hf : ∀ k, 1 ≤ f k) : ∀ (l : List (List (Nat × List (LOp E)))) {t : RazTree E Count} {items : List (Item E)}, Stands f t items → t.Reachable .edit →
    localLists items l = true → ∃ rest, t.reruns (fun t => .ok t) (l.map (editsAt f)) = .ok rest ∧ t.LocalBatches (l.map (editsAt f)) ∧ DeepRuns f t items l rest
  | [], t, items, h, hr, _ => ⟨[], rfl, trivial, .nil⟩
  | es :: l, t, items, h, hr, hl => by
    simp only [localLists, Bool.and_eq_true] at hl
    obtain ⟨t1, e1, e2, e3, e4⟩ := deep_edits hf es h hr hl.1
    obtain ⟨rest, f1, f2, f3⟩ := deep_reruns hf l e3 e2 hl.2
    refine ⟨_, bind_ok.2 ⟨(t1, _), e1, bind_ok.2 ⟨t1, rfl, bind_ok.2 ⟨rest, f1, rfl⟩⟩⟩, ⟨e4, fun t' k he => ?_⟩, .cons h e3 e2 f3⟩
    rw [e1] at he
    cases he
    exact f2

theorem deep_session (hf : ∀ k, 1 ≤ f k) {ops : List (LOp E)} {l : List (List (Nat × List (LOp E)))} (hl : localAll ops l = true) : ∃ t rest,
      rerunSession (M := Count) (fun t => .ok t) (ops.map (LOp.at f)) (l.map (editsAt f)) = .ok (t, 2 * (levelsOf (closed (onSides ([], []) ops))).length + 1, rest) ∧
      LocalReruns (M := Count) (ops.map (LOp.at f)) (l.map (editsAt f)) ∧ t.Reachable .edit ∧ Stands f t (closed (onSides ([], []) ops)) ∧
      DeepRuns f t (closed (onSides ([], []) ops)) l rest := by
  simp only [localAll, Bool.and_eq_true] at hl
  obtain ⟨z, t, f1, f2, f3, f4⟩ := make_any hf ops
  have hs : Stands f t (closed (onSides ([], []) ops)) := stands_reach f3 f4 (by
    rw [f4, at_elems]
    exact full_of_local (local_end hl.1) (onSides_tidy _ ⟨trivial, trivial⟩))
  obtain ⟨rest, g1, g2, g3⟩ := deep_reruns hf l hs f3 hl.2
  have hsz : t.tree.size = 2 * (levelsOf (closed (onSides ([], []) ops))).length + 1 := by
    rw [tree_size (hs.inv.wf.resolve_left hs.full)]
    have : t.tree.items = _ := hs.eq
    rw [this, at_levels, List.length_map]
  have hsides : ((Raz.new : Raz E Count).left, (Raz.new : Raz E Count).right) = sidesAt f ([], []) := rfl
  refine ⟨t, rest, bind_ok.2 ⟨z, f1, bind_ok.2 ⟨t, f2, bind_ok.2 ⟨t, rfl, bind_ok.2 ⟨rest, g1, by rw [← hsz]; rfl⟩⟩⟩⟩,
    ⟨local_sides ZInv.empty (at_lifts f hf ops) (by rw [hsides, at_local]; exact hl.1), fun z' t' hz ht => ?_⟩, f3, hs, g3⟩
  rw [f1] at hz
  cases hz
  rw [f2] at ht
  cases ht
  exact g2

theorem reruns_map {B : Type} (g : RazTree E Count → B) : ∀ {l : List (List (Nat × List (LOp E)))} {t : RazTree E Count} {rest},
    t.reruns (fun t => .ok t) l = .ok rest → t.reruns (fun t => .ok (g t)) l = .ok (rest.map fun q => (g q.1, q.2))
  | [], t, rest, h => by cases h; rfl
  | es :: l, t, rest, h => by
    unfold RazTree.reruns at h
    obtain ⟨⟨t', k⟩, e1, h⟩ := bind_ok.1 h
    obtain ⟨b, e2, h⟩ := bind_ok.1 h
    obtain ⟨rest', e3, hfin⟩ := bind_ok.1 h
    cases e2
    cases hfin
    exact bind_ok.2 ⟨(t', k), e1, bind_ok.2 ⟨_, rfl, bind_ok.2 ⟨_, reruns_map g e3, rfl⟩⟩⟩

theorem DeepRuns.trees {t : RazTree E Count} {items : List (Item E)} {l : List (List (Nat × List (LOp E)))} {rest} (h : DeepRuns f t items l rest) :
    List.Forall₂ (fun (its : List (Item E)) (q : RazTree E Count × Nat × Nat) => q.1.Reachable .edit ∧ q.1.elems = elemsOf its) (stages items l) rest := by
  induction h with
  | nil => exact .nil
  | cons _ h2 h3 _ ih => exact .cons ⟨h3, by rw [RazTree.elems, h2.eq, at_elems]⟩ ih

theorem DeepRuns.steps {t : RazTree E Count} {items : List (Item E)} {l : List (List (Nat × List (LOp E)))} {rest} (h : DeepRuns f t items l rest) :
    rest.map (fun q => q.2.1) = stepsAts f items l := by
  induction h with
  | nil => rfl
  | cons _ _ _ _ ih => simp only [List.map_cons, stepsAts, ih]

theorem DeepRuns.means [DecidableEq E] [Fintype E] {t : RazTree E Count} {items : List (Item E)} {l : List (List (Nat × List (LOp E)))} {rest} (h : DeepRuns f t items l rest) :
    ∀ {works}, UqMeans L t rest works → ∀ j : Nat, ∑ v, (works[j]?.elim 0 fun work => work v) ≤ (2 ^ 64) ^ Fintype.card E * ((uqAts L f items l)[j]?.elim 0 id) := by
  induction h with
  | nil =>
    intro works hw j
    cases works with
    | nil => simp
    | cons a b => cases hw
  | cons h1 h2 h3 _ ih =>
    intro works hw j
    cases works with
    | nil => cases hw
    | cons a b =>
      cases j with
      | zero =>
        simp only [uqAts, List.getElem?_cons_zero, Option.elim_some, id_eq]
        rw [← bound_at h1 h2 h3]
        exact hw.1
      | succ j =>
        simp only [uqAts, List.getElem?_cons_succ]
        exact ih hw.2 j

/-! ### The theorems -/

variable [DecidableEq E]

omit [DecidableEq E] in
theorem start_slots {n : Nat} {ops : List (LOp E)} {l : List (List (Nat × List (LOp E)))} (hs : (LOp.slots ops ++ batchSlots l).Nodup)
    (hk : ∀ k ∈ LOp.slots ops ++ batchSlots l, k < n) : (levelsOf (closed (onSides ([], []) ops)) ++ batchSlots l).Nodup ∧
      ∀ k ∈ levelsOf (closed (onSides ([], []) ops)) ++ batchSlots l, k < n := by
  have hc := fun x => onSides_levels ops ([], []) x
  have hc' := fun x => closed_levels (onSides ([], []) ops) x
  have hcount := nodup_slots hs
  have h0 : ∀ x, (levelsOf ([] : List (Item E))).count x = 0 := fun x => rfl
  simp only [h0] at hc
  refine ⟨slots_nodup fun x => ?_, fun k hk' => hk k (List.count_pos_iff.1 ?_)⟩
  · have := hc x; have := hc' x; have := hcount x; simp only [List.count_append] at *; omega
  · have := hc k; have := hc' k; have := List.count_pos_iff.2 hk'; simp only [List.count_append] at *; omega

omit [DecidableEq E] in
theorem cells_at (f : Nat → Nat) (ops : List (LOp E)) (l : List (List (Nat × List (LOp E)))) :
    LOp.cells (ops.map (LOp.at f)) ++ batchCells (l.map (editsAt f)) = LOp.cells ops ++ batchCells l := by
  have e : batchCells (l.map (editsAt f)) = batchCells l := by
    simp only [batchCells, restCells, editsAt, List.flatMap_map, at_cells]
  rw [at_cells, e]

omit [DecidableEq E] in
theorem titles_at (f : Nat → Nat) {l : List (List (Nat × List (LOp E)))} (h : ∀ es ∈ l, ∀ q ∈ es, ∀ op ∈ q.2, op.Titles) :
    ∀ es ∈ l.map (editsAt f), ∀ q ∈ es, ∀ op ∈ q.2, op.Titles := fun es hes q hq => by
  obtain ⟨es', h1, rfl⟩ := List.mem_map.1 hes
  obtain ⟨q', h2, rfl⟩ := List.mem_map.1 hq
  exact at_titles f (h es' h1 q' h2)

omit [DecidableEq E] in
theorem works_at {V A S : Type} {outs : List (A × Nat × S)} {works : List (V → Nat)} {v : V} (h : outs.map (·.2.1) = works.map (· v)) (j : Nat) :
    (outs[j]?.elim 0 fun o => o.2.1) = (works[j]?.elim 0 fun work => work v) := by
  have := congrArg (fun l => l[j]?.elim 0 id) h
  simp only [List.getElem?_map] at this
  cases h1 : outs[j]? <;> cases h2 : works[j]? <;> simp_all

/-- **C98, `unique_elms`.** A sequence is made and `unique_elms` runs over it; then come batches of local edits, and `unique_elms` again after each batch. Each archive
point gets its level from its own random number, and each element its hash from a function `v`. Whatever the random numbers and the hashes, the session does not
panic, each skip list finds exactly the elements of the plain list, and the first run visits `2 * m + 1` nodes, where `m` is the number of archive points. After the
batch with index `j` the work, in the mean over all random numbers and all functions from the elements to 64-bit hashes, is within `uqLogs`, which comes
from the lists alone: a product of powers of logarithms of the number of archive points and of different elements, of the number of edits, of the longest run
between archive points and of how often an element occurs. -/
theorem C98_unique [Fintype E] (hL : 1 ≤ L) (hL' : L ≤ 63) {ops : List (LOp E)} {l : List (List (Nat × List (LOp E)))} (hn : (LOp.cells ops ++ batchCells l).Nodup)
    (hst : .str "start" ∉ LOp.cells ops ++ batchCells l) (hun : .unit ∉ LOp.cells ops ++ batchCells l) (hl : localAll ops l = true) (hti : ∀ op ∈ ops, op.Titles)
    (hti' : ∀ es ∈ l, ∀ q ∈ es, ∀ op ∈ q.2, op.Titles) {n : Nat} (h63 : n ≤ 2 ^ 63) (hs : (LOp.slots ops ++ batchSlots l).Nodup)
    (hk : ∀ k ∈ LOp.slots ops ++ batchSlots l, k < n) (σ : RMem E Count) :
    ∃ (a : (Fin n → Fin (2 ^ 64)) → (E → Fin (2 ^ 64)) → Skiplist) (s : (Fin n → Fin (2 ^ 64)) → (E → Fin (2 ^ 64)) → UqSpace E Count)
      (outs : (Fin n → Fin (2 ^ 64)) → (E → Fin (2 ^ 64)) → List (Skiplist × Nat × UqSpace E Count)),
      (∀ w v, (∃ f0, ∀ m, f0 ≤ m → (hrerunSession (M := Count) (countedUnique (hashOf v) L) OSpace.empty (ops.map (LOp.at (drawn w)))
          (l.map (editsAt (drawn w))) m σ).map (·.1) = .ok (a w v, 2 * (marksOf (closed (onSides ([], []) ops))).length + 1, s w v, outs w v)) ∧
        Finds (hashOf v) (elemsOf (closed (onSides ([], []) ops))) (a w v) (s w v) ∧
        List.Forall₂ (fun (its : List (Item E)) (o : Skiplist × Nat × UqSpace E Count) => Finds (hashOf v) (elemsOf its) o.1 o.2.2)
          (stages (closed (onSides ([], []) ops)) l) (outs w v)) ∧
      ∀ j : Nat, ∑ w, ∑ v, ((outs w v)[j]?.elim 0 fun o => o.2.1) ≤
        (2 ^ 64) ^ n * ((2 ^ 64) ^ Fintype.card E * ((uqLogs L (closed (onSides ([], []) ops)) l)[j]?.elim 0 id)) := by
  have h1 : ∀ w : Fin n → Fin (2 ^ 64), ∃ q : (E → Fin (2 ^ 64)) → Skiplist × UqSpace E Count × List (Skiplist × Nat × UqSpace E Count),
      (∀ v, (∃ f0, ∀ m, f0 ≤ m → (hrerunSession (M := Count) (countedUnique (hashOf v) L) OSpace.empty (ops.map (LOp.at (drawn w)))
          (l.map (editsAt (drawn w))) m σ).map (·.1) = .ok ((q v).1, 2 * (marksOf (closed (onSides ([], []) ops))).length + 1, (q v).2.1, (q v).2.2)) ∧
        Finds (hashOf v) (elemsOf (closed (onSides ([], []) ops))) (q v).1 (q v).2.1 ∧
        List.Forall₂ (fun (its : List (Item E)) (o : Skiplist × Nat × UqSpace E Count) => Finds (hashOf v) (elemsOf its) o.1 o.2.2)
          (stages (closed (onSides ([], []) ops)) l) (q v).2.2) ∧
      ∀ j : Nat, ∑ v, ((q v).2.2[j]?.elim 0 fun o => o.2.1) ≤
        (2 ^ 64) ^ Fintype.card E * ((uqAts L (drawn w) (closed (onSides ([], []) ops)) l)[j]?.elim 0 id) := by
    intro w
    obtain ⟨t, rest, r1, r2, r3, r4, r5⟩ := deep_session (drawn_one w) hl
    rw [← cells_at (drawn w)] at hn hst hun
    obtain ⟨works, g1, g2⟩ := C97_batches hL hL' hn hst hun (at_titles (drawn w) hti) (titles_at (drawn w) hti') r2 r1 σ
    choose a s outs f0 k1 k2 k3 k4 using g1
    refine ⟨fun v => (a v, s v, outs v), fun v => ⟨⟨f0 v, fun m hm => ?_⟩, ?_, ?_⟩, fun j => ?_⟩
    · rw [k1 v m hm]
      simp [levelsOf]
    · have := k2 v
      rw [RazTree.elems, r4.eq, at_elems] at this
      exact this
    · have key : ∀ {its : List (List (Item E))} {rest : List (RazTree E Count × Nat × Nat)} {os : List (Skiplist × Nat × UqSpace E Count)},
          List.Forall₂ (fun (its : List (Item E)) (q : RazTree E Count × Nat × Nat) => q.1.Reachable .edit ∧ q.1.elems = elemsOf its) its rest →
          List.Forall₂ (fun (q : RazTree E Count × Nat × Nat) (o : Skiplist × Nat × UqSpace E Count) => Finds (hashOf v) q.1.elems o.1 o.2.2) rest os →
          List.Forall₂ (fun (its : List (Item E)) (o : Skiplist × Nat × UqSpace E Count) => Finds (hashOf v) (elemsOf its) o.1 o.2.2) its os := by
        intro its rest os h
        induction h generalizing os with
        | nil => intro h'; cases h'; exact .nil
        | cons e _ ih =>
          intro h'
          cases h' with
          | cons e' h' => exact .cons (e.2 ▸ e') (ih h')
      exact key r5.trees (k3 v)
    · simp only [works_at (k4 _)]
      exact r5.means g2 j
  choose q hq using h1
  refine ⟨fun w v => (q w v).1, fun w v => (q w v).2.1, fun w v => (q w v).2.2, fun w => (hq w).1, fun j => ?_⟩
  simp only [localAll, Bool.and_eq_true] at hl
  obtain ⟨s1, s2⟩ := start_slots hs hk
  have hmean := uqAts_mean (L := L) h63 l s1 s2 hl.2 j
  refine Nat.le_trans (Finset.sum_le_sum fun w _ => (hq w).2 j) ?_
  rw [← Finset.mul_sum, Nat.mul_left_comm]
  exact Nat.mul_le_mul_left _ hmean

/-- `to_list` after batches costs what the depths of the trees and the points added say. -/
theorem list_steps {ops : List (LOp E)} {l : List (List (Nat × List (LOp E)))} (hn : (LOp.cells ops ++ batchCells l).Nodup)
    (hst : .str "start" ∉ LOp.cells ops ++ batchCells l) (hl : localAll ops l = true) (hti : ∀ op ∈ ops, op.Titles)
    (hti' : ∀ es ∈ l, ∀ q ∈ es, ∀ op ∈ q.2, op.Titles) {n : Nat} (σ : RMem E Count) :
    ∀ w : Fin n → Fin (2 ^ 64), ∃ q : ASt E × Nat × LSpace E Count E Count (ASt E) × List (ASt E × Nat × LSpace E Count E Count (ASt E)),
      ((∃ f0, ∀ m, f0 ≤ m → (hrerunSession (M := Count) countedList Space.empty (ops.map (LOp.at (drawn w))) (l.map (editsAt (drawn w))) m σ).map (·.1) = .ok q) ∧
        (∃ b, HoldsList q.2.2.1.mem q.1 b ∧ b.elems.reverse = elemsOf (closed (onSides ([], []) ops))) ∧
        q.2.1 ≤ 2 * (marksOf (closed (onSides ([], []) ops))).length + 1 ∧
        List.Forall₂ (fun (its : List (Item E)) (o : ASt E × Nat × LSpace E Count E Count (ASt E)) => ∃ b, HoldsList o.2.2.mem o.1 b ∧ b.elems.reverse = elemsOf its)
          (stages (closed (onSides ([], []) ops)) l) q.2.2.2) ∧
      ∀ j : Nat, (q.2.2.2[j]?.elim 0 fun o => o.2.1) ≤ ((stepsAts (drawn w) (closed (onSides ([], []) ops)) l)[j]?.elim 0 fun k => 4 * k + 1) := by
  intro w
  obtain ⟨t, rest, r1, r2, r3, r4, r5⟩ := deep_session (drawn_one w) hl
  rw [← cells_at (drawn w)] at hn hst
  unfold rerunSession at r1
  obtain ⟨z, e1, hr⟩ := bind_ok.1 r1
  obtain ⟨t', e2, hr⟩ := bind_ok.1 hr
  obtain ⟨x, e3, hr⟩ := bind_ok.1 hr
  obtain ⟨rest', e4, hfin⟩ := bind_ok.1 hr
  cases e3
  simp only [pure, Except.pure, Except.ok.injEq, Prod.mk.injEq] at hfin
  obtain ⟨rfl, hsz, rfl⟩ := hfin
  have hr' : rerunSession (M := Count) (fun t => .ok (toListScratch t)) (ops.map (LOp.at (drawn w))) (l.map (editsAt (drawn w))) =
      .ok (toListScratch t', t'.tree.size, rest'.map fun q => (toListScratch q.1, q.2)) :=
    bind_ok.2 ⟨z, e1, bind_ok.2 ⟨t', e2, bind_ok.2 ⟨_, rfl, bind_ok.2 ⟨_, reruns_map toListScratch e4, rfl⟩⟩⟩⟩
  obtain ⟨a, work, s, outs, f0, g1, g2, g3, g4⟩ := C82_batches hn hst (at_titles (drawn w) hti) (titles_at (drawn w) hti') r2 hr' σ
  refine ⟨(a, work, s, outs), ⟨⟨f0, g1⟩, ⟨_, g2, ?_⟩, ?_, ?_⟩, fun j => ?_⟩
  · rw [toListScratch_elems r3.any, RazTree.elems, r4.eq, at_elems]
  · rw [hsz] at g3
    simpa [levelsOf] using g3
  · have key : ∀ {its : List (List (Item E))} {rest : List (RazTree E Count × Nat × Nat)} {os : List (ASt E × Nat × LSpace E Count E Count (ASt E))},
        List.Forall₂ (fun (its : List (Item E)) (q : RazTree E Count × Nat × Nat) => q.1.Reachable .edit ∧ q.1.elems = elemsOf its) its rest →
        List.Forall₂ (fun (q : AStack E Nat × Nat × Nat) (o : ASt E × Nat × LSpace E Count E Count (ASt E)) =>
          HoldsList o.2.2.mem o.1 q.1 ∧ o.2.1 ≤ 4 * q.2.1 + 1) (rest.map fun q => (toListScratch q.1, q.2)) os →
        List.Forall₂ (fun (its : List (Item E)) (o : ASt E × Nat × LSpace E Count E Count (ASt E)) =>
          ∃ b, HoldsList o.2.2.mem o.1 b ∧ b.elems.reverse = elemsOf its) its os := by
      intro its rest os h
      induction h generalizing os with
      | nil => intro h'; cases h'; exact .nil
      | cons e _ ih =>
        intro h'
        cases h' with
        | cons e' h' => exact .cons ⟨_, e'.1, by rw [toListScratch_elems e.1.any, e.2]⟩ (ih h')
    exact key r5.trees g4
  · rw [← r5.steps]
    have key : ∀ {rest : List (RazTree E Count × Nat × Nat)} {os : List (ASt E × Nat × LSpace E Count E Count (ASt E))},
        List.Forall₂ (fun (q : AStack E Nat × Nat × Nat) (o : ASt E × Nat × LSpace E Count E Count (ASt E)) =>
          HoldsList o.2.2.mem o.1 q.1 ∧ o.2.1 ≤ 4 * q.2.1 + 1) (rest.map fun q => (toListScratch q.1, q.2)) os →
        ∀ j : Nat, (os[j]?.elim 0 fun o => o.2.1) ≤ ((rest.map fun q => q.2.1)[j]?.elim 0 fun k => 4 * k + 1) := by
      intro rest
      induction rest with
      | nil => intro os h j; cases h; simp
      | cons q rest ih =>
        intro os h j
        cases h with
        | cons e h =>
          cases j with
          | zero => simpa using e.2
          | succ j => simpa using ih h j
    exact key g4 j

/-- **C98, `to_list`.** The same for `to_list`, in the mean over all random levels: behind each handle is an archive stack with the elements of the list, from the
end, and the bounds are `listLogs`: for each edit `24 * log (m + 2) + 8` calls, with `m` the greatest number of archive points, and 4 calls for each new archive point. -/
theorem C98_list {ops : List (LOp E)} {l : List (List (Nat × List (LOp E)))} (hn : (LOp.cells ops ++ batchCells l).Nodup)
    (hst : .str "start" ∉ LOp.cells ops ++ batchCells l) (hl : localAll ops l = true) (hti : ∀ op ∈ ops, op.Titles)
    (hti' : ∀ es ∈ l, ∀ q ∈ es, ∀ op ∈ q.2, op.Titles) {n : Nat} (h63 : n ≤ 2 ^ 63) (hs : (LOp.slots ops ++ batchSlots l).Nodup)
    (hk : ∀ k ∈ LOp.slots ops ++ batchSlots l, k < n) (σ : RMem E Count) :
    ∃ (a : (Fin n → Fin (2 ^ 64)) → ASt E) (work : (Fin n → Fin (2 ^ 64)) → Nat) (s : (Fin n → Fin (2 ^ 64)) → LSpace E Count E Count (ASt E))
      (outs : (Fin n → Fin (2 ^ 64)) → List (ASt E × Nat × LSpace E Count E Count (ASt E))),
      (∀ w, (∃ f0, ∀ m, f0 ≤ m → (hrerunSession (M := Count) countedList Space.empty (ops.map (LOp.at (drawn w))) (l.map (editsAt (drawn w))) m σ).map (·.1) =
          .ok (a w, work w, s w, outs w)) ∧
        (∃ b, HoldsList (s w).mem (a w) b ∧ b.elems.reverse = elemsOf (closed (onSides ([], []) ops))) ∧
        work w ≤ 2 * (marksOf (closed (onSides ([], []) ops))).length + 1 ∧
        List.Forall₂ (fun (its : List (Item E)) (o : ASt E × Nat × LSpace E Count E Count (ASt E)) => ∃ b, HoldsList o.2.2.mem o.1 b ∧ b.elems.reverse = elemsOf its)
          (stages (closed (onSides ([], []) ops)) l) (outs w)) ∧
      ∀ j : Nat, ∑ w, ((outs w)[j]?.elim 0 fun o => o.2.1) ≤ (2 ^ 64) ^ n * ((listLogs (closed (onSides ([], []) ops)) l)[j]?.elim 0 id) := by
  have h1 := list_steps (n := n) hn hst hl hti hti' σ
  choose q hq using h1
  refine ⟨fun w => (q w).1, fun w => (q w).2.1, fun w => (q w).2.2.1, fun w => (q w).2.2.2, fun w => (hq w).1, fun j => ?_⟩
  simp only [localAll, Bool.and_eq_true] at hl
  obtain ⟨s1, s2⟩ := start_slots hs hk
  exact Nat.le_trans (Finset.sum_le_sum fun w _ => (hq w).2 j) (stepsAts_mean h63 l s1 s2 hl.2 j)

theorem most_le {r : Nat} {xs : List E} (h : ∀ x, xs.count x ≤ r) : mostOften xs ≤ r := by
  unfold mostOften
  have : ∀ l : List Nat, (∀ a ∈ l, a ≤ r) → l.foldr max 0 ≤ r := by
    intro l
    induction l with
    | nil => intro _; exact Nat.zero_le _
    | cons a l ih => intro h; exact Nat.max_le.2 ⟨h a List.mem_cons_self, ih fun b hb => h b (List.mem_cons_of_mem _ hb)⟩
  refine this _ fun a ha => ?_
  obtain ⟨x, -, rfl⟩ := List.mem_map.1 ha
  exact h x

/-- **C98, the bound.** If there are never more than `N` archive points, at most `N` elements and not more than paths (`2 ^ L`), at most `g` elements between two archive points,
and no element occurs more than `r` times, then a batch of `e` edits that adds `p` archive points costs in the mean `O (g * r * (e * log N ^ 3 + p * log N ^ 2))`. -/
theorem C98_bound {items : List (Item E)} {es : List (Nat × List (LOp E))} {N g r : Nat} (hp : peak items es ≤ N) (hN : N ≤ 2 ^ L)
    (hd : (elemsOf (editLists items es)).length ≤ N) (hg : longestRun 0 items ≤ g) (hg' : longestRun 0 (editLists items es) ≤ g)
    (hr : ∀ x, (elemsOf (editLists items es)).count x ≤ r) :
    uqLog L items es ≤ 4 * (es.length * (6 * Nat.clog 2 (N + 2) + 2) + pointsOf es) + 1 +
      (2 * es.length * (6 * Nat.clog 2 (N + 2) + 2) ^ 2 + (2 * pointsOf es + 1) * (6 * Nat.clog 2 (N + 2) + 2)) * (1 + 2 * g * (r * (Nat.clog 2 N + 3))) := by
  have h1 : sixLogs (peak items es) + 2 ≤ 6 * Nat.clog 2 (N + 2) + 2 := Nat.add_le_add_right (sixLogs_mono hp) 2
  have hd' : different (elemsOf (editLists items es)) ≤ N := Nat.le_trans (List.dedup_sublist _).length_le hd
  have h2 : different (elemsOf (editLists items es)) / 2 ^ L ≤ 1 := by
    refine Nat.le_trans (Nat.div_le_div_right (Nat.le_trans hd' hN)) (Nat.le_of_eq (Nat.div_self (Nat.two_pow_pos L)))
  have h3 := Nat.clog_mono_right 2 hd'
  have h4 : searchBound L items (editLists items es) ≤ 1 + 2 * g * (r * (Nat.clog 2 N + 3)) := by
    unfold searchBound
    refine Nat.add_le_add_left (Nat.mul_le_mul (Nat.mul_le_mul_left _ (Nat.max_le.2 ⟨hg, hg'⟩)) (Nat.mul_le_mul (most_le hr) (by omega))) _
  unfold uqLog listLog
  refine Nat.add_le_add (Nat.add_le_add_right (Nat.mul_le_mul_left _ (Nat.add_le_add_right (Nat.mul_le_mul_left _ h1) _)) _) (Nat.mul_le_mul ?_ h4)
  exact Nat.add_le_add (Nat.mul_le_mul_left _ (Nat.pow_le_pow_left h1 2)) (Nat.mul_le_mul_left _ h1)

/-! ### A session that meets the conditions -/

/-- The elements 1 to 8; the archive points get the random numbers 0 to 6. -/
def exUqSlots : List (LOp (Fin 64)) :=
  [.pushL 1, .archL 0 (some (.usize 1)), .pushL 2, .archL 1 (some (.usize 2)), .pushL 3, .archL 2 (some (.usize 3)), .pushL 4,
    .archL 3 (some (.usize 4)), .pushL 5, .archL 4 (some (.usize 5)), .pushL 6, .archL 5 (some (.usize 6)), .pushL 7,
    .archL 6 (some (.usize 7)), .pushL 8]

/-- Two batches of edits, with an archive point in slot 7; an element comes twice. -/
def exUqSlotBatches : List (List (Nat × List (LOp (Fin 64)))) :=
  [[(1, [.popL, .pushL 10]), (4, [.pushL 20, .archL 7 (some (.usize 8)), .pushL 7])], [(7, [.pushR 40, .pushR 50, .popR])]]

set_option synthInstance.maxSize 1000 in
/-- The conditions of `C98_unique` and `C98_list`, with 8 slots; the lists, the bounds, and the quantities that make them up. -/
example : (LOp.cells exUqSlots ++ batchCells exUqSlotBatches).Nodup ∧ .str "start" ∉ LOp.cells exUqSlots ++ batchCells exUqSlotBatches ∧
    .unit ∉ LOp.cells exUqSlots ++ batchCells exUqSlotBatches ∧ localAll exUqSlots exUqSlotBatches = true ∧ (∀ op ∈ exUqSlots, op.Titles) ∧
    (∀ es ∈ exUqSlotBatches, ∀ q ∈ es, ∀ op ∈ q.2, op.Titles) ∧ (LOp.slots exUqSlots ++ batchSlots exUqSlotBatches).Nodup ∧
    (∀ k ∈ LOp.slots exUqSlots ++ batchSlots exUqSlotBatches, k < 8) ∧
    (stages (closed (onSides ([], []) exUqSlots)) exUqSlotBatches).map elemsOf = [[10, 2, 3, 4, 20, 7, 5, 6, 7, 8], [10, 2, 3, 4, 20, 7, 5, 40, 6, 7, 8]] ∧
    listLogs (closed (onSides ([], []) exUqSlots)) exUqSlotBatches = [213, 105] ∧ uqLogs 6 (closed (onSides ([], []) exUqSlots)) exUqSlotBatches = [136531, 67627] ∧
    (stages (closed (onSides ([], []) exUqSlots)) exUqSlotBatches).map (longestRun 0) = [2, 2] := by
  refine ⟨by decide +kernel, by decide +kernel, by decide +kernel, by decide +kernel, ?_, ?_, by decide +kernel, by decide +kernel, by decide +kernel,
    by decide +kernel, by decide +kernel, by decide +kernel⟩
  · simp [exUqSlots, LOp.Titles]
  · intro es h1 q h2
    simp only [exUqSlotBatches, List.mem_cons, List.not_mem_nil, or_false] at h1
    rcases h1 with rfl | rfl <;> simp only [List.mem_cons, List.not_mem_nil, or_false] at h2
    · rcases h2 with rfl | rfl <;> simp [LOp.Titles]
    · subst h2; simp [LOp.Titles]

/-- The conditions of `C98_bound` for the first batch. -/
example : peak (closed (onSides ([], []) exUqSlots)) (exUqSlotBatches.headD []) ≤ 10 ∧ 10 ≤ 2 ^ 6 ∧
    (elemsOf (editLists (closed (onSides ([], []) exUqSlots)) (exUqSlotBatches.headD []))).length ≤ 10 ∧ longestRun 0 (closed (onSides ([], []) exUqSlots)) ≤ 2 ∧
    longestRun 0 (editLists (closed (onSides ([], []) exUqSlots)) (exUqSlotBatches.headD [])) ≤ 2 ∧
    ∀ x, (elemsOf (editLists (closed (onSides ([], []) exUqSlots)) (exUqSlotBatches.headD []))).count x ≤ 2 := by
  decide +kernel

/-- What the model gives with the random numbers 0, 1, 2, … and one hash function. -/
example : (hrerunSession (M := Count) (countedUnique (fun x => BitVec.ofNat 64 (x.val * 37)) 6) OSpace.empty
    (exUqSlots.map (LOp.at (drawn (n := 8) fun k => ⟨k.1, by omega⟩))) (exUqSlotBatches.map (editsAt (drawn (n := 8) fun k => ⟨k.1, by omega⟩))) 99 Store.empty).map
    (fun x => (x.1.2.1, x.1.2.2.2.map (·.2.1))) = .ok (15, [17, 10]) := by
  decide +kernel

end Iodyn.Incr
