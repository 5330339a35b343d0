import Verif.Proof.UniqueLocal
import Verif.Props.IncrWork
import Verif.Props.IncrLr
/-
C95: the work of memoised runs of `unique_elms`.
-/
namespace Iodyn.Incr
open Iodyn.Heap
open Iodyn.Skip (Skiplist Path ObsRes common)

section
variable {E M : Type} {L : Nat} {hash : E → Word} [DecidableEq E] [DecidableEq M]

/-- **C95, the exact work.** `unique_elms` has run over some trees. The next run over any tree ends, gives the handle of the skip list with the elements of
that tree, and evaluates exactly the calls that are new: a call is the same as in the last run when its branch is the same in the store (with its handles),
the name for the next cell and the handle of the skip list before it are the same, and each of its searches is shown the same. -/
theorem C95_exact (hL : 1 ≤ L) (hL' : L ≤ 63) {s : UqSpace E M} {v : Tree (Tr × TreeData E M)} {vs : List (Tree (Tr × TreeData E M))}
    (hs : UqHistory hash L s (v :: vs)) {σ : RMem E M} {h : Tr} {v' : Tree (Tr × TreeData E M)} (hv : View σ (some h) v') (hu : UqTree v')
    (hr : NoReturn (v :: vs) v') {n : Nat} (hm : v'.size ≤ n) :
    ∃ o, orun skipView (lrObsBody (uniqueNode hash)) σ n ⟨h, startName, Eval.UniqueElms.start L⟩ s = some (.ok o) ∧
      o.val = ((leavesOf startName v').foldl Stage.leaf Stage.start).handle L ∧
      o.work = 1 + (uqCalls (X := Nat × List E) L hash v').fresh (uqCalls L hash v).entries := by
  have hran := Uq.history_ran hL hL' hs
  obtain ⟨c, c1, c2, c3, c4⟩ := Uq.uq_rec (hash := hash) hL hL' hv hu hm (Obs.runs_good hran).path
  obtain ⟨o, o1, o2, -, o4⟩ := C94_work hran c1 c2 (by rw [c3]; exact Uq.noReturn_calls hr)
  exact ⟨o, o1, o2.trans c4, by rw [o4, c3]; rfl⟩

/-- **C95, the first run** visits each node once. -/
theorem C95_first (hL : 1 ≤ L) (hL' : L ≤ 63) {σ : RMem E M} {h : Tr} {v : Tree (Tr × TreeData E M)} (hv : View σ (some h) v) (hu : UqTree v) {n : Nat} (hm : v.size ≤ n) :
    ∃ o, orun skipView (lrObsBody (uniqueNode hash)) σ n ⟨h, startName, Eval.UniqueElms.start L⟩ OSpace.empty = some (.ok o) ∧ o.work = v.size := by
  obtain ⟨c, c1, c2, c3, c4⟩ := Uq.uq_rec (hash := hash) hL hL' hv hu hm (τ := (OSpace.empty : UqSpace E M).mem) rfl
  obtain ⟨o, o1, -, -, o4⟩ := C94_work .start c1 c2 trivial
  refine ⟨o, o1, ?_⟩
  rw [o4, c3]
  have all : ∀ d : UqCalls E M (Nat × List E), d.fresh [] = d.all.length := by
    intro d
    induction d with
    | nil => rfl
    | cons nm key rd fs r sub rest ih1 ih2 =>
      have h0 : (nm.toList.any fun m => decide ((m, (⟨key, rd, fs, r⟩ : OEntry (Heap.Cell (TreeData E M) (Nat × List E)) (Path E Unit) ObsParam (ObsRes E Unit) (LrKey Skiplist) Skiplist)) ∈ [])) = false := by
        cases nm <;> simp
      rw [Calls.fresh, h0, Calls.all, List.length_cons, List.length_append, ih1, ih2]
      simp only [Bool.false_eq_true, if_false]
      omega
  have size : ∀ (w : Tree (Tr × TreeData E M)) (c : Option Name) (st : Stage E), Chunked (plain w) → 1 + (treeCalls (X := Nat × List E) L hash c st w).all.length = w.size := by
    intro w
    induction w with
    | nil => intro c st hc; cases hc
    | node lv nm q l r ihl ihr =>
      intro c st hc
      obtain ⟨t, d⟩ := q
      rcases Uq.chunked_cases hc with ⟨rfl, rfl, -⟩ | ⟨hl, hr, -⟩
      · rfl
      · have il := fun st => ihl c st hl
        have ir := fun st => ihr nm st hr
        cases l with
        | nil => cases hl
        | node lv1 n1 q1 l1 r1 =>
          cases r with
          | nil => cases hr
          | node lv2 n2 q2 l2 r2 =>
            rw [treeCalls]
            simp only [branchCall, rootOf, Calls.all, List.length_cons, List.length_append, List.length_nil]
            have h1 := il st
            have h2 := ir ((leavesOf c (.node lv1 n1 q1 l1 r1) ++ ownLeaf nm t d).foldl Stage.leaf st)
            simp only [Tree.size] at h1 h2 ⊢
            omega
  show 1 + (uqCalls L hash v).fresh [] = v.size
  rw [all]
  exact size v _ _ hu.chunked

/-- **C95, the work after an edit.** The next run evaluates at most the nodes that are new (as for `to_list` with the same trees, C74), and for each leaf
for which the last run did not depend on the same updates of the skip list, the nodes on the way to it. -/
theorem C95_work (hL : 1 ≤ L) (hL' : L ≤ 63) {s : UqSpace E M} {v : Tree (Tr × TreeData E M)} {vs : List (Tree (Tr × TreeData E M))}
    (hs : UqHistory hash L s (v :: vs)) (hu0 : UqTree v) {σ : RMem E M} {h : Tr} {v' : Tree (Tr × TreeData E M)} (hv : View σ (some h) v') (hu : UqTree v')
    (hr : NoReturn (v :: vs) v') {n : Nat} (hm : v'.size ≤ n) :
    ∃ o, orun skipView (lrObsBody (uniqueNode hash)) σ n ⟨h, startName, Eval.UniqueElms.start L⟩ s = some (.ok o) ∧
      o.work ≤ costFrom (pointsFrom startName v) startName v' + depthOf v' * changedLeaves L hash v v' ∧
      ∀ k, Near v v' k → o.work ≤ k + depthOf v' * changedLeaves L hash v v' := by
  obtain ⟨o, o1, -, o3⟩ := C95_exact hL hL' hs hv hu hr hm
  have := Uq.fresh_most (X := Nat × List E) (L := L) (hash := hash) (st0 := Stage.start) (Uq.leaves_nodup hu0) v' startName Stage.start hu.chunked
  rw [← uqCalls, ← uqCalls, ← o3] at this
  refine ⟨o, o1, this, fun k hk => Nat.le_trans this (Nat.add_le_add_right (Lr.near_costFrom hk _ _ (fun _ h => h)) _)⟩

/-- **C95, how far an edit is seen.** An edit replaces the leaves `A` by the leaves `B`, and leaves the others as they are. Then at most `B` and the next leaf
depend on something else, and a later leaf only if it has an element that shares, with a replaced element (or one of the next leaf), at least as many bits
as all the elements in between. -/
theorem C95_edit {v v' : Tree (Tr × TreeData E M)} (hu : UqTree v) {P A B S : List (Leaf E)} {l : Leaf E} (e : leavesOf startName v = P ++ A ++ l :: S)
    (e' : leavesOf startName v' = P ++ B ++ l :: S) : changedLeaves L hash v v' ≤ B.length + 1 + touched L hash (leafElems (A ++ B ++ [l])) [] (leafElems S) := by
  obtain ⟨ns, n1, -⟩ := Uq.leaves_names v startName hu.chunked
  have full : ∀ (w : Tree (Tr × TreeData E M)) (c : Option Name), Chunked (plain w) → ∀ x ∈ leavesOf c w, x.2.2 ≠ [] := by
    intro w
    induction w with
    | nil => intro c hc; cases hc
    | node lv nm q l r ihl ihr =>
      intro c hc
      obtain ⟨t, d⟩ := q
      rcases Uq.chunked_cases hc with ⟨rfl, rfl, x, u, rfl⟩ | ⟨hl, hr, m, -, h1⟩
      · intro y hy
        simp only [leavesOf, Tree.isSome, Bool.or_self, Bool.false_eq_true, if_false, ownLeaf, List.mem_singleton] at hy
        subst hy
        simp
      · intro y hy
        rw [(h1 c Stage.start).1, List.mem_append] at hy
        rcases hy with hy | hy
        · exact ihl c hl y hy
        · exact ihr nm hr y hy
  have mem : ∀ x ∈ l :: S, x ∈ leavesOf startName v := fun x hx => by rw [e]; exact List.mem_append_right _ hx
  have hl : ∃ n, l.1 = some n := by
    have := List.mem_map_of_mem (f := (·.1)) (mem l List.mem_cons_self)
    rw [n1] at this
    rcases List.mem_cons.1 this with h | h
    · exact ⟨_, h⟩
    · obtain ⟨n, -, h⟩ := List.mem_map.1 h
      exact ⟨n, h.symm⟩
  obtain ⟨n, hl⟩ := hl
  have := Uq.changed_local (L := L) (hash := hash) (P := P) (A := A) (B := B) hl (fun x hx => full v _ hu.chunked x (mem x hx)) Stage.start
  unfold changedLeaves uqViews
  rw [e, e']
  exact this

/-- **C95, the same again.** Over the same tree, only the root is visited. -/
theorem C95_again (hL : 1 ≤ L) (hL' : L ≤ 63) {s : UqSpace E M} {v : Tree (Tr × TreeData E M)} {vs : List (Tree (Tr × TreeData E M))}
    (hs : UqHistory hash L s (v :: vs)) (hu : UqTree v) {σ : RMem E M} {h : Tr} (hv : View σ (some h) v) {n : Nat} (hm : v.size ≤ n) :
    ∃ o, orun skipView (lrObsBody (uniqueNode hash)) σ n ⟨h, startName, Eval.UniqueElms.start L⟩ s = some (.ok o) ∧ o.work = 1 := by
  have hran := Uq.history_ran hL hL' hs
  obtain ⟨c, c1, c2, c3, c4⟩ := Uq.uq_rec (hash := hash) hL hL' hv hu hm (Obs.runs_good hran).path
  rw [List.map_cons, ← c3] at hran
  have named : ∀ (w : Tree (Tr × TreeData E M)) (c : Option Name) (st : Stage E), Chunked (plain w) → ∀ x ∈ (treeCalls (X := Nat × List E) L hash c st w).all, x.1.isSome := by
    intro w
    induction w with
    | nil => intro c st hc; cases hc
    | node lv nm q l r ihl ihr =>
      intro c st hc
      obtain ⟨t, d⟩ := q
      rcases Uq.chunked_cases hc with ⟨rfl, rfl, -⟩ | ⟨hl, hr, m, rfl, -⟩
      · exact fun x hx => by cases hx
      · have il := fun st => ihl c st hl
        have ir := fun st => ihr (some m) st hr
        cases l with
        | nil => cases hl
        | node lv1 n1 q1 l1 r1 =>
          cases r with
          | nil => cases hr
          | node lv2 n2 q2 l2 r2 =>
            rw [treeCalls]
            simp only [branchCall, rootOf, Calls.all, List.mem_cons, List.mem_append, List.not_mem_nil, or_false]
            rintro x (rfl | h | rfl | h)
            · rfl
            · exact il _ x h
            · rfl
            · exact ir _ x h
  obtain ⟨o, o1, -, -, o2⟩ := C94_again hran c1 c2 (by rw [c3]; exact named v _ _ hu.chunked)
  exact ⟨o, o1, o2⟩

/-- A history can be continued with every tree that meets the conditions. -/
theorem UqHistory.extend (hL : 1 ≤ L) (hL' : L ≤ 63) {s : UqSpace E M} {vs : List (Tree (Tr × TreeData E M))} (hs : UqHistory hash L s vs) {σ : RMem E M} {h : Tr}
    {v : Tree (Tr × TreeData E M)} (hv : View σ (some h) v) (hu : UqTree v) (hr : NoReturn vs v) : ∃ s' : UqSpace E M, UqHistory hash L s' (v :: vs) := by
  have hran := Uq.history_ran hL hL' hs
  obtain ⟨c, c1, c2, c3, c4⟩ := Uq.uq_rec (hash := hash) hL hL' hv hu (Nat.le_refl _) (Obs.runs_good hran).path
  obtain ⟨o, o1, -⟩ := C94_work hran c1 c2 (by rw [c3]; exact Uq.noReturn_calls hr)
  exact ⟨_, .fold hs hv hu hr (Nat.le_refl _) o1⟩
end

/-! ### Cases -/

/-- The tree at a handle, with the handles. -/
def viewAt {D X : Type} (σ : Mem D X) : Nat → Option Tr → Option (Tree (Tr × D))
  | _, none => some .nil
  | 0, some _ => none
  | n + 1, some h =>
    match σ.cells h.link with
    | some (.node d hl hr) => do return .node h.level h.name (h, d) (← viewAt σ n hl) (← viewAt σ n hr)
    | _ => none

theorem viewAt_view {D X : Type} {σ : Mem D X} : ∀ {n : Nat} {h : Option Tr} {v : Tree (Tr × D)}, viewAt σ n h = some v → View σ h v := by
  intro n
  induction n with
  | zero => intro h v e; cases h with | none => cases e; exact .nil | some h => cases e
  | succ n ih =>
    intro h v e
    cases h with
    | none => cases e; exact .nil
    | some h =>
      unfold viewAt at e
      split at e
      · rename_i d hl hr hc
        obtain ⟨l, e1, e⟩ := Option.bind_eq_some_iff.1 e
        obtain ⟨r, e2, e⟩ := Option.bind_eq_some_iff.1 e
        cases e
        exact .node hc (ih e1) (ih e2)
      · cases e

/-- Whether a tree meets the conditions. -/
def uqTreeB {E M : Type} (v : Tree (Tr × TreeData E M)) : Bool :=
  decide (nodeNames v).Nodup && decide (.unit ∉ nodeNames v) && decide (.str "start" ∉ nodeNames v) && chunked (plain v)

theorem uqTreeB_ok {E M : Type} {v : Tree (Tr × TreeData E M)} (h : uqTreeB v = true) : UqTree v := by
  simp only [uqTreeB, Bool.and_eq_true, decide_eq_true_eq] at h
  exact ⟨h.1.1.1, h.1.1.2, h.1.2, Chunked.of h.2⟩

/-- Some statements, and the tree in the first variable. -/
def treeNext {E : Type} (cs : List (Cmd E (RazMeta.Index E Count))) (vs : HVars E Count) (σ : RMem E Count) :
    Option (HVars E Count × RMem E Count × Tr × Tree (Tr × TreeData E Count)) := do
  let ((vs, _), σ) ← (HVars.run (M := Count) .dcg vs cs 60 σ).toOption
  let h ← root0 vs
  let v ← viewAt σ 60 (some h)
  return (vs, σ, h, v)

theorem treeNext_view {E : Type} {cs : List (Cmd E (RazMeta.Index E Count))} {vs vs' : HVars E Count} {σ σ' : RMem E Count} {h : Tr} {v : Tree (Tr × TreeData E Count)}
    (hx : treeNext cs vs σ = some (vs', σ', h, v)) : View σ' (some h) v := by
  unfold treeNext at hx
  simp only [bind, Option.bind_eq_some_iff] at hx
  obtain ⟨⟨⟨vs1, x⟩, σ1⟩, -, h1, -, r, h3, h4⟩ := hx
  cases h4
  exact viewAt_view h3

/-- Whether no name comes back. -/
def treeReturnB {D : Type} (vs : List (Tree D)) (v : Tree D) : Bool :=
  match vs with
  | [] => true
  | w :: vs => (memoNames v).all fun m => decide (m ∈ memoNames w) || vs.all fun u => decide (m ∉ memoNames u)

theorem treeReturnB_ok {D : Type} {vs : List (Tree D)} {v : Tree D} (h : treeReturnB vs v = true) : NoReturn vs v := by
  cases vs with
  | nil => trivial
  | cons w vs =>
    intro m hm hm' u hu
    simp only [treeReturnB, List.all_eq_true, Bool.or_eq_true, decide_eq_true_eq] at h
    rcases h m hm with h | h
    · exact absurd h hm'
    · exact h u hu

/-- Twelve elements, each in a leaf of its own. -/
def exMany : List (Cmd Nat (RazMeta.Index Nat Count)) :=
  [.new] ++ ([(1, 2), (2, 5), (3, 3), (4, 1), (5, 6), (6, 2), (7, 4), (8, 1), (9, 3), (10, 2), (11, 2)].flatMap fun q =>
    [.op 0 (.pushL (q.1 * 5)), .op 0 (.archL q.2 (some (.usize q.1)))]) ++ [.op 0 (.pushL 60), .op 0 .unfocus]

/-- The conditions of all theorems, for runs over a tree with 12 leaves and after edits of the fourth and the fifth leaf. In the last run 5 nodes are new, for 3 leaves
the run depends on something else, and 11 of the 23 nodes are visited: the edited leaf is the fifth, and of the seven leaves after it two are affected. -/
example : ∃ (s : UqSpace Nat Count) (v1 v2 v3 : Tree (Tr × TreeData Nat Count)) (σ : RMem Nat Count) (h : Tr) (P A B S : List (Leaf Nat)) (l : Leaf Nat),
    UqHistory exHash 6 s [v2, v1] ∧ UqTree v2 ∧ View σ (some h) v3 ∧ UqTree v3 ∧ NoReturn [v2, v1] v3 ∧ v3.size = 23 ∧
    leavesOf startName v2 = P ++ A ++ l :: S ∧ leavesOf startName v3 = P ++ B ++ l :: S ∧
    (P.map fun l => l.2.2) = [[5], [10], [15], [20, 22]] ∧ (A.map fun l => l.2.2) = [[25]] ∧ (B.map fun l => l.2.2) = [[25, 8]] ∧ l.2.2 = [30] ∧
    leafElems S = [35, 40, 45, 50, 55, 60] ∧ changedLeaves 6 exHash v2 v3 = 3 ∧ costFrom (pointsFrom startName v2) startName v3 = 5 ∧ depthOf v3 = 6 ∧
    (∃ o, orun skipView (lrObsBody (uniqueNode exHash)) σ 23 ⟨h, startName, Eval.UniqueElms.start 6⟩ s = some (.ok o) ∧ o.work = 11) ∧
    changedLeaves 6 exHash v2 v3 ≤ B.length + 1 + touched 6 exHash (leafElems (A ++ B ++ [l])) [] (leafElems S) := by
  have hx : (do
      let (vs, σ, _, v1) ← treeNext exMany [] Store.empty
      let (vs, σ, _, v2) ← treeNext [.op 0 (.focus (4 : Nat)), .op 0 (.pushL 22), .op 0 .unfocus] vs σ
      let (_, _, _, v3) ← treeNext [.op 0 (.focus (6 : Nat)), .op 0 (.pushL 8), .op 0 .unfocus] vs σ
      let l2 := leavesOf startName v2
      let l3 := leavesOf startName v3
      return ([uqTreeB v1, uqTreeB v2, uqTreeB v3, treeReturnB [v1] v2, treeReturnB [v2, v1] v3, decide (l2.take 4 = l3.take 4), decide (l2.drop 5 = l3.drop 5)],
        [v3.size, changedLeaves 6 exHash v2 v3, costFrom (pointsFrom startName v2) startName v3, depthOf v3,
          (uqCalls (X := Nat × List Nat) 6 exHash v3).fresh (uqCalls 6 exHash v2).entries], (l2.map fun l => l.2.2), (l3.map fun l => l.2.2))) =
      some (List.replicate 7 true, [23, 3, 5, 6, 10], [[5], [10], [15], [20, 22], [25], [30], [35], [40], [45], [50], [55], [60]],
        [[5], [10], [15], [20, 22], [25, 8], [30], [35], [40], [45], [50], [55], [60]]) := by decide +kernel
  obtain ⟨⟨vs1, σ1, h1, v1⟩, e1, hx⟩ := Option.bind_eq_some_iff.1 hx
  obtain ⟨⟨vs2, σ2, h2, v2⟩, e2, hx⟩ := Option.bind_eq_some_iff.1 hx
  obtain ⟨⟨vs3, σ3, h3, v3⟩, e3, hx⟩ := Option.bind_eq_some_iff.1 hx
  have hx := Option.some.inj hx
  simp only [Prod.mk.injEq, decide_eq_true_eq, List.replicate, List.cons.injEq, and_true] at hx
  obtain ⟨⟨x1, x2, x3, x4, x5, x6, x7⟩, ⟨y1, y2, y3, y4, y5⟩, z2, z3⟩ := hx
  have split : ∀ {l2 : List (Leaf Nat)} {a2 b2 c2 d2 e2 : List Nat} {r2 : List (List Nat)}, l2.map (fun l => l.2.2) = a2 :: b2 :: c2 :: d2 :: e2 :: r2 →
      ∃ x, l2 = l2.take 4 ++ [x] ++ l2.drop 5 ∧ x.2.2 = e2 ∧ (l2.take 4).map (fun l => l.2.2) = [a2, b2, c2, d2] ∧ (l2.drop 5).map (fun l => l.2.2) = r2 := by
    intro l2 a2 b2 c2 d2 e2 r2 h
    rcases l2 with _ | ⟨a, _ | ⟨b, _ | ⟨c, _ | ⟨d, _ | ⟨e, l2⟩⟩⟩⟩⟩ <;> simp at h
    obtain ⟨rfl, rfl, rfl, rfl, rfl, rfl⟩ := h
    exact ⟨e, by simp, rfl, by simp, by simp⟩
  obtain ⟨A, p1, p2, p3, p4⟩ := split z2
  obtain ⟨B, q1, q2, q3, q4⟩ := split z3
  obtain ⟨l, S, r1, r2, r3⟩ : ∃ l S, (leavesOf startName v2).drop 5 = l :: S ∧ l.2.2 = [30] ∧ leafElems S = [35, 40, 45, 50, 55, 60] := by
    cases hd : (leavesOf startName v2).drop 5 with
    | nil => rw [hd] at p4; cases p4
    | cons l S =>
      rw [hd] at p4
      have h1 := List.cons.inj p4
      refine ⟨l, S, rfl, h1.1, ?_⟩
      have : leafElems S = (S.map fun l => l.2.2).flatten := by simp [leafElems, List.flatMap]
      rw [this]
      exact (congrArg List.flatten h1.2).trans (by decide)
  rw [← x6, ← x7] at q1
  rw [r1] at p1 q1
  obtain ⟨s1, b1⟩ := UqHistory.extend (hash := exHash) (L := 6) (by decide) (by decide) .start (treeNext_view e1) (uqTreeB_ok x1) trivial
  obtain ⟨s2, b2⟩ := b1.extend (by decide) (by decide) (treeNext_view e2) (uqTreeB_ok x2) (treeReturnB_ok x4)
  obtain ⟨o, o1, -, o2⟩ := C95_exact (by decide) (by decide) b2 (treeNext_view e3) (uqTreeB_ok x3) (treeReturnB_ok x5) (Nat.le_of_eq y1)
  have ed := C95_edit (L := 6) (hash := exHash) (uqTreeB_ok x2) p1 q1
  exact ⟨s2, v1, v2, v3, σ3, h3, _, [A], [B], S, l, b2, uqTreeB_ok x2, treeNext_view e3, uqTreeB_ok x3, treeReturnB_ok x5, y1, p1, q1, p3, by rw [← p2]; rfl, by rw [← q2]; rfl, r2, r3, y2, y3, y4,
    ⟨o, o1, by rw [o2, y5]⟩, ed⟩

end Iodyn.Incr
