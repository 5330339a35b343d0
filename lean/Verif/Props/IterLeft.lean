import Verif.Props.Tree
/-
C32, the left iterator of `into_iters`. The source has no `Iterator` for it (src/tree_cursor.rs:411), so only its starting point can be described.
-/
namespace Iodyn
open Cursor
variable {D : Type}

/-- The node at the root of a tree, if any. -/
def rootNode : Tree D → List (Nat × Option Name × D)
  | .nil => []
  | .node lv nm d _ _ => [(lv, nm, d)]

theorem peek_downRightAll : ∀ (t : Tree D) (c : Cursor D), c.tree = t → t.isSome → (rootNode c.downRightAll.tree) = (t.nodes.getLast?).toList ∧
    (lfNodes c.downRightAll.lForest).reverse ++ c.downRightAll.tree.nodes = (lfNodes c.lForest).reverse ++ t.nodes := by
  intro t
  induction t with
  | nil => intro c _ h; simp [Tree.isSome] at h
  | node lv nm x l r ihl ihr =>
    intro c hc _
    unfold Cursor.downRightAll
    cases hr : r with
    | nil =>
      have : c.downRight = (c, false) := by simp [downRight, downRightForce, hc, hr, Tree.isSome]
      split
      · rename_i h; rw [this] at h; simp at h
      · rw [hc]; subst hr; simp [rootNode, Tree.nodes]
    | node lv' nm' x' l' r' =>
      rw [← hr]
      have hs : r.isSome := by rw [hr]; rfl
      have : c.downRight = (⟨false, (c.dirty, ⟨lv, nm, x, l, r⟩) :: c.lForest, r, c.rForest⟩, true) := by
        simp [downRight, downRightForce, hc, hs]
      split
      · rename_i c' h
        rw [this] at h
        simp only [Prod.mk.injEq, and_true] at h
        subst h
        obtain ⟨h1, h2⟩ := ihr ⟨false, (c.dirty, ⟨lv, nm, x, l, r⟩) :: c.lForest, r, c.rForest⟩ rfl hs
        have hne : r.nodes ≠ [] := by rw [hr]; simp [Tree.nodes]
        refine ⟨?_, ?_⟩
        · rw [h1]
          simp only [Tree.nodes]
          rw [List.getLast?_append, List.getLast?_cons]
          cases hg : r.nodes.getLast? with
          | none => exact absurd (List.getLast?_eq_none_iff.1 hg) hne
          | some y => rfl
        · rw [h2]
          simp [lfNodes, Tree.nodes]
      · rename_i h; rw [this] at h; simp at h

theorem At.all {t : Tree D} {c : Cursor D} {p} (h : At t c p) : allNodes c = t.nodes := by
  induction h with
  | root => simp [allNodes, Cursor.ofTree, lfNodes, rfNodes]
  | left _ ih => rw [← ih]; simp [allNodes, rfNodes, Tree.nodes]
  | right _ ih => rw [← ih]; simp [allNodes, lfNodes, Tree.nodes]

/-- **C32, the left iterator.** For a cursor that walked a heap ordered tree, the nodes of the tree are those before the cursor's position, the node there (if any) and
those after it; and the left iterator of `into_iters` is on the last of those before it, or empty if there are none. -/
theorem C32_left_start [TreeUpdate D] {t : Tree D} (ht : HeapOrdered t) (ms : List Move) {c os} (hw : (Cursor.ofTree t).walk ms = .ok (c, os)) :
    ∃ before, t.nodes = before ++ rootNode (subAt t (pathWalk t [] ms).1) ++ nodesAfter t (pathWalk t [] ms).1 ∧
      (rootNode c.intoIters.1.tree = before.getLast?.toList) ∧ c.intoIters.1.peek = before.getLast?.map (·.2.2) := by
  obtain ⟨c', h1, h2⟩ := At.walk ht.canon ms At.root
  rw [h1] at hw
  simp only [Except.ok.injEq, Prod.mk.injEq] at hw
  obtain ⟨rfl, -⟩ := hw
  have hall := h2.all
  have hafter := h2.after
  refine ⟨(lfNodes c'.lForest).reverse ++ c'.leftTree.nodes, ?_, ?_⟩
  · rw [← hall, ← hafter, ← h2.tree]
    cases htr : c'.tree <;> simp [allNodes, htr, leftTree, rightTree, rootNode, Tree.nodes]
  suffices H : rootNode c'.intoIters.1.tree = ((lfNodes c'.lForest).reverse ++ c'.leftTree.nodes).getLast?.toList by
    refine ⟨H, ?_⟩
    generalize ((lfNodes c'.lForest).reverse ++ c'.leftTree.nodes).getLast? = o at H
    unfold Cursor.peek
    cases htr : c'.intoIters.1.tree <;> cases o <;> simp_all [rootNode, Tree.peek?]
    rw [← H]
  simp only [Cursor.intoIters]
  by_cases hs : c'.leftTree.isSome
  · rw [if_pos hs]
    obtain ⟨k1, -⟩ := peek_downRightAll c'.leftTree ⟨true, c'.lForest, c'.leftTree, []⟩ rfl hs
    have hne : c'.leftTree.nodes ≠ [] := by cases h : c'.leftTree <;> simp [h, Tree.isSome, Tree.nodes] at hs ⊢
    rw [k1, List.getLast?_append]
    cases hg : c'.leftTree.nodes.getLast? with
    | none => exact absurd (List.getLast?_eq_none_iff.1 hg) hne
    | some y => rfl
  · rw [if_neg hs]
    have : c'.leftTree = .nil := by cases h : c'.leftTree <;> simp [h, Tree.isSome] at hs; rfl
    rw [this]
    cases c'.lForest with
    | nil => rfl
    | cons p lf => simp [Cursor.upDiscard, Cursor.upDir, TNode.toTree, lfNodes, Tree.nodes, rootNode]

/-- In the tree of the examples for C30 and C32: on the node with the data 30 the left iterator is on 10; on the root it is on 31; on the leftmost node it is empty. -/
example : [[.down .left false], [], [.down .left false, .down .left false]].map (fun ms => do
    let (c, _) ← @Cursor.walk Nat natUpdate (Cursor.ofTree exT) ms
    return (c.peek, c.intoIters.1.peek) : List Move → P (Option Nat × Option Nat)) = [.ok (some 30, some 10), .ok (some 40, some 31), .ok (some 10, none)] := by
  decide +kernel
example : ∃ c os before, @Cursor.walk Nat natUpdate (Cursor.ofTree exT) [.down .left false, .down .right false] = .ok (c, os) ∧ before ≠ [] ∧
    c.intoIters.1.peek = before.getLast?.map (·.2.2) ∧ before = exT.nodes.take 3 := by
  obtain ⟨c, h, -⟩ := @C30_walk Nat natUpdate _ exT_heap [.down .left false, .down .right false]
  obtain ⟨b, h1, -, h3⟩ := @C32_left_start Nat natUpdate _ exT_heap _ _ _ h
  have hb : b = exT.nodes.take 3 := by
    rw [h1]
    have : b.length = 3 := by
      have := congrArg List.length h1
      simp only [List.length_append] at this
      have e1 : exT.nodes.length = 7 := by decide +kernel
      have e2 : (rootNode (subAt exT (pathWalk exT [] [.down .left false, .down .right false]).1)).length + (nodesAfter exT (pathWalk exT [] [.down .left false, .down .right false]).1).length = 4 := by
        decide +kernel
      omega
    rw [List.append_assoc, List.take_append_of_le_length (by omega), List.take_of_length_le (by omega)]
  exact ⟨c, _, b, h, by rw [hb]; decide +kernel, h3, hb⟩

end Iodyn
