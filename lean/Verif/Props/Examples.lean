import Verif.Proof.Reach
/-
Concrete cursors, stacks and trees used beside the theorems to show that their hypotheses can be met.
-/
namespace Iodyn

/-- Elements 1,2 | archive (level 2, "a") | 3 left of the cursor; 4 | archive (level 1) | 5 on the right. -/
def exCursor (M : Type) : Raz Nat M :=
  let z : Raz Nat M := Raz.new
  let z := (z.pushLeft 1).1
  let z := (z.pushLeft 2).1
  let z := z.archiveLeft 2 (some (.str "a"))
  let z := (z.pushLeft 3).1
  let z := (z.pushRight 5).1
  let z := z.archiveRight 1 none
  (z.pushRight 4).1

theorem exCursor_reach (M : Type) [RazMeta Nat M] (u : Usage) : (exCursor M).Reachable u :=
  .pushR _ (.archR _ (by decide) (.pushR _ (.pushL _ (.archL _ (by decide) (.pushL _ (.pushL _ .new))))))

theorem exCursor_left (M : Type) : (exCursor M).left =
    [.elem 3, .pend 2 (some (.str "a")), .elem 2, .elem 1] := rfl
theorem exCursor_right (M : Type) : (exCursor M).right = [.elem 4, .pend 1 none, .elem 5] := rfl

/-- A stack with three archives: 1 2 | 3 | 4 5 | 6 -/
def exStack : AStack Nat Nat :=
  let s : AStack Nat Nat := AStack.new
  let s := (s.push 1).push 2
  let s := (s.archive (some (.str "a")) 2).1
  let s := s.push 3
  let s := (s.archive none 1).1
  let s := (s.push 4).push 5
  let s := (s.archive (some (.str "b")) 4).1
  s.push 6

theorem exStack_built : exStack.Built (fun n => 1 ≤ n ∧ n < u32Max) :=
  .push _ (.archive _ _ (by decide) (.push _ (.push _ (.archive _ _ (by decide) (.push _ (.archive _ _ (by decide)
    (.push _ (.push _ .new))))))))
theorem exStack_built' : exStack.Built (fun n => 1 ≤ n ∧ n ≤ u32Max) :=
  .push _ (.archive _ _ (by decide) (.push _ (.push _ (.archive _ _ (by decide) (.push _ (.archive _ _ (by decide)
    (.push _ (.push _ .new))))))))

/-- The tree of `exStack`, level 4 at the root. -/
def exTree (M : Type) [RazMeta Nat M] : RazTree Nat M :=
  let lf (v : List Nat) : Tree (TreeData Nat M) := leaf v none
  let r1 : Tree (TreeData Nat M) := .node 1 none (.branch (metaOf 1 none (lf [3])) (metaOf 1 none (lf [4, 5]))) (lf [3]) (lf [4, 5])
  let r2 : Tree (TreeData Nat M) := .node 2 (some (.str "a"))
    (.branch (metaOf 2 (some (.str "a")) (lf [1, 2])) (metaOf 2 (some (.str "a")) r1)) (lf [1, 2]) r1
  let r4 : Tree (TreeData Nat M) := .node 4 (some (.str "b"))
    (.branch (metaOf 4 (some (.str "b")) r2) (metaOf 4 (some (.str "b")) (lf [6]))) r2 (lf [6])
  { info := metaOf 0 none r4, tree := r4 }

theorem exTree_eq (M : Type) [RazMeta Nat M] : memoFromTail exStack = .ok (exTree M) := rfl

theorem exTree_reach (M : Type) [RazMeta Nat M] (u : Usage) : (exTree M).Reachable u :=
  .memoTail exStack_built (.inr (.inl (by decide))) (exTree_eq M)

theorem exTree_items (M : Type) [RazMeta Nat M] : (exTree M).items =
    [.elem 1, .elem 2, .mark 2 (some (.str "a")), .elem 3, .mark 1 none, .elem 4, .elem 5, .mark 4 (some (.str "b")), .elem 6] := rfl

end Iodyn
