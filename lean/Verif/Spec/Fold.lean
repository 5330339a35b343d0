import Verif.Spec.Items
/-
What folds over a sequence should compute.
-/
namespace Iodyn
variable {E R A D : Type}

/-- The subsequences of a sequence: the first one, then each archive point with the subsequence after it. -/
def chunks : List (Item E) → List E × List ((Nat × Option Name) × List E)
  | [] => ([], [])
  | .elem e :: l => (e :: (chunks l).1, (chunks l).2)
  | .mark lev nm :: l => ([], ((lev, nm), (chunks l).1) :: (chunks l).2)
  | .pend lev nm :: l => ([], ((lev, nm), (chunks l).1) :: (chunks l).2)

/-- No subsequence is empty. -/
def NoEmptySub (l : List (Item E)) : Prop := (chunks l).1 ≠ [] ∧ ∀ p ∈ (chunks l).2, p.2 ≠ []

/-- Left fold of a non-empty list without start value. -/
def fold1 (bin : R → R → R) : List R → Option R
  | [] => none
  | a :: l => some (l.foldl bin a)

/-- Combining the results of the subsequences from left to right across the archive points. -/
def foldChunks (init : List E → R) (bin : R → Nat → Option Name → R → R)
    (c : List E × List ((Nat × Option Name) × List E)) : R :=
  c.2.foldl (fun a p => bin a p.1.1 p.1.2 (init p.2)) (init c.1)

/-- Left fold over elements and archive points. -/
def foldItems (bin : A → E → A) (mt : A → Nat × Option Name → A) (a : A) (l : List (Item E)) : A :=
  l.foldl (fun a i => match i with
    | .elem e => bin a e
    | .mark lev nm => mt a (lev, nm)
    | .pend lev nm => mt a (lev, nm)) a

/-- A tree without its data. -/
def Tree.shape : Tree D → Tree Unit
  | .nil => .nil
  | .node lv nm _ l r => .node lv nm () l.shape r.shape

end Iodyn
