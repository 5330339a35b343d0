import Verif.Spec.HeapSession
import Verif.Spec.EditAgain
/-
The work of the computations in a session of the test driver.
-/
namespace Iodyn.Heap
open Iodyn.Eval Iodyn.Incr
variable {E M G R A B Sp : Type}

/-- A computation that stores its calls, as a computation of the driver: the answer holds the result, the work and what is stored at that time. -/
def keeping (run : HTree M → Sp → HR E M (A × Nat × Sp)) (t : HTree M) (s : Sp) : HR E M ((A × Nat × Sp) × Sp) := do
  let (a, w, s) ← run t s
  return ((a, w, s), s)

/-- The answer from scratch, together with the sequence. -/
def withTree (val : RazTree E M → P B) (t : RazTree E M) : P (RazTree E M × B) := do
  let b ← val t
  return (t, b)

/-- The answers after each edit with `batch` elements belong to those from scratch, and the work is bounded in the depth of the tree before the
edit, the number of names that the edit gives, and the size of the largest part of the tree without names after the edit. -/
def worksAfter (p : Params) (batch : Nat) (Rel : B → A → Sp → Prop) : RazTree E M → List (RazTree E M × B) → List (A × Nat × Sp) → Prop
  | _, [], [] => True
  | t, (t', b) :: l, (a, w, s) :: l' =>
    Rel b a s ∧ w ≤ (2 * (t.tree.depth + batch / (p.namegauge * p.datagauge) + 1) + 1) * t'.tree.gap ∧ worksAfter p batch Rel t' l l'
  | _, _, _ => False

/-- The answers of a session. The first one takes at most one step for each node. -/
def worksWithin (p : Params) (batch : Nat) (Rel : B → A → Sp → Prop) : List (RazTree E M × B) → List (A × Nat × Sp) → Prop
  | (t, b) :: l, (a, w, s) :: l' => Rel b a s ∧ w ≤ t.tree.size ∧ worksAfter p batch Rel t l l'
  | _, _ => False

end Iodyn.Heap
