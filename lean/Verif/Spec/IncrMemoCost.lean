import Verif.Spec.IncrMemoFrom
/-
How much of `memo_from` is run again.
-/
namespace Iodyn.Incr
open Iodyn.Heap (Tr Head Cell Mem ASt)
variable {D E M : Type}

/-- An archive point in the store: its handle, level and elements. -/
abbrev HPt (E : Type) := Head × Nat × List E

/-- The handle of a list of archive points, from the top. -/
def hd (r : List (HPt E)) : Option Head := r.head?.map (·.1)

/-- These archive points are in the store. -/
def PView (σ : Mem D (Nat × List E)) : List (HPt E) → Prop
  | [] => True
  | p :: r => σ.cells p.1.main = some (.body p.2 (hd r)) ∧ PView σ r

/-- The names of archive points. -/
def pn (l : List (HPt E)) : List Name := l.filterMap (·.1.name)

/-- A namespace after converting stacks one after the other from the same end; the list has their archive points, those of the last one
first. When a stack is converted, the earlier ones are still in the store, its names are different, and no name comes back that went away
with the last stack. -/
inductive ConvHistory [RazMeta E M] [DecidableEq E] [DecidableEq M] (w : End) : FSpace E M → List (List (HPt E)) → Prop
  | start : ConvHistory w Space.empty []
  | conv {s : FSpace E M} {H : List (List (HPt E))} {σ : Mem (TreeData E M) (Nat × List E)} {cur : List E} {a : List (HPt E)} {n : Nat} {o}
    (hs : ConvHistory w s H) (hv : PView σ a) (hall : ∀ b ∈ H, PView σ b) (hn : (pn a).Nodup)
    (hr : ∀ x ∈ pn a, ∀ b ∈ H, x ∈ pn b → ∃ b, H.head? = some b ∧ x ∈ pn b)
    (ho : memoFromRun w σ n ⟨cur, hd a⟩ s = some (.ok o)) : ConvHistory w o.space (a :: H)

/-- The number of archive points that come before no larger one: for `AtTail` those with at least the levels of all above them, for
`AtHead` those with a greater level than all above them. `above` are the levels above the list. -/
def records (w : End) : (above : List Nat) → List (HPt E) → Nat
  | _, [] => 0
  | above, p :: r => (if above.all fun l => !w.below p.2.1 l then 1 else 0) + records w (p.2.1 :: above) r

end Iodyn.Incr
