import Verif.Spec.IncrLr
import Verif.Spec.UniqueWork
/-
The work of folds whose accumulator carries something from leaf to leaf, as the open number of `tokenize` (eval/examples/adder.rs:161-181).
-/
namespace Iodyn.Incr
variable {D M O : Type}

/-! ### Texts -/

/-- The digits are those of ASCII. -/
def digitOf (c : Char) : Option Nat := if '0' ≤ c ∧ c ≤ '9' then some (c.toNat - '0'.toNat) else none

/-- The number that is not yet complete after one more character. A number ends at a sign that is not a digit; if it becomes longer than
five digits, the last digit begins another one. -/
def openStep (o : Option Nat) (c : Char) : Option Nat :=
  match digitOf c with
  | none => none
  | some d => if 10 * o.getD 0 + d > 99999 then some d else some (10 * o.getD 0 + d)

/-- The number that is not yet complete after a text. -/
def openAfter (o : Option Nat) (text : List Char) : Option Nat := text.foldl openStep o

/-- Some number or sign is complete with this character. -/
def completes (o : Option Nat) (c : Char) : Prop :=
  match digitOf c with
  | none => c = '+' ∨ o.isSome = true
  | some d => 10 * o.getD 0 + d > 99999

/-- Some number or sign becomes complete within the text. -/
def Speaks : Option Nat → List Char → Prop
  | _, [] => False
  | o, c :: text => completes o c ∨ Speaks (openStep o c) text

/-! ### Trees -/

/-- What is carried past a tree, if leaves change it like this. -/
def carried (adv : D → O → O) : O → Tree D → O
  | o, .nil => o
  | o, .node _ _ d l r => if l.isSome || r.isSome then carried adv (carried adv o l) r else adv d o

/-- A branch with the name of its memoised call, and the name and the value that are carried to its first leaf. -/
def pointWith (n : Option Name) (c : Option Name × O) (v : Tree D) : List (Name × (Option Name × O) × Tree D) :=
  match n, v with
  | some m, .node .. => [(m, c, v)]
  | _, _ => []

/-- All branches below named nodes. -/
def pointsWith (adv : D → O → O) : Option Name × O → Tree D → List (Name × (Option Name × O) × Tree D)
  | _, .nil => []
  | c, .node _ n _ l r => pointWith (n.map .forkL) c l ++ pointWith (n.map .forkR) (n, carried adv c.2 l) r ++ pointsWith adv c l ++
    pointsWith adv (n, carried adv c.2 l) r

/-- The nodes of a tree that are not below a branch that is already known, with what is carried to it. -/
def costWith [DecidableEq D] [DecidableEq O] (adv : D → O → O) (old : List (Name × (Option Name × O) × Tree D)) : Option Name × O → Tree D → Nat
  | _, .nil => 0
  | c, .node _ n _ l r => 1 +
    (if (pointWith (n.map .forkL) c l).any (· ∈ old) then 0 else costWith adv old c l) +
    (if (pointWith (n.map .forkR) (n, carried adv c.2 l) r).any (· ∈ old) then 0 else costWith adv old (n, carried adv c.2 l) r)

/-- The open number after a node. -/
def openNode : TreeData Char M → Option Nat → Option Nat
  | .leaf text, o => openAfter o text
  | _, o => o

/-- In the text of each leaf, entered with what is open there, something becomes complete. -/
def Speaking : Option Nat → Tree (TreeData Char M) → Prop
  | _, .nil => True
  | o, .node _ _ d l r => (l = .nil → r = .nil → ∃ text, d = .leaf text ∧ Speaks o text) ∧ Speaking o l ∧ Speaking (carried openNode o l) r

/-- In the text of each leaf some number ends. -/
def Separated : Tree (TreeData Char M) → Prop
  | .nil => True
  | .node _ _ d l r => (l = .nil → r = .nil → ∃ text, d = .leaf text ∧ ∃ c ∈ text, digitOf c = none) ∧ Separated l ∧ Separated r

/-- The second tree is the first one with another subtree in some place, past which the same is carried as before; `k` nodes are above
the place or in the new subtree. -/
inductive Swapped (adv : D → O → O) : O → Tree D → Tree D → Nat → Prop
  | here {o : O} {v w : Tree D} (h : carried adv o v = carried adv o w) : Swapped adv o v w w.size
  | left {o : O} {lv lv' : Nat} {n : Name} {d d' : D} {l l' r : Tree D} {k : Nat} (hr : r ≠ .nil) (h : Swapped adv o l l' k) :
    Swapped adv o (.node lv (some n) d l r) (.node lv' (some n) d' l' r) (k + 1)
  | right {o : O} {lv lv' : Nat} {n : Name} {d d' : D} {l r r' : Tree D} {k : Nat} (hl : l ≠ .nil) (h : Swapped adv (carried adv o l) r r' k) :
    Swapped adv o (.node lv (some n) d l r) (.node lv' (some n) d' l r') (k + 1)

/-- What is carried past the nodes of a view, see `openNode`. -/
abbrev openAt : Heap.Tr × TreeData Char M → Option Nat → Option Nat := fun d => openNode d.2

end Iodyn.Incr
