import Verif.Spec.Items
import Verif.Model.Programs
/-
What the example programs should compute.
-/
namespace Iodyn.Eval
variable {E : Type}

/-- The first of the highest archive points. -/
def higher (best : Option (Nat × Option Name)) (lev : Nat) (nm : Option Name) : Option (Nat × Option Name) :=
  match best with
  | none => some (lev, nm)
  | some (l, n) => if lev ≤ l then some (l, n) else some (lev, nm)

/-- Keep the elements that satisfy `p`. Between two elements that are kept and were separated by archive points, keep
the first of the highest of these; archive points before the first and after the last kept element are dropped.
`started`: an element was kept already; `best`: the archive point to keep before the next element. -/
def thinFrom (p : E → Bool) (started : Bool) (best : Option (Nat × Option Name)) : List (Item E) → List (Item E)
  | [] => []
  | .elem e :: l =>
    if p e then (if started then (best.map (fun m => Item.mark m.1 m.2)).toList else []) ++ .elem e :: thinFrom p true none l
    else thinFrom p started best l
  | .mark lev nm :: l => thinFrom p started (higher best lev nm) l
  | .pend lev nm :: l => thinFrom p started (higher best lev nm) l

/-- See `thinFrom`. -/
def thin (p : E → Bool) (l : List (Item E)) : List (Item E) := thinFrom p false none l

namespace Adder

/-- All runs of digits of a text, as numbers, are below 100000: `cur` is the value of the run so far. -/
def ShortNums (cur : Nat) : List Char → Prop
  | [] => True
  | c :: cs =>
    match toDigit c with
    | some d => 10 * cur + d < 100000 ∧ ShortNums (10 * cur + d) cs
    | none => ShortNums 0 cs

/-- The text consists of digits, plus signs and commas. -/
def Valid (cs : List Char) : Prop := ∀ c ∈ cs, c ∈ ['0', '1', '2', '3', '4', '5', '6', '7', '8', '9', '+', ',']

/-- The number at the end of a text, if it ends with a digit. `cur` is the number just before the text. -/
def trailing (cur : Option Nat) : List Char → Option Nat
  | [] => cur
  | c :: cs =>
    match toDigit c with
    | some d => trailing (some (10 * cur.getD 0 + d)) cs
    | none => trailing none cs

/-- The sum of the numbers of a token list. -/
def total : List Token → Nat
  | [] => 0
  | .num n :: ts => n + total ts
  | .opPlus :: ts => total ts

end Adder
end Iodyn.Eval
