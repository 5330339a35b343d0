import Verif.Model.Generators
import Verif.Spec.MeanTokens
/-
Random texts of the adder: which generators the counts are about, and what a text needs to be legible.
-/
namespace Iodyn.Eval.Adder

/-- A generator (`coord: StdRng`, eval/examples/adder.rs:158) that gives the numbers dealt in `e`, one after the other. The state is how many it has given. -/
def dealt {T : Nat} (e : Fin T → Fin (2 ^ 64) × Fin 10) (k : Nat) : BitVec 64 × Nat :=
  (if h : k < T then BitVec.ofNat 64 (e ⟨k, h⟩).1 else 0#64, k + 1)

/-- With each number the digit is dealt that will be chosen after it, if one is chosen then. -/
def picked {T : Nat} (e : Fin T → Fin (2 ^ 64) × Fin 10) (k : Nat) : Fin 10 × Nat :=
  (if h : k - 1 < T then (e ⟨k - 1, h⟩).2 else 0, k)

/-- The coordinating generator of the adder with these numbers and digits. -/
def deal {T : Nat} (e : Fin T → Fin (2 ^ 64) × Fin 10) : Coord Nat Char := langCoord (dealt e) (picked e)

/-- Each part of the text between archive points has a plus sign; `b`: the first part already has one. -/
def plusText : Bool → List (Item Char) → Bool
  | b, [] => b
  | b, .elem c :: l => plusText (b || c == '+') l
  | b, _ :: l => b && plusText false l

end Iodyn.Eval.Adder
