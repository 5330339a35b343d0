import Verif.Spec.MeanDriver
import Verif.Spec.MeanUnique
import Verif.Spec.OpenBatches
/-
`tokenize` (eval/examples/adder.rs:161-185) again and again: what it finds, and bounds of the mean work over all random levels, from texts alone.
-/
namespace Iodyn.Incr
open Iodyn.Eval.Adder (Token)

/-- The tokens that are complete with this character. -/
def tokensAt (o : Option Nat) (c : Char) : List Token :=
  match digitOf c with
  | some d => if 10 * o.getD 0 + d > 99999 then [.num (10 * o.getD 0 + d)] else []
  | none => o.toList.map .num ++ if c = '+' then [.opPlus] else []

/-- All tokens that are complete within the text. -/
def tokensIn : Option Nat → List Char → List Token
  | _, [] => []
  | o, c :: text => tokensAt o c ++ tokensIn (openStep o c) text

/-- The text has only digits, plus signs and commas. -/
def readable (text : List Char) : Bool := text.all fun c => (digitOf c).isSome || c == '+' || c == ','

/-- In each part of the text between archive points some token becomes complete and some number ends; `s` and `d`: this is already so in the first part. -/
def legibleText : Option Nat → Bool → Bool → List (Item Char) → Bool
  | _, s, d, [] => s && d
  | o, s, d, .elem c :: l => legibleText (openStep o c) (s || !(tokensAt o c).isEmpty) (d || (digitOf c).isNone) l
  | o, s, d, .mark _ _ :: l => s && d && legibleText o false false l
  | o, s, d, .pend _ _ :: l => s && d && legibleText o false false l

/-- The text is legible after each edit of the batch. -/
def legibleList (items : List (Item Char)) : List (Nat × List (LOp Char)) → Bool
  | [] => true
  | (i, ops) :: l => legibleText none false false (editList i ops items) && legibleList (editList i ops items) l

/-- The text is legible after each edit of each batch. -/
def legibleLists (items : List (Item Char)) : List (List (Nat × List (LOp Char))) → Bool
  | [] => true
  | es :: l => legibleList items es && legibleLists (editLists items es) l

/-- Behind the handle are the tokens of the text, and the same number is open. -/
def Tokens (text : List Char) (τ : Heap.Mem (TreeData Token Count) (Nat × List Token)) (a : Heap.ASt Token × Option Nat) : Prop :=
  ∃ b, HoldsTokens τ a b ∧ b.1.elems.reverse = tokensIn none text ∧ b.2 = openAfter none text

/-- A bound for `tokenize` after a batch: `6 * (edits * (6 * log + 2) + points) + 1`. -/
def tokLog (items : List (Item Char)) (es : List (Nat × List (LOp Char))) : Nat :=
  6 * (es.length * (sixLogs (peak items es) + 2) + pointsOf es) + 1

/-- The same for all batches. -/
def tokLogs (items : List (Item Char)) : List (List (Nat × List (LOp Char))) → List Nat
  | [] => []
  | es :: l => tokLog items es :: tokLogs (editLists items es) l

/-- The bound for the run of `tokenize` in a session of the driver, after the edit with index `j`. -/
def driverTok (p : Eval.Params) (j : Nat) : Nat := 2 * (3 * (6 * Nat.clog 2 (p.size / p.datagauge + j * addsOf p + 2) + 1) + addsOf p) + 1

end Iodyn.Incr
