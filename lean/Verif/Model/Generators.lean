import Verif.Model.Eval
/-
Model of the random values of the evaluation suite: eval/src/types.rs and `Lang` of eval/examples/adder.rs.
`word` draws a number (`rng.gen::<usize>()`), as in Model/Eval.
-/
namespace Iodyn.Eval
variable {R : Type}

/-- `GenSmall::rand`, eval/src/types.rs:7-11. -/
def genSmall (word : R → BitVec 64 × R) (rng : R) : Nat × R := ((word rng).1.toNat % 100, (word rng).2)

/-- `Gen10k::rand`, eval/src/types.rs:26-30. -/
def gen10k (word : R → BitVec 64 × R) (rng : R) : Nat × R := ((word rng).1.toNat % 10000, (word rng).2)

/-- `GenSetElm::rand`, eval/src/types.rs:54-58. -/
def genSetElm (word : R → BitVec 64 × R) (rng : R) : Nat × R := ((word rng).1.toNat, (word rng).2)

/-- The numbers that `Elm::hash` passes to the hasher, one after the other; eval/src/types.rs:43-50. -/
def elmHash (e : Nat) : List Nat := List.replicate 100 e

/-- `Add` of `GenSmall` and `Gen10k`, eval/src/types.rs:12-17, 31-36. -/
def genAdd (a b : Nat) : P Nat := addU a b

namespace Adder

/-- The slice at eval/examples/adder.rs:47. -/
def digitChars : List Char := ['0', '1', '2', '3', '4', '5', '6', '7', '8', '9']

/-- `Lang::rand`, eval/examples/adder.rs:42-50. `choose` draws an index of the slice: `rng.choose` (crate rand) gives `None` only for an empty slice. -/
def langRand (word : R → BitVec 64 × R) (choose : R → Fin 10 × R) (rng : R) : Char × R :=
  let (w, rng) := word rng
  let k := w.toNat % 7
  if k = 0 then ('+', rng)
  else if k ≤ 3 then (',', rng)
  else
    let (i, rng) := choose rng
    (digitChars[i.1]!, rng)

/-- The coordinating generator of the adder (`EvalIRaz<Lang,StdRng>`, eval/examples/adder.rs:313): characters and positions (eval/src/eval_iraz.rs:162). -/
def langCoord (word : R → BitVec 64 × R) (choose : R → Fin 10 × R) : Coord R Char where
  elem := langRand word choose
  pos rng := ((word rng).1.toNat, (word rng).2)

end Adder
end Iodyn.Eval
