import Verif.Model.Stack
/-
Model of the harness for archive stacks, eval/src/eval_iastack.rs. Time measurement is left out.
-/
namespace Iodyn.Eval
variable {E G : Type}

/-- `struct EvalIAStack`, eval/src/eval_iastack.rs:12-15; the metadata are `u32`, here natural numbers. -/
structure EvalIAStack (E G : Type) where
  stack : AStack E Nat
  coord : G

namespace EvalIAStack

/-- `new`, eval/src/eval_iastack.rs:23-28. -/
def new (coord : G) : EvalIAStack E G := ⟨AStack.new, coord⟩

/-- `inc_empty`, eval/src/eval_iastack.rs:33-39; the `unwrap` at 38 is of the value assigned at 36. The gauges are not used. -/
def incEmpty (_datagauge _namegauge : Nat) (coord : G) : EvalIAStack E G := new coord

/-- What `Debug` prints as a list, eval/src/eval_iastack.rs:16-20, if there are fewer than `n` elements. -/
def shown (n : Nat) (s : EvalIAStack E G) : P (List E) := s.stack.drain n

end EvalIAStack
end Iodyn.Eval
