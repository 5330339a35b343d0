import Verif.Model.HeapSession
/-
Model of the test driver for building (eval/src/test_build.rs), on values and over the engine's store. Time measurement is left out.
-/
namespace Iodyn

/-- `BuildTest::test`, eval/src/test_build.rs:28-60: for every size a sequence is built and edited once; the sequence is dropped before the
next one is built. The sizes `self.multiplier.powi(i) as usize` (:35), powers of a floating point number, are the parameter. `look` stands for
what can be seen of the sequence after building and after the edit; the code itself keeps the times only. -/
def Eval.buildTest {D O R : Type} (create : Nat → R → P (D × R)) (edit : D → R → P (D × R)) (look : D → P O) : List Nat → R → P (List (O × O) × R)
  | [], rng => .ok ([], rng)
  | size :: sizes, rng => do
    let (d, rng) ← create size rng
    let a ← look d
    let (d, rng) ← edit d rng
    let b ← look d
    let (rest, rng) ← buildTest create edit look sizes rng
    return ((a, b) :: rest, rng)

/-- `BuildTest::test`, eval/src/test_build.rs:28-60, as above with the engine's store: all sequences are built in the same store, and every one
uses the names from 0 on again (eval/src/eval_iraz.rs:37-51). -/
def Heap.buildTest {E M D O R : Type} (create : Nat → R → HR E M (D × R)) (edit : D → R → HR E M (D × R)) (look : D → HR E M O) :
    List Nat → R → HR E M (List (O × O) × R)
  | [], rng => pure ([], rng)
  | size :: sizes, rng => do
    let (d, rng) ← create size rng
    let a ← look d
    let (d, rng) ← edit d rng
    let b ← look d
    let (rest, rng) ← buildTest create edit look sizes rng
    return ((a, b) :: rest, rng)

end Iodyn
