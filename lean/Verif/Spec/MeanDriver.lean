import Verif.Spec.MeanHarness
import Verif.Spec.UniqueSession
/-
`unique_elms` in sessions of the test driver: a bound of the mean work over all random levels and all hash functions, from the parameters.
-/
namespace Iodyn.Incr

/-- The archive points that an edit of the driver may add (eval/src/eval_iraz.rs:165). -/
def addsOf (p : Eval.Params) : Nat := p.batch / p.datagauge + 1

/-- Six times the logarithm of the greatest number of archive points that there may be after the edit with index `j`, and 2. -/
def driverLogs (p : Eval.Params) (j : Nat) : Nat := 6 * Nat.clog 2 (p.size / p.datagauge + (j + 1) * addsOf p + 2) + 2

/-- What each place costs, if there are `D` elements, no leaf has more than `g` of them and none occurs more than `r` times. -/
def driverSearch (L g r D : Nat) : Nat := 1 + 2 * g * (r * (Nat.clog 2 D + 2 + D / 2 ^ L))

/-- The bound for the run after the edit with index `j`. -/
def driverBound (L : Nat) (p : Eval.Params) (g r j : Nat) : Nat :=
  4 * (driverLogs p j + addsOf p) + 1 +
    (2 * driverLogs p j ^ 2 + (2 * addsOf p + 1) * driverLogs p j) * driverSearch L g r (p.size + (j + 1) * p.batch)

/-- The bound for the run of `to_list` after the edit with index `j`. -/
def driverList (p : Eval.Params) (j : Nat) : Nat := 2 * (2 * (6 * Nat.clog 2 (p.size / p.datagauge + j * addsOf p + 2) + 1) + addsOf p) + 1

end Iodyn.Incr
