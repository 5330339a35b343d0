import Verif.Model.Report
/-
What the printed numbers of the experiments are meant to say, in nanoseconds.
-/
namespace Iodyn.Eval.Rep

/-- The time of the initial run and of the first `k` changes. -/
def total (times : List Int) (k : Nat) : Int := (times.take (k + 1)).sum

/-- The times are numbers of `i64`. -/
def Fits (times : List Int) : Prop := ∀ t ∈ times, -2 ^ 63 ≤ t ∧ t < 2 ^ 63

/-- Before the change `k` the incremental program was behind the other one, after it no more. -/
def Overtakes (native inc : List Int) (k : Nat) : Prop :=
  total native (k - 1) < total inc (k - 1) ∧ total inc k ≤ total native k

/-- The number of the last change of the first `n` with which the incremental program overtakes, 0 if there is none. -/
def LastOvertaking (native inc : List Int) (n c : Nat) : Prop :=
  (c = 0 ∨ 1 ≤ c ∧ c ≤ n ∧ Overtakes native inc c) ∧ ∀ k, c < k → 1 ≤ k → k ≤ n → ¬ Overtakes native inc k

/-- What is meant by the printed crossover: from this change on, and not before, the incremental program is not behind. -/
def BreakEven (native inc : List Int) (n c : Nat) : Prop :=
  (∀ k, k < c → total native k < total inc k) ∧ ∀ k, c ≤ k → k ≤ n → total inc k ≤ total native k

/-- What the printed numbers are, for the times of the initial runs and of the changes: initial times, their quotient, the mean of the
changes, the quotient of the initial time and that mean, and the last overtaking. A number is missing if it would be a quotient by zero. -/
def Says (n0 a0 : Int) (ns as : List Int) (r : Report) : Prop :=
  r.nativeInit * 1000000 = n0 ∧ r.adaptonInit * 1000000 = a0 ∧
  (∀ o, r.overhead = some o ↔ n0 ≠ 0 ∧ o * n0 = a0) ∧
  (∀ u, r.updateTime = some u ↔ as ≠ [] ∧ u * 1000000 * as.length = as.sum) ∧
  (∀ s, r.speedup = some s ↔ as.sum ≠ 0 ∧ s * as.sum = n0 * as.length) ∧
  LastOvertaking (n0 :: ns) (a0 :: as) ns.length r.crossover

end Iodyn.Eval.Rep
