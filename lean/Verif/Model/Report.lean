import Verif.Model.Actions
import Mathlib.Algebra.Order.Ring.Rat
/-
What the example programs make of the tables of the test driver: the numbers that they print and the rows of the data files
(eval/examples/{max,filter,reverse,to_string,adder,crossover,unique_elms,tree_to_list}.rs). The text of the output, the plot scripts
and gnuplot are left out.

Times in milliseconds are `f64` in the code; here they are rational numbers, so rounding is left out. The quotient with a divisor of
zero, which is infinite or not a number in the code, is `none`.
-/
namespace Iodyn.Eval.Rep

/-- `d.num_nanoseconds().unwrap()`, e.g. eval/examples/max.rs:122-125; a `Duration` is its number of nanoseconds. -/
def nanoseconds (d : Int) : P Int := if -2 ^ 63 ≤ d ∧ d < 2 ^ 63 then .ok d else .error .unwrapNone

/-- `v[i]`, e.g. eval/examples/max.rs:130, 135. -/
def index {A : Type} (v : List A) (i : Nat) : P A :=
  match v[i]? with
  | some a => .ok a
  | none => .error .outOfRange

/-- `+` of `i64`, eval/examples/adder.rs:341, 343. -/
def addI (a b : Int) : P Int := if -2 ^ 63 ≤ a + b ∧ a + b < 2 ^ 63 then .ok (a + b) else .error .overflow

/-- `n as f64 / 1_000_000.0`, e.g. eval/examples/max.rs:131. -/
def ms (n : Int) : Rat := (n : Rat) / 1000000

/-- A quotient, e.g. eval/examples/max.rs:140, 152, 159. -/
def quotient (a b : Rat) : Option Rat := if b = 0 then none else some (a / b)

/-- `result.computes.iter().map(|d|d.num_nanoseconds().unwrap()).collect()`, e.g. eval/examples/max.rs:122-125. -/
def column (times : List Int) : P (List Int) := times.mapM nanoseconds

/-- The columns of the computations of the adder, eval/examples/adder.rs:335-336: the first two times of each row. -/
def columns2 (rows : List (List Int)) : P (List (Int × Int)) := rows.mapM fun d => do
  let a ← index d 0
  let a ← nanoseconds a
  let b ← index d 1
  let b ← nanoseconds b
  return (a, b)

/-- The loop that fills `native_changes` and `adapton_changes`, e.g. eval/examples/max.rs:127-134. -/
def changeTimes (native inc : List Int) (changes : Nat) : P (List Rat × List Rat) :=
  (List.range (changes + 1)).foldlM (fun v i => do
    let nc ← index native i
    let ac ← index inc i
    return (v.1 ++ [ms nc], v.2 ++ [ms ac])) ([], [])

/-- The loop of the adder, eval/examples/adder.rs:338-345. -/
def changeTimes2 (native inc : List (Int × Int)) (changes : Nat) : P (List Rat × List Rat) :=
  (List.range (changes + 1)).foldlM (fun v i => do
    let n ← index native i
    let nc ← addI n.1 n.2
    let a ← index inc i
    let ac ← addI a.1 a.2
    return (v.1 ++ [ms nc], v.2 ++ [ms ac])) ([], [])

/-- The step of the fold for `crossover`, e.g. eval/examples/max.rs:142-147. -/
def crossStep (st : Rat × Rat × Nat) (x : (Rat × Rat) × Nat) : Rat × Rat × Nat :=
  let newN := st.1 + x.1.1
  let newA := st.2.1 + x.1.2
  let newCross := if st.1 < st.2.1 ∧ newN ≥ newA then x.2 + 1 else st.2.2
  (newN, newA, newCross)

/-- `crossover`, e.g. eval/examples/max.rs:141-147. -/
def crossover (nativeInit adaptonInit : Rat) (nativeChanges adaptonChanges : List Rat) : Nat :=
  ((nativeChanges.zip adaptonChanges).zipIdx.foldl crossStep (nativeInit, adaptonInit, 0)).2.2

/-- The numbers that are printed, e.g. eval/examples/max.rs:149-159. The crossover 0 is printed as "off chart" there, and as 0 by the
adder (eval/examples/adder.rs:366). -/
structure Report where
  nativeInit : Rat
  adaptonInit : Rat
  overhead : Option Rat
  updateTime : Option Rat
  crossover : Nat
  speedup : Option Rat

/-- From the initial run and the changes to the report, e.g. eval/examples/max.rs:135-159. -/
def summarise (nativeChanges adaptonChanges : List Rat) : P Report := do
  let adaptonInit ← index adaptonChanges 0
  let nativeInit ← index nativeChanges 0
  let adaptonChanges := adaptonChanges.eraseIdx 0
  let nativeChanges := nativeChanges.eraseIdx 0
  let updateTime := quotient adaptonChanges.sum adaptonChanges.length
  return {
    nativeInit := nativeInit
    adaptonInit := adaptonInit
    overhead := quotient adaptonInit nativeInit
    updateTime := updateTime
    crossover := crossover nativeInit adaptonInit nativeChanges adaptonChanges
    speedup := updateTime.bind (quotient nativeInit) }

/-- The report on two sessions, eval/examples/max.rs:120-159, filter.rs:144-183, reverse.rs:144-183, to_string.rs:106-145. -/
def report (native inc : List Int) (changes : Nat) : P Report := do
  let native ← column native
  let inc ← column inc
  let v ← changeTimes native inc changes
  summarise v.1 v.2

/-- The report of the adder, eval/examples/adder.rs:330-367. -/
def report2 (native inc : List (List Int)) (changes : Nat) : P Report := do
  let native ← columns2 native
  let inc ← columns2 inc
  let v ← changeTimes2 native inc changes
  summarise v.1 v.2

/-- The rows of one experiment in the data file: number, cumulative time of the edits, cumulative time of the computations. The loop is
eval/examples/max.rs:181-185; also max.rs:188-192, filter.rs:205-216, reverse.rs:205-216, to_string.rs:167-178, crossover.rs:121-132,
unique_elms.rs:222-226, 230-234, 238-242, where the sum of both columns is a fourth column. tree_to_list.rs:339-400 has the second
column only. -/
def dataRows (edits comps : List Int) (changes : Nat) : P (List (Nat × Rat × Rat)) := do
  let r ← (List.range changes).foldlM (fun (st : Rat × Rat × List (Nat × Rat × Rat)) i => do
    let e ← index edits i
    let en := st.1 + ms e
    let c ← index comps i
    let rn := st.2.1 + ms c
    return (en, rn, st.2.2 ++ [(i, en, rn)])) (0, 0, [])
  return r.2.2

/-- The rows of one experiment of the adder: number, cumulative times of the edits, of tokenize and of parse,
eval/examples/adder.rs:389-394, 397-402. -/
def dataRows2 (edits : List Int) (comps : List (Int × Int)) (changes : Nat) : P (List (Nat × Rat × Rat × Rat)) := do
  let r ← (List.range changes).foldlM (fun (st : Rat × Rat × Rat × List (Nat × Rat × Rat × Rat)) i => do
    let e ← index edits i
    let en := st.1 + ms e
    let c ← index comps i
    let tn := st.2.1 + ms c.1
    let pn := st.2.2.1 + ms c.2
    return (en, tn, pn, st.2.2.2 ++ [(i, en, tn, pn)])) (0, 0, 0, [])
  return r.2.2.2

end Iodyn.Eval.Rep
