import Verif.Model.Programs
import Verif.Model.AccumLists
import Verif.Model.Skiplist
/-
Model of the test driver of the evaluation suite (eval/src/test_seq.rs) with the actions it is given
(eval/src/actions.rs), and of the example programs eval/examples/unique_elms.rs, tree_to_list.rs, to_string.rs and
crossover.rs. Command line handling, time measurement, traces and output are left out. `ns(name, f)` only prefixes names
in the engine and is a plain call. Each kind of cell has a store of its own.
-/
namespace Iodyn.Eval
open Iodyn.Skip
variable {E M G R T S O D : Type}

/-- `comp_fold_archive`, eval/src/eval_iraz.rs:397-413. -/
def EvalRaz.compFoldArchive (s : EvalRaz E M G) (accum : O) (f : O → E → O) (ff : O → Option Name → O) (n : O → Nat → O) :
    P O := do
  let t ← unwrap s.raztree
  return t.foldLrArchive accum f ff n

/-! ### eval/examples/unique_elms.rs -/
namespace UniqueElms

/-- `{let mut t = Skiplist::emp(pathlen, name_unit()); t.archive(name_unit()); t}`, eval/examples/unique_elms.rs:99. -/
def start (pathLen : Nat) : Skiplist := (Skiplist.emp pathLen .unit).archive .unit

/-- `|mut a,&GenSetElm(e)|{ a.put(e, ()); a }`, eval/examples/unique_elms.rs:100. The accumulator is the store and the skip
list, or the panic so far. `GenSetElm` is a transparent wrapper. -/
def step [DecidableEq E] (e : Engine) (hash : E → Word) (a : P (Store (Path E Unit) × Skiplist)) (x : E) :
    P (Store (Path E Unit) × Skiplist) := do
  let (σ, s) ← a
  s.put e hash σ x ()

/-- `|mut a,nm|{ match nm { None => a, Some(nm) => { a.archive(nm); a }}}`, eval/examples/unique_elms.rs:101. -/
def fin (a : P (Store (Path E Unit) × Skiplist)) (nm : Option Name) : P (Store (Path E Unit) × Skiplist) := do
  let (σ, s) ← a
  match nm with
  | none => return (σ, s)
  | some nm => return (σ, s.archive nm)

/-- The computation of the first experiment (`HFolder`, eval/src/actions.rs:452-532; the final function is the identity),
eval/examples/unique_elms.rs:97-104. -/
def inc [DecidableEq E] (e : Engine) (hash : E → Word) (pathLen : Nat) (σ : Store (Path E Unit)) (s : EvalRaz E M G) :
    P (Store (Path E Unit) × Skiplist) := do
  (← s.compFoldArchive (.ok (σ, start pathLen)) (step e hash) fin (fun a _lev => a))

/-- The computation of the second experiment, eval/examples/unique_elms.rs:116-122. A `HashMap` is the function from keys to
values. -/
def native [DecidableEq E] (s : EvalVec E G) : E → Option Unit :=
  s.compFold (fun _ => none) (fun m e k => if k = e then some () else m k)

end UniqueElms

/-! ### eval/examples/tree_to_list.rs -/
namespace TreeToList

/-- `to_list_step`, eval/examples/tree_to_list.rs:95-97. The accumulator is the store and the list, or the panic so far. -/
def step (I : SeqImpl T S E) (a : P (T × S)) (e : E) : P (T × S) := do
  let (σ, s) ← a
  let s ← I.push s e
  return (σ, s)

/-- `to_list_meta`, eval/examples/tree_to_list.rs:99-101. -/
def meta' (I : SeqImpl T S E) (a : P (T × S)) (m : Nat × Option Name) : P (T × S) := do
  let (σ, s) ← a
  I.archive σ s m.1 m.2

/-- The computation (`MFolder`, eval/src/actions.rs:374-450; the final function is the identity) on a tree,
eval/examples/tree_to_list.rs:106-190; also the third experiment of eval/examples/unique_elms.rs:134-140. -/
def inc (I : SeqImpl T S E) (σ : T) (s : EvalRaz E M G) : P (T × S) := do
  (← s.compFoldMeta (.ok (σ, I.new)) (step I) (meta' I))

/-- The computation on a vector, eval/examples/tree_to_list.rs:191-207. `comp_fold_meta` of `EvalVec` is its
`comp_fold`. -/
def native (I : SeqImpl T S E) (σ : T) (s : EvalVec E G) : P (T × S) :=
  s.compFold (.ok (σ, I.new)) (step I)

end TreeToList

/-! ### eval/src/test_seq.rs -/

/-- The loop of the driver, eval/src/test_seq.rs:52-68, 123-141: `changes` times an edit and then a computation, which may
use the engine's store. The answers, which the code only keeps from being optimised away or drops, are collected together
with the store at that time. -/
def testLoop (edit : D → R → P (D × R)) (compute : T → D → P (T × O)) : Nat → D → T → R → P (List (T × O) × R)
  | 0, _, _, rng => .ok ([], rng)
  | n+1, d, σ, rng => do
    let (d, rng) ← edit d rng
    let a ← compute σ d
    let (as, rng) ← testLoop edit compute n d a.1 rng
    return (a :: as, rng)

/-- `EditComputeSequence::test`, eval/src/test_seq.rs:27-77, 96-151: create, compute, then edit and compute `changes`
times. The computations do not use the random generator of the driver (`_rng` in eval/src/eval_iraz.rs:240-413,
eval/src/eval_vec.rs:109-194). -/
def test (create : R → P (D × R)) (edit : D → R → P (D × R)) (compute : T → D → P (T × O)) (changes : Nat) (σ : T) (rng : R) :
    P (List (T × O) × R) := do
  let (d, rng) ← create rng
  let a ← compute σ d
  let (as, rng) ← testLoop edit compute changes d a.1 rng
  return (a :: as, rng)

/-- A computation that does not use the store, e.g. `FindMax`, eval/src/actions.rs:136-151. -/
def plainly (f : D → P O) (σ : T) (d : D) : P (T × O) := do
  let o ← f d
  return (σ, o)

/-- The parameters of `IncrementalInit` and the batch size of the edits, eval/src/actions.rs:50-57, 75, 84. -/
structure Params where
  size : Nat
  datagauge : Nat
  namegauge : Nat
  batch : Nat
  changes : Nat

/-- `IncrementalInit::create` of `EvalIRaz`, eval/src/actions.rs:58-63. -/
def createRaz [RazMeta E M] (C : Coord G E) (word : R → BitVec 64 × R) (p : Params) (coord : G) (rng : R) :
    P (EvalRaz E M G × R) := EvalRaz.incInit C word p.size p.datagauge p.namegauge coord rng

/-- `BatchInsert::edit` of `EvalIRaz`, eval/src/actions.rs:83-90. -/
def insertRaz (C : Coord G E) (word : R → BitVec 64 × R) (p : Params) (s : EvalRaz E Count G) (rng : R) :
    P (EvalRaz E Count G × R) := EvalIRaz.insert C word s p.batch rng

/-- `BatchAppend::edit` of `EvalIRaz`, eval/src/actions.rs:74-81. -/
def appendRaz (C : Coord G E) (word : R → BitVec 64 × R) (p : Params) (s : EvalRaz E Count G) (rng : R) :
    P (EvalRaz E Count G × R) := EvalIRaz.append C word s p.batch rng

/-- `IncrementalInit::create` of `EvalVec`, eval/src/actions.rs:58-63. -/
def createVec (C : Coord G E) (p : Params) (coord : G) (rng : R) : P (EvalVec E G × R) :=
  .ok (EvalVec.incInit C p.size coord, rng)

/-- `BatchInsert::edit` of `EvalVec`, eval/src/actions.rs:83-90. -/
def insertVec (C : Coord G E) (p : Params) (s : EvalVec E G) (rng : R) : P (EvalVec E G × R) := do
  let s ← EvalVec.insert C s p.batch
  return (s, rng)

/-- `BatchAppend::edit` of `EvalVec`, eval/src/actions.rs:74-81. -/
def appendVec (C : Coord G E) (p : Params) (s : EvalVec E G) (rng : R) : P (EvalVec E G × R) :=
  .ok (EvalVec.append C s p.batch, rng)

end Iodyn.Eval
