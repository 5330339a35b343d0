import Verif.Model.Session
import Verif.Model.Programs
/-
The actions of the evaluation suite (eval/src/actions.rs) and the tables of the test driver (eval/src/test_seq.rs): which
times are recorded, and how computations are put together.

A world `S` stands for all that the actions pass on besides the data: the random generator, the clock and the state of the
engine. A time `τ` is whatever the clock has shown (`Duration`). The times of the driver's own spans (`full_edits`,
`full_computes`), which are recorded next to the others, are left out.
-/
namespace Iodyn.Eval
variable {D E A O I J K S T W τ : Type}

/-- `Creator::create`, eval/src/actions.rs:8-10. -/
abbrev Creator (τ S D : Type) := S → P (τ × D × S)

/-- `Editor::edit`, eval/src/actions.rs:11-13. -/
abbrev Editor (τ S D : Type) := D → S → P (τ × D × S)

/-- `Computor::compute`, eval/src/actions.rs:14-16. `W` is what is recorded, one time or a list of times. The answer, which some of
the implementations drop after they have kept it from being optimised away, is always returned. -/
abbrev Computor (W S D O : Type) := D → S → P (W × O × S)

/-- `IncrementalEmpty::create`, eval/src/actions.rs:29-34; `inc_empty` of the data is a parameter. -/
def incrementalEmpty {G : Type} (incEmpty : Nat → Nat → G → S → P (τ × D × S)) (datagauge namegauge : Nat) (coord : G) :
    Creator τ S D := fun s => incEmpty datagauge namegauge coord s

/-- `IncrementalFrom::create`, eval/src/actions.rs:43-48; `inc_from` of the data is a parameter. -/
def incrementalFrom {G : Type} (incFrom : T → Nat → Nat → G → S → P (τ × D × S)) (data : T) (datagauge namegauge : Nat) (coord : G) :
    Creator τ S D := fun s => incFrom data datagauge namegauge coord s

/-- `SingleAppend::edit`, eval/src/actions.rs:66-73; `append` of the data is a parameter. -/
def singleAppend (append : D → Nat → S → P (τ × D × S)) : Editor τ S D := fun d s => append d 1 s

/-- `BatchAppend::edit`, eval/src/actions.rs:74-82; `append` of the data is a parameter. -/
def batchAppend (append : D → Nat → S → P (τ × D × S)) (n : Nat) : Editor τ S D := fun d s => append d n s

/-- `BatchExtend::edit`, eval/src/actions.rs:92-100; `extend` of the data is a parameter. -/
def batchExtend (extend : D → Nat → S → P (τ × D × S)) (n : Nat) : Editor τ S D := fun d s => extend d n s

/-- The implementations of `compute` that return a single time, eval/src/actions.rs:137-145 (`FindMax`), 155-167 (`Native`),
170-179 (`Reverse`), 183-192 (`TreeFold`), 217-232 (`TreeFoldNL`), 257-270 (`TreeFoldG`), 284-295 (`Mapper`), 299-308 (`Folder`):
the computation of the data, which is a parameter, and its time. -/
def single (comp : D → S → P (τ × A × S)) : Computor τ S D A := fun d s => comp d s

/-- `Folder::compute` with a list of times, eval/src/actions.rs:316-325; `comp_fold` of the data with the arguments of the
`Folder` is a parameter. -/
def folder (comp : D → S → P (τ × A × S)) : Computor (List τ) S D A := fun d s => do
  let (time, answer, s) ← comp d s
  let v := [] ++ [time]
  return (v, answer, s)

/-- `FFolder::compute`, eval/src/actions.rs:362-372, `MFolder::compute`, 428-450, and `HFolder::compute`, 510-532: the fold of the
data, which is a parameter, then the final function, which is not timed. The namespaces of the latter two are part of the
parameters. -/
def ffolder (comp : D → S → P (τ × A × S)) (finish : A → S → P (O × S)) : Computor (List τ) S D O := fun d s => do
  let (time, run, s) ← comp d s
  let (o, s) ← finish run s
  let v := [] ++ [time]
  return (v, o, s)

/-- `Compute2::compute`, eval/src/actions.rs:111-126. -/
def compute2 (a : Computor (List τ) S I J) (b : Computor (List τ) S J K) : Computor (List τ) S I K := fun d s => do
  let times := []
  let (duration, data, s) ← a d s
  let times := times ++ duration
  let (duration, data, s) ← b data s
  let times := times ++ duration
  return (times, data, s)

/-- `Proj0::compute`, eval/src/actions.rs:128-133. -/
def proj0 {Q : Type} : Computor (List τ) S (Q × T) Q := fun d s => .ok ([], d.1, s)

/-- `TestResult` and `TestMResult`, eval/src/test_seq.rs:6-12, 79-86, and in addition the answers. -/
structure Table (τ W O : Type) where
  edits : List τ
  computes : List W
  answers : List O

/-- The loop of the driver, eval/src/test_seq.rs:52-68, 123-141. -/
def tableLoop (edit : Editor τ S D) (comp : Computor W S D O) : Nat → Table τ W O → D → S → P (Table τ W O × S)
  | 0, r, _, s => .ok (r, s)
  | n+1, r, d, s => do
    let (editTime, d, s) ← edit d s
    let edits := r.edits ++ [editTime]
    let (compTimes, result, s) ← comp d s
    tableLoop edit comp n ⟨edits, r.computes ++ [compTimes], r.answers ++ [result]⟩ d s

/-- `EditComputeSequence::test`, eval/src/test_seq.rs:27-77, 96-151. -/
def testTable (init : Creator τ S D) (edit : Editor τ S D) (comp : Computor W S D O) (changes : Nat) (s : S) :
    P (Table τ W O × S) := do
  let (initTime, d, s) ← init s
  let edits := [] ++ [initTime]
  let (compTimes, result, s) ← comp d s
  tableLoop edit comp changes ⟨edits, [] ++ [compTimes], [] ++ [result]⟩ d s

/-- `Duration::span` (crate time) as it is used in eval/src/eval_iraz.rs:59, 70, 81, 92, 130: the clock is read, the body is run, the clock is read
again. A clock gives any readings; that they depend on the work of the body is left out. -/
def span {X Q : Type} (read : Q → Int × Q) (body : S → P (X × S)) (w : S × Q) : P (Int × X × (S × Q)) := do
  let (before, q) := read w.2
  let (x, s) ← body w.1
  let (after, q) := read q
  return (after - before, x, (s, q))

namespace Adder
variable {G R Q : Type}

/-- The computation of the incremental experiment, eval/examples/adder.rs:231-254. The harness of the tokens gets gauges and a
generator that are not used. -/
def incComp (read : Q → Int × Q) (datagauge namegauge : Nat) (coord : G) :
    Computor (List Int) (S × Q) (EvalRaz Char Count G) (AStack Nat Nat) :=
  compute2
    (ffolder
      (fun s => span read fun w => do
        let st ← (← s.compFoldMeta (.ok ((stackAccum Token).new, none)) (lift (tokenizeStep (stackAccum Token)))
          (fun a m => a.map (fun st => tokenizeMeta (stackAccum Token) st m)))
        return (st, w))
      (fun a w => do
        let ts := tokenizeFinal (stackAccum Token) a
        let (_, toks, w) ← incrementalFrom (fun d dg ng c w => do
          let toks : EvalRaz Token Count G ← EvalRaz.incFromTail d dg ng c
          return ((), toks, w)) ts datagauge namegauge coord w
        return (toks, w)))
    (ffolder
      (fun toks => span read fun w => do
        let n ← (← toks.compFoldMeta (.ok (stackAccum Nat).new) (lift (parseStep (stackAccum Nat)))
          (fun a m => a.map (fun n => parseMeta (stackAccum Nat) n m)))
        return (n, w))
      (fun a w => .ok (a, w)))

/-- The computation of the other experiment, eval/examples/adder.rs:270-293. -/
def nonIncComp (read : Q → Int × Q) (datagauge namegauge : Nat) (coord : G) :
    Computor (List Int) (S × Q) (EvalVec Char G) (List Nat) :=
  compute2
    (ffolder
      (fun s => span read fun w => do
        let st ← s.compFold (.ok ((vecAccum Token).new, none)) (lift (tokenizeStep (vecAccum Token)))
        return (st, w))
      (fun a w => do
        let ts := tokenizeFinal (vecAccum Token) a
        let (_, toks, w) ← incrementalFrom (fun d _ _ c w => .ok ((), EvalVec.incFrom d c, w)) ts datagauge namegauge coord w
        return (toks, w)))
    (ffolder
      (fun toks => span read fun w => do
        let n ← toks.compFold (.ok (vecAccum Nat).new) (lift (parseStep (vecAccum Nat)))
        return (n, w))
      (fun a w => .ok (a, w)))

end Adder

end Iodyn.Eval
