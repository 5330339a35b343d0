import Verif.Model.Eval
/-
Model of the example programs of the evaluation suite: eval/examples/reverse.rs, filter.rs, max.rs, adder.rs.
Command line handling, time measurement and output are left out. `ns(name, f)` only prefixes names in the engine and
is a plain call.
-/
namespace Iodyn.Eval
variable {E M N G : Type}

/-- `match IRazTree::from_vec(c) {None => IRazTree::empty(), Some(t) => t}`, eval/examples/reverse.rs:78-81,
eval/examples/filter.rs:78-81. -/
def vecTree [RazMeta E N] (c : List E) : P (RazTree E N) := do
  match ← RazTree.fromVec c with
  | none => return RazTree.empty
  | some t => return t

/-- `comp_native`, eval/src/eval_vec.rs:135-147; the given function may panic. -/
def EvalVec.compNative {O : Type} (s : EvalVec E G) (f : List E → P O) : P O := f s.vec

namespace Reverse

/-- First closure, eval/examples/reverse.rs:75-82. -/
def init [RazMeta E N] (v : List E) : P (RazTree E N) := vecTree v.reverse

/-- Second closure, eval/examples/reverse.rs:83-94. -/
def bin [RazMeta E N] (t1 : RazTree E N) (lev : Nat) (nm : Option Name) (t2 : RazTree E N) : P (RazTree E N) :=
  match t1.isEmpty, t2.isEmpty with
  | true, true => .ok RazTree.empty
  | false, true => .ok t1
  | true, false => .ok t2
  | false, false => do unwrap (← t2.join lev nm t1)

/-- The incremental program, eval/examples/reverse.rs:66-97. -/
def inc [RazMeta E M] [RazMeta E N] (s : EvalRaz E M G) : P (Option (RazTree E N)) := s.compTfoldG init bin

/-- The native program, eval/examples/reverse.rs:99-115. -/
def native (s : EvalVec E G) : P (List E) := s.compNative (fun v => .ok v.reverse)

end Reverse

namespace Filter

/-- First closure, eval/examples/filter.rs:75-82. The program retains the even numbers; here any predicate. -/
def init [RazMeta E N] (p : E → Bool) (v : List E) : P (RazTree E N) := vecTree (v.filter p)

/-- Second closure, eval/examples/filter.rs:83-94. -/
def bin [RazMeta E N] (t1 : RazTree E N) (lev : Nat) (nm : Option Name) (t2 : RazTree E N) : P (RazTree E N) :=
  match t1.isEmpty, t2.isEmpty with
  | true, true => .ok RazTree.empty
  | false, true => .ok t1
  | true, false => .ok t2
  | false, false => do unwrap (← t1.join lev nm t2)

/-- The incremental program, eval/examples/filter.rs:66-97. -/
def inc [RazMeta E M] [RazMeta E N] (p : E → Bool) (s : EvalRaz E M G) : P (Option (RazTree E N)) :=
  s.compTfoldG (init p) bin

/-- The native program, eval/examples/filter.rs:99-115. -/
def native (p : E → Bool) (s : EvalVec E G) : P (List E) := s.compNative (fun v => .ok (v.filter p))

end Filter

namespace Max

/-- `Iterator::max` on the elements of a vector, eval/examples/max.rs:73, 88: the later of two elements that compare equal. -/
def vecMax (le : E → E → Bool) : List E → Option E
  | [] => none
  | a :: l => some (l.foldl (fun x y => if le x y then y else x) a)

/-- First closure, eval/examples/max.rs:73: `*v.iter().max().unwrap()`; also the native program, :88. -/
def init (le : E → E → Bool) (v : List E) : P E := unwrap (vecMax le v)

/-- Second closure, eval/examples/max.rs:74. -/
def bin (le : E → E → Bool) (m1 : E) (_lev : Nat) (_nm : Option Name) (m2 : E) : P E := .ok (EvalRaz.cmpMax le m1 m2)

/-- The incremental program, eval/examples/max.rs:64-77. -/
def inc [RazMeta E M] (le : E → E → Bool) (s : EvalRaz E M G) : P (Option E) := s.compTfoldG (init le) (bin le)

/-- The native program, eval/examples/max.rs:79-92. -/
def native (le : E → E → Bool) (s : EvalVec E G) : P E := s.compNative (init le)

end Max

namespace Adder

/-- `enum Token`, eval/examples/adder.rs:54-57. -/
inductive Token where
  | num (n : Nat)
  | opPlus
  deriving DecidableEq, Repr

/-- `c.to_digit(10)`, eval/examples/adder.rs:66, 163. -/
def toDigit (c : Char) : Option Nat := if c.isDigit then some (c.toNat - 48) else none

/-- `p*10+num` on `u32`, eval/examples/adder.rs:68, 164. -/
def grow (p num : Nat) : P Nat := if p * 10 + num ≤ u32Max then .ok (p * 10 + num) else .error .overflow

/-- `a+b` on `u32`, eval/examples/adder.rs:91, 201. -/
def addU32 (a b : Nat) : P Nat := if a + b ≤ u32Max then .ok (a + b) else .error .overflow

/-- `part.map_or(num, |p| p*10+num)`, eval/examples/adder.rs:68, 164. -/
def growOpt (part : Option Nat) (num : Nat) : P Nat :=
  match part with
  | none => .ok num
  | some p => grow p num

/-- A sequence type of the evaluation suite as used here: `IFaceSeq::{seq_push, seq_pop}` (eval/src/interface.rs:12-15)
and `IFaceArchive::archive` (:18-20) with levels and names, and `IFaceNew::new` (:23-25). -/
structure Accum (X : Type) (S : Type) where
  new : S
  push : S → X → S
  pop : S → P (Option X × S)
  archive : S → Nat → Option Name → S

/-- `IAStack<T,u32>`, eval/src/interface.rs:57-90. -/
def stackAccum (X : Type) : Accum X (AStack X Nat) where
  new := AStack.new
  push s x := s.push x
  pop s := do
    let (s, o) ← s.pop
    return (o, s)
  archive s m n := (s.archive n m).1

/-- `Vec<T>`, eval/src/interface.rs:96-116. -/
def vecAccum (X : Type) : Accum X (List X) where
  new := []
  push v x := v ++ [x]
  pop v := .ok (v.getLast?, v.dropLast)
  archive v _ _ := v

variable {S : Type}

/-- `tokenize_step`, eval/examples/adder.rs:161-181. -/
def tokenizeStep (A : Accum Token S) (st : S × Option Nat) (c : Char) : P (S × Option Nat) :=
  match toDigit c with
  | some num => do
    let bigger ← growOpt st.2 num
    if bigger > 99999 then return (A.push st.1 (.num bigger), some num)
    else return (st.1, some bigger)
  | none => do
    let ts := match st.2 with
      | some num => A.push st.1 (.num num)
      | none => st.1
    if c = '+' then return (A.push ts .opPlus, none)
    else if c = ',' then return (ts, none)
    else .error .explicit

/-- `tokenize_meta`, eval/examples/adder.rs:183-185. -/
def tokenizeMeta (A : Accum Token S) (st : S × Option Nat) (m : Nat × Option Name) : S × Option Nat :=
  (A.archive st.1 m.1 m.2, st.2)

/-- `tokenize_final`, eval/examples/adder.rs:187-191. -/
def tokenizeFinal (A : Accum Token S) (st : S × Option Nat) : S :=
  match st.2 with
  | some num => A.push st.1 (.num num)
  | none => st.1

/-- `parse_step`, eval/examples/adder.rs:193-208. -/
def parseStep (A : Accum Nat S) (n : S) (t : Token) : P S :=
  match t with
  | .num a => .ok (A.push n a)
  | .opPlus => do
    match ← A.pop n with
    | (none, n) => return n
    | (some b, n) =>
      match ← A.pop n with
      | (none, n) => return A.push n b
      | (some a, n) => do
        let c ← addU32 a b
        return A.push n c

/-- `parse_meta`, eval/examples/adder.rs:210-212. -/
def parseMeta (A : Accum Nat S) (n : S) (m : Nat × Option Name) : S := A.archive n m.1 m.2

/-- A fold (`comp_fold`, eval/src/eval_iraz.rs:367-380) whose step function may panic: the accumulator is the outcome so far. -/
def lift {X : Type} (f : S → X → P S) (a : P S) (x : X) : P S := a.bind (fun s => f s x)

/-- The incremental program (`Compute2` of two `MFolder`s, eval/src/actions.rs:102-126, 374-450; conversion by
`IncrementalFrom` of `AtTail`), eval/examples/adder.rs:218-256. The harness of the tokens gets gauges and a generator
that are not used. -/
def inc (s : EvalRaz Char Count G) (datagauge namegauge : Nat) (coord : G) : P (AStack Nat Nat) := do
  let st ← (← s.compFoldMeta (.ok ((stackAccum Token).new, none)) (lift (tokenizeStep (stackAccum Token)))
    (fun a m => a.map (fun st => tokenizeMeta (stackAccum Token) st m)))
  let ts := tokenizeFinal (stackAccum Token) st
  let toks : EvalRaz Token Count G ← EvalRaz.incFromTail ts datagauge namegauge coord
  (← toks.compFoldMeta (.ok (stackAccum Nat).new) (lift (parseStep (stackAccum Nat)))
    (fun a m => a.map (fun n => parseMeta (stackAccum Nat) n m)))

/-- The non-incremental program, eval/examples/adder.rs:257-294. `comp_fold_meta` of `EvalVec` is its `comp_fold`. -/
def nonInc (s : EvalVec Char G) (coord : G) : P (List Nat) := do
  let st ← s.compFold (.ok ((vecAccum Token).new, none)) (lift (tokenizeStep (vecAccum Token)))
  let ts := tokenizeFinal (vecAccum Token) st
  (EvalVec.incFrom ts coord).compFold (.ok (vecAccum Nat).new) (lift (parseStep (vecAccum Nat)))

/-- Step of `reference::tokenize`, eval/examples/adder.rs:65-80. -/
def refTokenizeStep (st : List Token × Option Nat) (c : Char) : P (List Token × Option Nat) :=
  match toDigit c with
  | some num => do
    let bigger ← growOpt st.2 num
    return (st.1, some bigger)
  | none => do
    let ts := match st.2 with
      | some num => st.1 ++ [.num num]
      | none => st.1
    if c = '+' then return (ts ++ [.opPlus], none)
    else if c = ',' then return (ts, none)
    else .error .explicit

/-- `reference::tokenize`, eval/examples/adder.rs:64-82. -/
def refTokenize (p : List Char) : P (List Token) := do
  let st ← p.foldl (lift refTokenizeStep) (.ok ([], none))
  return st.1

/-- Step of `reference::parse`, eval/examples/adder.rs:85-98. -/
def refParseStep (n : List Nat) (t : Token) : P (List Nat) :=
  match t with
  | .num a => .ok (n ++ [a])
  | .opPlus =>
    match n.getLast? with
    | none => .ok n
    | some b =>
      match n.dropLast.getLast? with
      | none => .ok (n.dropLast ++ [b])
      | some a => do
        let c ← addU32 a b
        return n.dropLast.dropLast ++ [c]

/-- `reference::parse`, eval/examples/adder.rs:84-99. -/
def refParse (toks : List Token) : P (List Nat) := toks.foldl (lift refParseStep) (.ok [])

end Adder
end Iodyn.Eval
