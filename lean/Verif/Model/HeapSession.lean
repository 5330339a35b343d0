import Verif.Model.Heap
import Verif.Model.Session
import Verif.Model.IncrFold
import Verif.Model.IncrLr
/-
Model of the test harnesses (eval/src/eval_iraz.rs, eval/src/eval_raz_name_index.rs) and of the test driver
(eval/src/test_seq.rs) over the engine's store: the sequence is a handle, every edit allocates cells, and the computations reuse stored calls.
The harness as a function on values is in Verif/Model/Eval.lean and Verif/Model/Session.lean; what does not touch the store (levels, data,
`usize` arithmetic) is shared. Time measurement is left out.
-/
namespace Iodyn.Heap
open Iodyn.Eval
variable {E M G R S A : Type}

/-- `for _ in 0..n { body }`, eval/src/eval_iraz.rs:132-149. -/
def forH (n : Nat) (body : S → HR E M S) (s : S) : HR E M S :=
  match n with
  | 0 => pure s
  | n+1 => do
    let s ← body s
    forH n body s

/-- `struct EvalIRaz` (`M` = `Count`), `struct EvalRazNameIndex` (`M` = `Names`), eval/src/eval_iraz.rs:18-26,
eval/src/eval_raz_name_index.rs:19-27. -/
structure HEval (M G : Type) where
  raztree : Option (HTree M)
  names : Nat
  coord : G
  counter : Nat
  datagauge : Nat
  namegauge : Nat

/-- The cursor and the three iterators of the building loops, eval/src/eval_iraz.rs:126-131. -/
structure HIters (E : Type) where
  raz : HRaz E
  data : List E
  names : List (Option Name)
  levels : List Nat

namespace HEval

/-- `EvalIRaz::new`, eval/src/eval_iraz.rs:37-46. -/
def new (us ns : Nat) (coord : G) : HEval M G :=
  { raztree := none, names := 0, coord := coord, counter := 0, datagauge := us, namegauge := ns }

/-- `next_name`, eval/src/eval_iraz.rs:47-51. -/
def nextName (s : HEval M G) : P (HEval M G × Name) := do
  let n ← addU s.names 1
  return ({ s with names := n }, .usize s.names)

/-- The name vector of `inc_init`, eval/src/eval_iraz.rs:118-125. -/
def initNames : Nat → HEval M G → P (HEval M G × List (Option Name))
  | 0, s => .ok (s, [])
  | k+1, s => do
    let g ← subU s.namegauge 1
    let (s, n) ← s.nextName
    let (s, ns) ← initNames k s
    return (s, List.replicate g none ++ some n :: ns)

/-- The name vector of `insert` and `append`: `for _ in 0..(new_names + 1)`, eval/src/eval_iraz.rs:175-178. -/
def editNames : Nat → HEval M G → P (HEval M G × List (Option Name))
  | 0, s => .ok (s, [])
  | k+1, s => do
    let (s, n) ← s.nextName
    let (s, ns) ← editNames k s
    return (s, some n :: ns)

/-- `raz.push_left(data_iter.next().unwrap_or_else(||panic!("init")))`, eval/src/eval_iraz.rs:135, 143, 148. -/
def pushNext (s : HIters E) : HR E M (HIters E) :=
  match s.data with
  | [] => liftP (.error .explicit)
  | e :: es => pure { s with raz := (s.raz.pushLeft e).1, data := es }

/-- `raz.archive_left(level_iter.next()…, name_iter.next()…)`, eval/src/eval_iraz.rs:137. -/
def archiveNext (e : Engine) (s : HIters E) : HR E M (HIters E) :=
  match s.levels, s.names with
  | l :: ls, n :: ns => do
    let z ← s.raz.archiveLeft e l n
    return { s with raz := z, levels := ls, names := ns }
  | _, _ => liftP (.error .explicit)

/-- `raz.archive_left(level_iter.next()…, None)`, eval/src/eval_iraz.rs:145. -/
def archiveNone (e : Engine) (s : HIters E) : HR E M (HIters E) :=
  match s.levels with
  | l :: ls => do
    let z ← s.raz.archiveLeft e l none
    return { s with raz := z, levels := ls }
  | _ => liftP (.error .explicit)

variable [RazMeta E M]

/-- `inc_init`, eval/src/eval_iraz.rs:104-153, eval/src/eval_raz_name_index.rs:97-146. -/
def incInit (e : Engine) (C : Coord G E) (word : R → BitVec 64 × R) (size datagauge namegauge : Nat) (coord : G) (rng : R) :
    HR E M (HEval M G × R) := do
  let eval : HEval M G := HEval.new datagauge namegauge coord
  let a ← liftP (mulU eval.namegauge eval.datagauge)
  let names ← liftP (divU size a)
  let levels ← liftP (divU size eval.datagauge)
  let a ← liftP (mulU names eval.namegauge)
  let a ← liftP (mulU a eval.datagauge)
  let nonames ← liftP (subU size a)
  let units ← liftP (divU nonames eval.datagauge)
  let a ← liftP (mulU units eval.datagauge)
  let nounits ← liftP (subU nonames a)
  let (levVec, rng) := genLevels word levels rng
  let (eval, nameVec) ← liftP (initNames names eval)
  let (data, coord) := genData C size eval.coord
  let eval := { eval with coord := coord }
  let s : HIters E := { raz := HRaz.new, data := data, names := nameVec, levels := levVec }
  let s ← forH names (forH eval.namegauge (fun s => do
    let s ← forH eval.datagauge pushNext s
    archiveNext e s)) s
  let s ← forH units (fun s => do
    let s ← forH eval.datagauge pushNext s
    archiveNone e s) s
  let s ← forH nounits pushNext s
  let t ← s.raz.unfocus e
  return ({ eval with raztree := some t }, rng)

/-- The insertion loop, eval/src/eval_iraz.rs:184-192, 226-234: the state is the cursor, the counter and the two
iterators. -/
def editLoop (e : Engine) (datagauge namegauge : Nat) : List E → HRaz E → Nat → List Nat → List (Option Name) → HR E M (HRaz E × Nat)
  | [], raz, counter, _, _ => pure (raz, counter)
  | x :: xs, raz, counter, levs, names => do
    let raz := (raz.pushLeft x).1
    let counter ← liftP (addU counter 1)
    let a ← liftP (mulU namegauge datagauge)
    if (← liftP (remU counter a)) = 0 then
      match levs with
      | [] => liftP (.error .expect)
      | l :: levs =>
        match names with
        | [] => liftP (.error .expect)
        | n :: names => do
          let raz ← raz.archiveLeft e l n
          editLoop e datagauge namegauge xs raz counter levs names
    else if (← liftP (remU counter datagauge)) = 0 then
      match levs with
      | [] => liftP (.error .expect)
      | l :: levs => do
        let raz ← raz.archiveLeft e l none
        editLoop e datagauge namegauge xs raz counter levs names
    else editLoop e datagauge namegauge xs raz counter levs names

/-- The part that `insert` and `append` share after the cursor is made: generate levels, names and data, insert and
unfocus; eval/src/eval_iraz.rs:168-195, 210-237, eval/src/eval_raz_name_index.rs:164-191, 205-232. -/
def editAt (e : Engine) (C : Coord G E) (word : R → BitVec 64 × R) (s : HEval M G) (raz : HRaz E) (batch : Nat) (rng : R) :
    HR E M (HEval M G × R) := do
  let newLevels ← liftP (divU batch s.datagauge)
  let k ← liftP (addU newLevels 1)
  let (levVec, rng) := genLevels word k rng
  let a ← liftP (mulU s.namegauge s.datagauge)
  let newNames ← liftP (divU batch a)
  let k ← liftP (addU newNames 1)
  let (s, nameVec) ← liftP (editNames k s)
  let (data, coord) := genData C batch s.coord
  let (raz, counter) ← editLoop e s.datagauge s.namegauge data raz s.counter levVec nameVec
  let t ← raz.unfocus e
  return ({ s with coord := coord, counter := counter, raztree := some t }, rng)

/-- A computation of the harness: `self.raztree.clone().unwrap()` and then a method of the tree in the spaces `Sp` of its stored calls,
eval/src/eval_iraz.rs:240-413. -/
def comp {Sp B : Type} (run : HTree M → Sp → HR E M (B × Sp)) (S : Sp) (s : HEval M G) : HR E M (Sp × B) := do
  let t ← liftP (unwrap s.raztree)
  let (b, S) ← run t S
  return (S, b)

end HEval

/-- `EvalIRaz::insert`, eval/src/eval_iraz.rs:159-196; `BatchInsert::edit`, eval/src/actions.rs:83-90. -/
def HEval.insert (e : Engine) (C : Coord G E) (word : R → BitVec 64 × R) (batch : Nat) (s : HEval Count G) (rng : R) :
    HR E Count (HEval Count G × R) :=
  match s.raztree with
  | none => liftP (.error .explicit)
  | some tree => do
    let (p, coord) := C.pos s.coord
    let loc ← liftP (remU p tree.info.n)
    match ← tree.focus (E := E) (loc : Nat) with
    | none => liftP (.error .explicit)
    | some raz => HEval.editAt e C word { s with coord := coord, raztree := none } raz batch rng

/-- `EvalIRaz::append`, eval/src/eval_iraz.rs:202-238; `BatchAppend::edit`, eval/src/actions.rs:74-81. -/
def HEval.append (e : Engine) (C : Coord G E) (word : R → BitVec 64 × R) (batch : Nat) (s : HEval Count G) (rng : R) :
    HR E Count (HEval Count G × R) :=
  match s.raztree with
  | none => liftP (.error .explicit)
  | some tree => do
    match ← tree.focus (E := E) tree.info.n with
    | none => liftP (.error .explicit)
    | some raz => HEval.editAt e C word { s with raztree := none } raz batch rng

/-- `EvalRazNameIndex::insert`, eval/src/eval_raz_name_index.rs:152-192. The order in which the hash map enumerates its
keys is unknown; `order` stands for it. -/
def HEval.insertAtName (e : Engine) (C : Coord G E) (word : R → BitVec 64 × R) (order : List Name → List Name) (batch : Nat) (s : HEval Names G)
    (rng : R) : HR E Names (HEval Names G × R) :=
  match s.raztree with
  | none => liftP (.error .explicit)
  | some tree => do
    let keys := order tree.info.names
    let (p, coord) := C.pos s.coord
    let i ← liftP (remU p keys.length)
    let loc ← liftP (unwrap keys[i]?)
    match ← tree.focus (E := E) (Position.center loc : Position Name) with
    | none => liftP (.error .explicit)
    | some raz => HEval.editAt e C word { s with coord := coord, raztree := none } raz batch rng

/-- `EvalRazNameIndex::append`, eval/src/eval_raz_name_index.rs:198-233. -/
def HEval.appendLast (e : Engine) (C : Coord G E) (word : R → BitVec 64 × R) (batch : Nat) (s : HEval Names G) (rng : R) :
    HR E Names (HEval Names G × R) :=
  match s.raztree with
  | none => liftP (.error .explicit)
  | some tree => do
    match ← tree.focus (RazMeta.last : RazMeta.Index E Names) with
    | none => liftP (.error .explicit)
    | some raz => HEval.editAt e C word { s with raztree := none } raz batch rng

/-! ### eval/src/test_seq.rs -/

/-- The loop of the driver, eval/src/test_seq.rs:52-68, 123-141: `changes` times an edit and then a computation. The computation keeps its
stored calls. The answers, which the code only keeps from being optimised away or drops, are collected. -/
def testLoop {D' Sp B : Type} (edit : D' → R → HR E M (D' × R)) (compute : Sp → D' → HR E M (Sp × B)) : Nat → D' → Sp → R → HR E M (List B × R)
  | 0, _, _, rng => pure ([], rng)
  | n+1, d, S, rng => do
    let (d, rng) ← edit d rng
    let (S, b) ← compute S d
    let (bs, rng) ← testLoop edit compute n d S rng
    return (b :: bs, rng)

/-- `EditComputeSequence::test`, eval/src/test_seq.rs:27-77, 96-151: create, compute, then edit and compute `changes`
times. The computations do not use the random generator of the driver (`_rng` in eval/src/eval_iraz.rs:240-413). -/
def test {D' Sp B : Type} (create : R → HR E M (D' × R)) (edit : D' → R → HR E M (D' × R)) (compute : Sp → D' → HR E M (Sp × B)) (changes : Nat)
    (S : Sp) (rng : R) : HR E M (List B × R) := do
  let (d, rng) ← create rng
  let (S, b) ← compute S d
  let (bs, rng) ← testLoop edit compute changes d S rng
  return (b :: bs, rng)

end Iodyn.Heap
