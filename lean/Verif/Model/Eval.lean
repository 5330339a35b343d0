import Verif.Model.Raz
import Verif.Model.MemoFrom
/-
Model of the test harnesses of the evaluation suite: eval/src/eval_iraz.rs (`EvalIRaz`),
eval/src/eval_raz_name_index.rs (`EvalRazNameIndex`), eval/src/eval_vec.rs (`EvalVec`).
Time measurement is left out. `usize` arithmetic panics on overflow (debug builds) and on division by zero.
-/
namespace Iodyn.Eval
variable {E M G R : Type}

/-- `a * b` on `usize`, e.g. eval/src/eval_iraz.rs:108. -/
def mulU (a b : Nat) : P Nat := if a * b ≤ usizeMax then .ok (a * b) else .error .overflow
/-- `a + b` on `usize`, e.g. eval/src/eval_iraz.rs:49, 186. -/
def addU (a b : Nat) : P Nat := if a + b ≤ usizeMax then .ok (a + b) else .error .overflow
/-- `a - b` on `usize`, e.g. eval/src/eval_iraz.rs:110. -/
def subU (a b : Nat) : P Nat := if b ≤ a then .ok (a - b) else .error .overflow
/-- `a / b` on `usize`, e.g. eval/src/eval_iraz.rs:109. -/
def divU (a b : Nat) : P Nat := if b = 0 then .error .overflow else .ok (a / b)
/-- `a % b` on `usize`, e.g. eval/src/eval_iraz.rs:162. -/
def remU (a b : Nat) : P Nat := if b = 0 then .error .overflow else .ok (a % b)

/-- The coordinating random generator (`coord: G`, eval/src/eval_iraz.rs:22) with the two ways it is used: elements
(`gen_iter()`, :126) and positions (`gen::<usize>()`, :162). -/
structure Coord (G E : Type) where
  elem : G → E × G
  pos : G → Nat × G

/-- `coord.gen_iter().take(n).collect()`, eval/src/eval_iraz.rs:126, 179. -/
def genData (C : Coord G E) : Nat → G → List E × G
  | 0, g => ([], g)
  | n+1, g =>
    let (e, g) := C.elem g
    let (es, g) := genData C n g
    (e :: es, g)

/-- `for _ in 0..n { lev_vec.push(gen_level(rng)) }`, eval/src/eval_iraz.rs:115-117, 171-173; `word` draws a random
number from `rng` and `gen_level` is `genBranchLevel` (src/tree_cursor.rs:15). -/
def genLevels (word : R → BitVec 64 × R) : Nat → R → List Nat × R
  | 0, r => ([], r)
  | n+1, r =>
    let (w, r) := word r
    let (ls, r) := genLevels word n r
    (genBranchLevel w :: ls, r)

/-- `for _ in 0..n { body }`, eval/src/eval_iraz.rs:132-149. -/
def forN {S : Type} (n : Nat) (body : S → P S) (s : S) : P S :=
  match n with
  | 0 => .ok s
  | n+1 => do
    let s ← body s
    forN n body s

/-- `struct EvalIRaz` (`M` = `Count`), `struct EvalRazNameIndex` (`M` = `Names`), eval/src/eval_iraz.rs:18-26,
eval/src/eval_raz_name_index.rs:19-27. -/
structure EvalRaz (E M G : Type) where
  raztree : Option (RazTree E M)
  names : Nat
  coord : G
  counter : Nat
  datagauge : Nat
  namegauge : Nat

/-- The cursor and the three iterators of the building loops, eval/src/eval_iraz.rs:126-131. -/
structure Iters (E M : Type) where
  raz : Raz E M
  data : List E
  names : List (Option Name)
  levels : List Nat

namespace EvalRaz

/-- `EvalIRaz::new`, eval/src/eval_iraz.rs:37-46. -/
def new (us ns : Nat) (coord : G) : EvalRaz E M G :=
  { raztree := none, names := 0, coord := coord, counter := 0, datagauge := us, namegauge := ns }

/-- `next_name`, eval/src/eval_iraz.rs:47-51. -/
def nextName (s : EvalRaz E M G) : P (EvalRaz E M G × Name) := do
  let n ← addU s.names 1
  return ({ s with names := n }, .usize s.names)

variable [RazMeta E M]

/-- `inc_empty`, eval/src/eval_iraz.rs:57-63, eval/src/eval_raz_name_index.rs:50-56. -/
def incEmpty (datagauge namegauge : Nat) (coord : G) : P (EvalRaz E M G) := do
  let t ← (Raz.new : Raz E M).unfocus
  return { (EvalRaz.new datagauge namegauge coord : EvalRaz E M G) with raztree := some t }

/-- `inc_from` of a `Raz`, eval/src/eval_iraz.rs:68-74, eval/src/eval_raz_name_index.rs:61-67. -/
def incFromRaz (data : Raz E M) (datagauge namegauge : Nat) (coord : G) : P (EvalRaz E M G) := do
  let t ← data.unfocus
  return { (EvalRaz.new datagauge namegauge coord : EvalRaz E M G) with raztree := some t }

/-- `inc_from` of a `RazTree`, eval/src/eval_iraz.rs:79-85, eval/src/eval_raz_name_index.rs:72-78. -/
def incFromTree (data : RazTree E M) (datagauge namegauge : Nat) (coord : G) : EvalRaz E M G :=
  { (EvalRaz.new datagauge namegauge coord : EvalRaz E M G) with raztree := some data }

/-- `inc_from` of an `AtTail`, eval/src/eval_iraz.rs:90-96, eval/src/eval_raz_name_index.rs:83-89. -/
def incFromTail (data : AStack E Nat) (datagauge namegauge : Nat) (coord : G) : P (EvalRaz E M G) := do
  let t ← memoFromTail data
  return { (EvalRaz.new datagauge namegauge coord : EvalRaz E M G) with raztree := some t }

/-- `raz.push_left(data_iter.next().unwrap_or_else(||panic!("init")))`, eval/src/eval_iraz.rs:135, 143, 148. -/
def pushNext (s : Iters E M) : P (Iters E M) :=
  match s.data with
  | [] => .error .explicit
  | e :: es => .ok { s with raz := (s.raz.pushLeft e).1, data := es }

/-- `raz.archive_left(level_iter.next()…, name_iter.next()…)`, eval/src/eval_iraz.rs:137. -/
def archiveNext (s : Iters E M) : P (Iters E M) :=
  match s.levels, s.names with
  | l :: ls, n :: ns => .ok { s with raz := s.raz.archiveLeft l n, levels := ls, names := ns }
  | _, _ => .error .explicit

/-- `raz.archive_left(level_iter.next()…, None)`, eval/src/eval_iraz.rs:145. -/
def archiveNone (s : Iters E M) : P (Iters E M) :=
  match s.levels with
  | l :: ls => .ok { s with raz := s.raz.archiveLeft l none, levels := ls }
  | _ => .error .explicit

/-- The name vector of `inc_init`, eval/src/eval_iraz.rs:118-125. -/
def initNames : Nat → EvalRaz E M G → P (EvalRaz E M G × List (Option Name))
  | 0, s => .ok (s, [])
  | k+1, s => do
    let g ← subU s.namegauge 1
    let (s, n) ← s.nextName
    let (s, ns) ← initNames k s
    return (s, List.replicate g none ++ some n :: ns)

/-- `inc_init`, eval/src/eval_iraz.rs:104-153, eval/src/eval_raz_name_index.rs:97-146. -/
def incInit (C : Coord G E) (word : R → BitVec 64 × R) (size datagauge namegauge : Nat) (coord : G) (rng : R) :
    P (EvalRaz E M G × R) := do
  let eval : EvalRaz E M G := EvalRaz.new datagauge namegauge coord
  let names ← divU size (← mulU eval.namegauge eval.datagauge)
  let levels ← divU size eval.datagauge
  let nonames ← subU size (← mulU (← mulU names eval.namegauge) eval.datagauge)
  let units ← divU nonames eval.datagauge
  let nounits ← subU nonames (← mulU units eval.datagauge)
  let (levVec, rng) := genLevels word levels rng
  let (eval, nameVec) ← initNames names eval
  let (data, coord) := genData C size eval.coord
  let eval := { eval with coord := coord }
  let s : Iters E M := { raz := Raz.new, data := data, names := nameVec, levels := levVec }
  let s ← forN names (forN eval.namegauge (fun s => do
    let s ← forN eval.datagauge pushNext s
    archiveNext s)) s
  let s ← forN units (fun s => do
    let s ← forN eval.datagauge pushNext s
    archiveNone s) s
  let s ← forN nounits pushNext s
  let t ← s.raz.unfocus
  return ({ eval with raztree := some t }, rng)

/-- The name vector of `insert` and `append`: `for _ in 0..(new_names + 1)`, eval/src/eval_iraz.rs:175-178. -/
def editNames : Nat → EvalRaz E M G → P (EvalRaz E M G × List (Option Name))
  | 0, s => .ok (s, [])
  | k+1, s => do
    let (s, n) ← s.nextName
    let (s, ns) ← editNames k s
    return (s, some n :: ns)

/-- The insertion loop, eval/src/eval_iraz.rs:184-192, 226-234: the state is the cursor, the counter and the two
iterators. -/
def editLoop (datagauge namegauge : Nat) : List E → Raz E M → Nat → List Nat → List (Option Name) → P (Raz E M × Nat)
  | [], raz, counter, _, _ => .ok (raz, counter)
  | e :: es, raz, counter, levs, names => do
    let raz := (raz.pushLeft e).1
    let counter ← addU counter 1
    if (← remU counter (← mulU namegauge datagauge)) = 0 then
      match levs with
      | [] => .error .expect
      | l :: levs =>
        match names with
        | [] => .error .expect
        | n :: names => editLoop datagauge namegauge es (raz.archiveLeft l n) counter levs names
    else if (← remU counter datagauge) = 0 then
      match levs with
      | [] => .error .expect
      | l :: levs => editLoop datagauge namegauge es (raz.archiveLeft l none) counter levs names
    else editLoop datagauge namegauge es raz counter levs names

/-- The part that `insert` and `append` share after the cursor is made: generate levels, names and data, insert and
unfocus; eval/src/eval_iraz.rs:168-195, 210-237, eval/src/eval_raz_name_index.rs:164-191, 205-232. -/
def editAt (C : Coord G E) (word : R → BitVec 64 × R) (s : EvalRaz E M G) (raz : Raz E M) (batch : Nat) (rng : R) :
    P (EvalRaz E M G × R) := do
  let newLevels ← divU batch s.datagauge
  let (levVec, rng) := genLevels word (← addU newLevels 1) rng
  let newNames ← divU batch (← mulU s.namegauge s.datagauge)
  let (s, nameVec) ← editNames (← addU newNames 1) s
  let (data, coord) := genData C batch s.coord
  let (raz, counter) ← editLoop s.datagauge s.namegauge data raz s.counter levVec nameVec
  let t ← raz.unfocus
  return ({ s with coord := coord, counter := counter, raztree := some t }, rng)

/-- `cmp::max(e1, e2)`, eval/src/eval_iraz.rs:248: the second one if they compare equal. `le` is the element order. -/
def cmpMax (le : E → E → Bool) (a b : E) : E := if le a b then b else a

/-- `comp_max`, eval/src/eval_iraz.rs:240-252, eval/src/eval_raz_name_index.rs:236-247. -/
def compMax (le : E → E → Bool) (s : EvalRaz E M G) : P (Option E) := do
  let t ← unwrap s.raztree
  t.foldUp (fun e => e) (fun a b => cmpMax le a b)

/-- `comp_tfold`, eval/src/eval_iraz.rs:303-316, eval/src/eval_raz_name_index.rs:249-263. -/
def compTfold {O : Type} (s : EvalRaz E M G) (init : E → O) (bin : O → O → O) : P (Option O) := do
  let t ← unwrap s.raztree
  t.foldUp init bin

/-- `comp_tfoldnl`, eval/src/eval_iraz.rs:318-333. -/
def compTfoldNl {O : Type} (s : EvalRaz E M G) (init : E → O) (bin : O → O → O) (binnl : O → Nat → Option Name → O → O) :
    P (Option O) := do
  let t ← unwrap s.raztree
  t.foldUpNl init bin binnl

/-- `comp_tfoldg`, eval/src/eval_iraz.rs:335-349; the given functions may panic. -/
def compTfoldG {O : Type} (s : EvalRaz E M G) (init : List E → P O) (bin : O → Nat → Option Name → O → P O) : P (Option O) := do
  let t ← unwrap s.raztree
  t.foldUpGauged init bin

/-- `comp_map`, eval/src/eval_iraz.rs:351-365, eval/src/eval_raz_name_index.rs:265-279. -/
def compMap {F N : Type} [RazMeta F N] (s : EvalRaz E M G) (f : E → F) : P (RazTree F N) := do
  let t ← unwrap s.raztree
  t.map f

/-- `comp_fold`, eval/src/eval_iraz.rs:367-380, eval/src/eval_raz_name_index.rs:281-294. -/
def compFold {O : Type} (s : EvalRaz E M G) (accum : O) (f : O → E → O) : P O := do
  let t ← unwrap s.raztree
  return t.foldLrMeta accum f (fun a _ => a)

/-- `comp_fold_meta`, eval/src/eval_iraz.rs:382-396, eval/src/eval_raz_name_index.rs:296-310. -/
def compFoldMeta {O : Type} (s : EvalRaz E M G) (accum : O) (f : O → E → O) (n : O → Nat × Option Name → O) : P O := do
  let t ← unwrap s.raztree
  return t.foldLrMeta accum f n

end EvalRaz

namespace EvalIRaz

/-- `EvalIRaz::insert`, eval/src/eval_iraz.rs:159-196. -/
def insert (C : Coord G E) (word : R → BitVec 64 × R) (s : EvalRaz E Count G) (batch : Nat) (rng : R) :
    P (EvalRaz E Count G × R) :=
  match s.raztree with
  | none => .error .explicit
  | some tree => do
    let (p, coord) := C.pos s.coord
    let loc ← remU p tree.info.n
    match ← tree.focus (loc : Nat) with
    | none => .error .explicit
    | some raz => EvalRaz.editAt C word { s with coord := coord, raztree := none } raz batch rng

/-- `EvalIRaz::append`, eval/src/eval_iraz.rs:202-238. -/
def append (C : Coord G E) (word : R → BitVec 64 × R) (s : EvalRaz E Count G) (batch : Nat) (rng : R) :
    P (EvalRaz E Count G × R) :=
  match s.raztree with
  | none => .error .explicit
  | some tree => do
    match ← tree.focus tree.info.n with
    | none => .error .explicit
    | some raz => EvalRaz.editAt C word { s with raztree := none } raz batch rng

end EvalIRaz

namespace EvalRazNameIndex

/-- `EvalRazNameIndex::insert`, eval/src/eval_raz_name_index.rs:152-192. The order in which the hash map enumerates its
keys is unknown; `order` stands for it. -/
def insert (C : Coord G E) (word : R → BitVec 64 × R) (order : List Name → List Name) (s : EvalRaz E Names G) (batch : Nat)
    (rng : R) : P (EvalRaz E Names G × R) :=
  match s.raztree with
  | none => .error .explicit
  | some tree => do
    let keys := order tree.info.names
    let (p, coord) := C.pos s.coord
    let loc ← unwrap keys[← remU p keys.length]?
    match ← tree.focus (Position.center loc : Position Name) with
    | none => .error .explicit
    | some raz => EvalRaz.editAt C word { s with coord := coord, raztree := none } raz batch rng

/-- `EvalRazNameIndex::append`, eval/src/eval_raz_name_index.rs:198-233. -/
def append (C : Coord G E) (word : R → BitVec 64 × R) (s : EvalRaz E Names G) (batch : Nat) (rng : R) :
    P (EvalRaz E Names G × R) :=
  match s.raztree with
  | none => .error .explicit
  | some tree => do
    match ← tree.focus (RazMeta.last : RazMeta.Index E Names) with
    | none => .error .explicit
    | some raz => EvalRaz.editAt C word { s with raztree := none } raz batch rng

end EvalRazNameIndex

/-- `struct EvalVec`, eval/src/eval_vec.rs:11-14. -/
structure EvalVec (E G : Type) where
  vec : List E
  coord : G

namespace EvalVec

/-- `inc_empty`, eval/src/eval_vec.rs:30-39. -/
def incEmpty (coord : G) : EvalVec E G := ⟨[], coord⟩

/-- `inc_from`, eval/src/eval_vec.rs:41-50. -/
def incFrom (data : List E) (coord : G) : EvalVec E G := ⟨data, coord⟩

/-- `inc_init`, eval/src/eval_vec.rs:54-68; the loop of pushes is a left fold. -/
def incInit (C : Coord G E) (size : Nat) (coord : G) : EvalVec E G :=
  let (data, coord) := genData C size coord
  ⟨data.foldl (fun v e => v ++ [e]) [], coord⟩

/-- `extend`, eval/src/eval_vec.rs:71-80. -/
def extend (C : Coord G E) (s : EvalVec E G) (batch : Nat) : EvalVec E G :=
  let (data, coord) := genData C batch s.coord
  ⟨s.vec ++ data, coord⟩

/-- `append`, eval/src/eval_vec.rs:81-93. -/
def append (C : Coord G E) (s : EvalVec E G) (batch : Nat) : EvalVec E G :=
  let (data, coord) := genData C batch s.coord
  ⟨data.foldl (fun v e => v ++ [e]) s.vec, coord⟩

/-- `Vec::insert(loc, val)`, eval/src/eval_vec.rs:102: panics beyond the end. -/
def vecInsert (v : List E) (loc : Nat) (e : E) : P (List E) :=
  if loc ≤ v.length then .ok (v.take loc ++ e :: v.drop loc) else .error .outOfRange

/-- `insert`, eval/src/eval_vec.rs:95-107: the data is generated before the position. -/
def insert (C : Coord G E) (s : EvalVec E G) (batch : Nat) : P (EvalVec E G) := do
  let (data, coord) := genData C batch s.coord
  let (p, coord) := C.pos coord
  let loc ← remU p s.vec.length
  let v ← data.foldlM (fun v e => vecInsert v loc e) s.vec
  return ⟨v, coord⟩

/-- `comp_max`, eval/src/eval_vec.rs:109-119: `Iterator::max` keeps the later of two elements that compare equal. -/
def compMax (le : E → E → Bool) (s : EvalVec E G) : Option E :=
  match s.vec with
  | [] => none
  | a :: l => some (l.foldl (fun x y => if le x y then y else x) a)

/-- `comp_rev`, eval/src/eval_vec.rs:121-133. -/
def compRev (s : EvalVec E G) : List E := s.vec.reverse

/-- `comp_map`, eval/src/eval_vec.rs:152-164. -/
def compMap {F : Type} (s : EvalVec E G) (f : E → F) : List F := s.vec.map f

/-- `comp_fold` and `comp_fold_meta` (which ignores the metadata function), eval/src/eval_vec.rs:166-194. -/
def compFold {O : Type} (s : EvalVec E G) (accum : O) (f : O → E → O) : O := s.vec.foldl f accum

end EvalVec

end Iodyn.Eval
