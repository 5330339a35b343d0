import Verif.Model.Store
/-
Model of src/skiplist.rs, over the store of `Verif/Model/Store.lean`.
-/
namespace Iodyn

/-- `usize` on a 64-bit target; hash values `HashVal(usize)`, src/skiplist.rs:23-24. -/
abbrev Word := BitVec 64

/-- The loop of `make_mask`, src/skiplist.rs:54-57. -/
def maskLoop : Nat → Word → Word
  | 0, m => m
  | n+1, m => maskLoop n ((m <<< 1) ||| 1#64)

/-- `make_mask`, src/skiplist.rs:51-59. -/
def makeMask (len : Nat) : P Word :=
  if len > 0 then .ok (maskLoop len 0#64) else .error .assertion

/-- `x >> n` for `usize` as compiled with overflow checks: panics if `n >= 64`; src/skiplist.rs:121-122. -/
def shiftRight (x : Word) (n : Nat) : P Word :=
  if n < 64 then .ok (x >>> n) else .error .overflow

namespace Skip
variable {K V : Type}

/-- `struct Path`, src/skiplist.rs:27-32. An `Art<Rc<Path>>` is a location. -/
structure Path (K V : Type) where
  hash : Word
  kvs : List (K × Option V)
  paths : List (Option Loc)

/-- `struct Skiplist`, src/skiplist.rs:36-42. The counter is a `Nat` (no overflow after 2^64 updates). -/
structure Skiplist where
  pathLen : Nat
  name : Name
  cntr : Nat
  head : Option Loc
  deriving DecidableEq, Repr

/-- `struct ObsRes`, src/skiplist.rs:91-108. -/
structure ObsRes (K V : Type) where
  paths : List (Option Loc)
  next : Option Loc
  kvs : Option (List (K × Option V))

/-- The loop of src/skiplist.rs:125-127: the entries `i..path_len` of `paths`, `n = path_len - i` of them. -/
def copyLoop (paths : List (Option Loc)) : Nat → Nat → P (List (Option Loc))
  | 0, _ => .ok []
  | n+1, i => do
    let p ← unwrap paths[i]?
    let rest ← copyLoop paths n (i+1)
    return p :: rest

/-- The loop `'matching_bits` of src/skiplist.rs:130-153, at bit `i` with `n` bits left. -/
def matchLoop (art : Loc) (paths : List (Option Loc)) :
    Nat → Nat → Word → Word → List (Option Loc) → P (ObsRes K V)
  | 0, _, _, _, _ => .error .unreachable
  | n+1, i, key, hsh, cur => do
    let oap ← unwrap paths[i]?
    if key &&& 1#64 = hsh &&& 1#64 then
      matchLoop art paths n (i+1) (key >>> 1) (hsh >>> 1) (cur ++ [oap])
    else
      let cur := cur ++ [some art]
      match oap with
      | none => return { paths := cur ++ List.replicate n none, next := none, kvs := none }
      | some a => return { paths := cur, next := some a, kvs := none }

/-- `build_path_step`, src/skiplist.rs:110-155. -/
def buildPathStep (art : Loc) (path : Path K V) (pathLen : Nat) (keyBits : Word) (keyBiti : Nat) :
    P (ObsRes K V) := do
  let key ← shiftRight keyBits keyBiti
  let hsh ← shiftRight path.hash keyBiti
  if hsh = key then do
    let cur ← copyLoop path.paths (pathLen - keyBiti) keyBiti
    return { paths := cur, next := none, kvs := some path.kvs }
  else matchLoop art path.paths (pathLen - keyBiti) keyBiti key hsh []

/-- `build_path_rec`, src/skiplist.rs:157-191; returns the cursor's paths and the key-value pairs found.
Each call adds at least one path to the cursor; `fuel` bounds the recursion depth and is `path_len + 1` in
the callers, which always suffices (the `0` case is not reached, see `rec_spec`). -/
def buildPathRec (σ : Store (Path K V)) (pathLen : Nat) (key : Word) :
    Nat → Loc → List (Option Loc) → P (List (Option Loc) × Option (List (K × Option V)))
  | 0, _, _ => .error .explicit
  | fuel+1, art, cur => do
    let path ← σ.force art
    let res ← buildPathStep art path pathLen key cur.length
    let cur := cur ++ res.paths
    match res.kvs with
    | some kvs => do
      assert (decide (cur.length = pathLen))
      return (cur, some kvs)
    | none =>
      match res.next with
      | some a => buildPathRec σ pathLen key fuel a cur
      | none => do
        assert (decide (cur.length = pathLen))
        return (cur, none)

/-- `Cursor::fill_empty`, src/skiplist.rs:73-77. -/
def fillEmpty (cur : List (Option Loc)) (bits : Nat) : List (Option Loc) :=
  cur ++ List.replicate (bits - cur.length) none

/-- The loop of src/skiplist.rs:245-254 over the old pairs: new pairs, old value, `found_key`. -/
def updateLoop [DecidableEq K] (k : K) (opv : Option V) :
    List (K × Option V) → List (K × Option V) → Option (Option V) → Bool →
      List (K × Option V) × Option (Option V) × Bool
  | [], new, old, found => (new, old, found)
  | (k0, v0) :: rest, new, old, found =>
    if k = k0 then updateLoop k opv rest (new ++ [(k0, opv)]) (some v0) true
    else updateLoop k opv rest (new ++ [(k0, v0)]) old found

namespace Skiplist

/-- `emp`, src/skiplist.rs:218-225. -/
def emp (pathLen : Nat) (n : Name) : Skiplist := { pathLen, name := n, cntr := 1, head := none }

/-- `archive`, src/skiplist.rs:227-230. -/
def archive (s : Skiplist) (n : Name) : Skiplist := { s with name := n, cntr := 0 }

/-- The search at src/skiplist.rs:235-240 and 288-293 (shared by `ext` and `get`). -/
def search (σ : Store (Path K V)) (s : Skiplist) (kHash : Word) :
    P (List (Option Loc) × Option (List (K × Option V))) :=
  match s.head with
  | none => .ok ([], none)
  | some a => buildPathRec σ s.pathLen kHash (s.pathLen + 1) a []

/-- `ext`, src/skiplist.rs:232-275. `hash` is `my_hash` (lines 14-20). -/
def ext [DecidableEq K] (e : Engine) (hash : K → Word) (σ : Store (Path K V)) (s : Skiplist) (k : K)
    (opv : Option V) : P (Store (Path K V) × Skiplist × Option V) := do
  let mask ← makeMask s.pathLen
  let kHash := hash k &&& mask
  let (cur, oldKvs) ← s.search σ kHash
  let (cur, newKvs, old) :=
    match oldKvs with
    | some kvs =>
      let (new, old, found) := updateLoop k opv kvs [] none false
      (cur, if found then new else new ++ [(k, opv)], old)
    | none => (fillEmpty cur s.pathLen, [(k, opv)], none)
  let (σ, art) := σ.cell e (.pair s.name (.usize s.cntr)) { hash := kHash, kvs := newKvs, paths := cur }
  return (σ, { s with head := some art, cntr := s.cntr + 1 }, old.getD none)

/-- `rem`, src/skiplist.rs:277-279. -/
def rem [DecidableEq K] (e : Engine) (hash : K → Word) (σ : Store (Path K V)) (s : Skiplist) (k : K) :
    P (Store (Path K V) × Skiplist × Option V) := s.ext e hash σ k none

/-- `put`, src/skiplist.rs:281-283. -/
def put [DecidableEq K] (e : Engine) (hash : K → Word) (σ : Store (Path K V)) (s : Skiplist) (k : K) (v : V) :
    P (Store (Path K V) × Skiplist) := do
  let (σ, s, _) ← s.ext e hash σ k (some v)
  return (σ, s)

/-- The loop of src/skiplist.rs:296-299. -/
def findKey [DecidableEq K] (k : K) : List (K × Option V) → Option V
  | [] => none
  | (k0, v) :: rest => if k = k0 then v else findKey k rest

/-- `get`, src/skiplist.rs:285-303. -/
def get [DecidableEq K] (hash : K → Word) (σ : Store (Path K V)) (s : Skiplist) (k : K) : P (Option V) := do
  let mask ← makeMask s.pathLen
  let kHash := hash k &&& mask
  let (_, res) ← s.search σ kHash
  match res with
  | some kvs => return findKey k kvs
  | none => return none

end Skiplist
end Skip
end Iodyn
