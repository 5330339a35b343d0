import Verif.Model.Skiplist
import Verif.Model.Moves
/-
The search of src/skiplist.rs with a counter of the cells that it forces. The counter is not in the code: each `force_map` (src/skiplist.rs:168-170) adds 1 to it.
Apart from the counter the functions are those of `Model/Skiplist.lean` (proved in `Proof/SkipSame.lean`).
-/
namespace Iodyn.Skip
variable {K V : Type}

/-- `force_map`, src/skiplist.rs:168-170: one cell is read. -/
def forceC (σ : Store (Path K V)) (art : Loc) : Counting (Path K V) := do
  move
  still (σ.force art)

/-- `build_path_rec`, src/skiplist.rs:157-191; as `buildPathRec`. -/
def buildPathRecC (σ : Store (Path K V)) (pathLen : Nat) (key : Word) :
    Nat → Loc → List (Option Loc) → Counting (List (Option Loc) × Option (List (K × Option V)))
  | 0, _, _ => still (.error .explicit)
  | fuel+1, art, cur => do
    let path ← forceC σ art
    let res ← still (buildPathStep art path pathLen key cur.length)
    let cur := cur ++ res.paths
    match res.kvs with
    | some kvs => do
      still (assert (decide (cur.length = pathLen)))
      return (cur, some kvs)
    | none =>
      match res.next with
      | some a => buildPathRecC σ pathLen key fuel a cur
      | none => do
        still (assert (decide (cur.length = pathLen)))
        return (cur, none)

namespace Skiplist

/-- The search at src/skiplist.rs:235-240 and 288-293; as `search`. -/
def searchC (σ : Store (Path K V)) (s : Skiplist) (kHash : Word) : Counting (List (Option Loc) × Option (List (K × Option V))) :=
  match s.head with
  | none => return ([], none)
  | some a => buildPathRecC σ s.pathLen kHash (s.pathLen + 1) a []

/-- `ext`, src/skiplist.rs:232-275. -/
def extC [DecidableEq K] (e : Engine) (hash : K → Word) (σ : Store (Path K V)) (s : Skiplist) (k : K)
    (opv : Option V) : Counting (Store (Path K V) × Skiplist × Option V) := do
  let mask ← still (makeMask s.pathLen)
  let kHash := hash k &&& mask
  let (cur, oldKvs) ← s.searchC σ kHash
  let (cur, newKvs, old) :=
    match oldKvs with
    | some kvs =>
      let (new, old, found) := updateLoop k opv kvs [] none false
      (cur, if found then new else new ++ [(k, opv)], old)
    | none => (fillEmpty cur s.pathLen, [(k, opv)], none)
  let (σ, art) := σ.cell e (.pair s.name (.usize s.cntr)) { hash := kHash, kvs := newKvs, paths := cur }
  return (σ, { s with head := some art, cntr := s.cntr + 1 }, old.getD none)

/-- `rem`, src/skiplist.rs:277-279. -/
def remC [DecidableEq K] (e : Engine) (hash : K → Word) (σ : Store (Path K V)) (s : Skiplist) (k : K) :
    Counting (Store (Path K V) × Skiplist × Option V) := s.extC e hash σ k none

/-- `put`, src/skiplist.rs:281-283. -/
def putC [DecidableEq K] (e : Engine) (hash : K → Word) (σ : Store (Path K V)) (s : Skiplist) (k : K) (v : V) :
    Counting (Store (Path K V) × Skiplist) := do
  let (σ, s, _) ← s.extC e hash σ k (some v)
  return (σ, s)

/-- `get`, src/skiplist.rs:285-303. -/
def getC [DecidableEq K] (hash : K → Word) (σ : Store (Path K V)) (s : Skiplist) (k : K) : Counting (Option V) := do
  let mask ← still (makeMask s.pathLen)
  let kHash := hash k &&& mask
  let (_, res) ← s.searchC σ kHash
  match res with
  | some kvs => return findKey k kvs
  | none => return none

end Skiplist
end Iodyn.Skip
