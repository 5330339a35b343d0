import Verif.Model.SkipCost
import Verif.Spec.MapApi
import Verif.Spec.Moves
import Mathlib.Data.Nat.Log
import Mathlib.Data.List.Dedup
/-
The cells that searches in the skip list (src/skiplist.rs) force.
-/
namespace Iodyn.Skip
variable {K V : Type}

/-- One call on the model of src/skiplist.rs, with the cells that it forces; as `mapStep`. -/
def mapStepC [DecidableEq K] (e : Engine) (hash : K → Word) (σ : Store (Path K V)) (pool : List Skiplist) :
    MapOp K V → Counting (Store (Path K V) × List Skiplist × MapOut V)
  | .emp l nm => return (σ, pool ++ [Skiplist.emp l nm], .unit)
  | .clone i => do
    let s ← still (unwrap pool[i]?)
    return (σ, pool ++ [s], .unit)
  | .archive i nm => do
    let s ← still (unwrap pool[i]?)
    return (σ, pool.set i (s.archive nm), .unit)
  | .ext i k v => do
    let s ← still (unwrap pool[i]?)
    let (σ, s, old) ← s.extC e hash σ k v
    return (σ, pool.set i s, .val old)
  | .put i k v => do
    let s ← still (unwrap pool[i]?)
    let (σ, s) ← s.putC e hash σ k v
    return (σ, pool.set i s, .unit)
  | .rem i k => do
    let s ← still (unwrap pool[i]?)
    let (σ, s, old) ← s.remC e hash σ k
    return (σ, pool.set i s, .val old)
  | .get i k => do
    let s ← still (unwrap pool[i]?)
    let v ← s.getC hash σ k
    return (σ, pool, .val v)

/-- A history of calls on the model of src/skiplist.rs: the answers, each with the number of cells forced by the call. -/
def mapRunC [DecidableEq K] (e : Engine) (hash : K → Word) :
    Store (Path K V) → List Skiplist → List (MapOp K V) → P (List (MapOut V × Nat))
  | _, _, [] => .ok []
  | σ, pool, op :: ops => do
    let ((σ, pool, out), n) ← mapStepC e hash σ pool op 0
    let outs ← mapRunC e hash σ pool ops
    return (out, n) :: outs

/-- How many of the lowest `L` bits of two hashes agree before the first that does not. Specification, not code. -/
def common (L : Nat) (x y : Word) : Nat := (List.range L).countP fun i => decide (∀ t, t < i + 1 → x.getLsbD t = y.getLsbD t)

/-- How many numbers of a list are at least `b` and greater than all the numbers before them that are at least `b`. Specification, not code. -/
def leaders : Nat → List Nat → Nat
  | _, [] => 0
  | b, x :: l => if b ≤ x then 1 + leaders (x + 1) l else leaders b l

/-- What is known of a handle: its path length and the keys of its updates, the latest first. Specification, not code. -/
abbrev Past (K : Type) := Nat × List K

/-- The cells forced in a search for `k`: those of the updates of keys that share more bits with `k` than all keys updated later. Specification, not code. -/
def Past.cells (hash : K → Word) (h : Past K) (k : K) : Nat := leaders 0 (h.2.map fun k' => common h.1 (hash k) (hash k'))

/-- An update of `k`. Specification, not code. -/
def Past.update (h : Past K) (k : K) : Past K := (h.1, k :: h.2)

/-- The handles after a call. Specification, not code. -/
def Past.step (hs : List (Past K)) : MapOp K V → List (Past K)
  | .emp l _ => hs ++ [(l, [])]
  | .clone i => match hs[i]? with | none => hs | some h => hs ++ [h]
  | .archive _ _ => hs
  | .ext i k _ | .put i k _ | .rem i k => match hs[i]? with | none => hs | some h => hs.set i (h.update k)
  | .get _ _ => hs

/-- The handle that a call searches and the key, if it searches. Specification, not code. -/
def sought (hs : List (Past K)) : MapOp K V → Option (Past K × K)
  | .ext i k _ | .put i k _ | .rem i k | .get i k => hs[i]?.map fun h => (h, k)
  | _ => none

/-- All searches of a history, with what is known of the handles at that time. Specification, not code. -/
def searches : List (Past K) → List (MapOp K V) → List (Option (Past K × K))
  | _, [] => []
  | hs, op :: ops => sought hs op :: searches (Past.step hs op) ops

/-- The cells that a search forces. Specification, not code. -/
def cellsOf (hash : K → Word) : Option (Past K × K) → Nat
  | none => 0
  | some (h, k) => h.cells hash k

/-- The keys updated since the last update of `k`, each once (all keys, if `k` was not updated). Specification, not code. -/
def Past.since [DecidableEq K] (h : Past K) (k : K) : List K := (h.2.takeWhile fun k' => decide (k' ≠ k)).dedup

/-- The hash function given by a number for each key. Specification, not code. -/
def hashOf (w : K → Fin (2 ^ 64)) (k : K) : Word := BitVec.ofFin (w k)

/-- A bound for the mean of the cells that a search forces: the logarithm (base 2, rounded up) of the number of keys updated since the last update of the key, and two;
one if the key was not updated. Specification, not code. -/
def meanCells [DecidableEq K] : Option (Past K × K) → Nat
  | none => 0
  | some (h, k) => Nat.clog 2 (h.since k).length + if k ∈ h.2 then 2 else 1

end Iodyn.Skip
