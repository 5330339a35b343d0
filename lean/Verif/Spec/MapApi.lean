import Verif.Model.Skiplist
/-
Specification of the skip list (src/skiplist.rs): histories of map operations over several handles that share
one store, answered by plain functions `K → Option V`.
-/
namespace Iodyn.Skip
variable {K V : Type}

/-- A call of the `FinMap` interface (src/skiplist.rs:194-211) on handle number `i`, or the creation of a
handle by `emp` or `clone`. New handles get the next number. -/
inductive MapOp (K V : Type) where
  | emp (pathLen : Nat) (nm : Name)
  | clone (i : Nat)
  | archive (i : Nat) (nm : Name)
  | ext (i : Nat) (k : K) (v : Option V)
  | put (i : Nat) (k : K) (v : V)
  | rem (i : Nat) (k : K)
  | get (i : Nat) (k : K)
  deriving DecidableEq, Repr

/-- What a call returns: nothing, or an optional value (src/skiplist.rs:194-211). -/
inductive MapOut (V : Type) where
  | unit
  | val (v : Option V)
  deriving DecidableEq, Repr

/-- One call on the model of src/skiplist.rs: store and handles before and after, and the answer. -/
def mapStep [DecidableEq K] (e : Engine) (hash : K → Word) (σ : Store (Path K V)) (pool : List Skiplist) :
    MapOp K V → P (Store (Path K V) × List Skiplist × MapOut V)
  | .emp l nm => .ok (σ, pool ++ [Skiplist.emp l nm], .unit)
  | .clone i => do
    let s ← unwrap pool[i]?
    return (σ, pool ++ [s], .unit)
  | .archive i nm => do
    let s ← unwrap pool[i]?
    return (σ, pool.set i (s.archive nm), .unit)
  | .ext i k v => do
    let s ← unwrap pool[i]?
    let (σ, s, old) ← s.ext e hash σ k v
    return (σ, pool.set i s, .val old)
  | .put i k v => do
    let s ← unwrap pool[i]?
    let (σ, s) ← s.put e hash σ k v
    return (σ, pool.set i s, .unit)
  | .rem i k => do
    let s ← unwrap pool[i]?
    let (σ, s, old) ← s.rem e hash σ k
    return (σ, pool.set i s, .val old)
  | .get i k => do
    let s ← unwrap pool[i]?
    let v ← s.get hash σ k
    return (σ, pool, .val v)

/-- A history of calls on the model of src/skiplist.rs. -/
def mapRun [DecidableEq K] (e : Engine) (hash : K → Word) :
    Store (Path K V) → List Skiplist → List (MapOp K V) → P (List (MapOut V))
  | _, _, [] => .ok []
  | σ, pool, op :: ops => do
    let (σ, pool, out) ← mapStep e hash σ pool op
    let outs ← mapRun e hash σ pool ops
    return out :: outs

/-- A finite map as a function; the meaning of one handle. Specification, not code. -/
abbrev FMap (K V : Type) := K → Option V

/-- Overwrite one key. Specification, not code. -/
def FMap.update [DecidableEq K] (f : FMap K V) (k : K) (v : Option V) : FMap K V :=
  fun k' => if k' = k then v else f k'

/-- Specification of one call: the handles are independent maps (doc comments src/skiplist.rs:195-210). Calls on
missing handles leave everything unchanged. -/
def mapSpec [DecidableEq K] (fs : List (FMap K V)) : MapOp K V → List (FMap K V) × MapOut V
  | .emp _ _ => (fs ++ [(fun _ => none : FMap K V)], .unit)
  | .clone i => ((match fs[i]? with | none => fs | some f => fs ++ [f]), .unit)
  | .archive _ _ => (fs, .unit)
  | .ext i k v =>
    match fs[i]? with
    | none => (fs, .val none)
    | some f => (fs.set i (f.update k v), .val (f k))
  | .put i k v =>
    match fs[i]? with
    | none => (fs, .unit)
    | some f => (fs.set i (f.update k (some v)), .unit)
  | .rem i k =>
    match fs[i]? with
    | none => (fs, .val none)
    | some f => (fs.set i (f.update k none), .val (f k))
  | .get i k => (fs, .val ((fs[i]?.getD (fun _ => none)) k))

/-- Answers of a history by the specification. -/
def mapSpecRun [DecidableEq K] : List (FMap K V) → List (MapOp K V) → List (MapOut V)
  | _, [] => []
  | fs, op :: ops =>
    let r := mapSpec fs op
    r.2 :: mapSpecRun r.1 ops

/-- What a client has to keep track of: the names used so far, and for each handle whether it may be extended
(a clone may not until it is archived under a name of its own). -/
structure Client where
  used : List Name
  owner : List Bool

/-- May the client make this call? `emp` needs a path length from 1 to 63; handles must exist. With the
incremental engine `emp` and `archive` need a new name, and only owners may be extended. -/
def Client.allows (e : Engine) (c : Client) : MapOp K V → Prop
  | .emp l nm => 1 ≤ l ∧ l ≤ 63 ∧ (e = .dcg → nm ∉ c.used)
  | .clone i => i < c.owner.length
  | .archive i nm => i < c.owner.length ∧ (e = .dcg → nm ∉ c.used)
  | .ext i _ _ | .put i _ _ | .rem i _ => i < c.owner.length ∧ (e = .dcg → c.owner[i]? = some true)
  | .get i _ => i < c.owner.length

/-- The client's notes after a call. -/
def Client.next (c : Client) : MapOp K V → Client
  | .emp _ nm => { used := nm :: c.used, owner := c.owner ++ [true] }
  | .clone _ => { c with owner := c.owner ++ [false] }
  | .archive i nm => { used := nm :: c.used, owner := c.owner.set i true }
  | _ => c

/-- All calls of a history are allowed. -/
def Client.Good (e : Engine) : Client → List (MapOp K V) → Prop
  | _, [] => True
  | c, op :: ops => c.allows e op ∧ Client.Good e (c.next op) ops

end Iodyn.Skip
