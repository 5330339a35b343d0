import Verif.Spec.IncrObs
/-
Runs without memoisation, with a record of all calls made; and what is new in one record against another.
-/
namespace Iodyn.Incr
variable {V W Q O K R A : Type}

/-- Calls in the order in which they are made, each with its name if it is to be memoised, its arguments, what it depends on, its result and
the calls that it makes itself. -/
inductive Calls (V W Q O K R : Type) where
  | nil
  | cons (n : Option Name) (key : K) (reads : List (Loc × V)) (facts : List (Fact W Q O)) (res : R) (sub rest : Calls V W Q O K R)

/-- What a run without memoisation gives: its value, what it depends on, its calls and the cells of the namespace. -/
structure Rec (V W Q O K R A : Type) where
  val : A
  reads : List (Loc × V)
  facts : List (Fact W Q O)
  calls : Calls V W Q O K R
  mem : Store W

/-- Going on after a step without calls. -/
def thenT (rd : List (Loc × V)) (fs : List (Fact W Q O)) : Option (P (Rec V W Q O K R A)) → Option (P (Rec V W Q O K R A))
  | some (.ok o) => some (.ok { o with reads := rd ++ o.reads, facts := fs ++ o.facts })
  | x => x

/-- Going on after a call. -/
def thenCall (n : Option Name) (key : K) (c : Rec V W Q O K R R) : Option (P (Rec V W Q O K R A)) → Option (P (Rec V W Q O K R A))
  | some (.ok o) => some (.ok { o with reads := c.reads ++ o.reads, facts := c.facts ++ o.facts, calls := .cons n key c.reads c.facts c.val c.calls o.calls })
  | x => x

/-- Running a body without memoisation, with a record. -/
def texec (view : Q → Loc → W → P O) (callee : K → Store W → Option (P (Rec V W Q O K R R))) (σ : Store V) :
    OProg V W Q O K R A → Store W → Option (P (Rec V W Q O K R A))
  | .ret a, τ => some (.ok ⟨a, [], [], .nil, τ⟩)
  | .fail q, _ => some (.error q)
  | .force l k, τ =>
    match σ.cells l with
    | none => some (.error .unreachable)
    | some v => thenT [(l, v)] [] (texec view callee σ (k v) τ)
  | .look l q k, τ =>
    match τ.cells l with
    | none => some (.error .unreachable)
    | some w =>
      match view q l w with
      | .error p => some (.error p)
      | .ok o => thenT [] [.seen l q o] (texec view callee σ (k o) τ)
  | .alloc n v k, τ => thenT [] [.made (τ.cell .dcg n v).2 v] (texec view callee σ (k (τ.cell .dcg n v).2) (τ.cell .dcg n v).1)
  | .call n key k, τ =>
    match callee key τ with
    | none => none
    | some (.error q) => some (.error q)
    | some (.ok c) => thenCall n key c (texec view callee σ (k c.val) c.mem)

/-- The function without memoisation, with a record; calls nested at most `n` deep, `none` if that does not suffice. -/
def trun (view : Q → Loc → W → P O) (body : K → OProg V W Q O K R R) (σ : Store V) : Nat → K → Store W → Option (P (Rec V W Q O K R R))
  | 0, _, _ => none
  | n+1, key, τ => texec view (trun view body σ n) σ (body key) τ

/-- All calls with a name, at any depth. -/
def Calls.entries : Calls V W Q O K R → List (Name × OEntry V W Q O K R)
  | .nil => []
  | .cons n key rd fs r sub rest => (n.toList.map fun n => (n, ⟨key, rd, fs, r⟩)) ++ sub.entries ++ rest.entries

/-- All calls, at any depth. -/
def Calls.all : Calls V W Q O K R → List (Option Name × OEntry V W Q O K R)
  | .nil => []
  | .cons n key rd fs r sub rest => (n, ⟨key, rd, fs, r⟩) :: (sub.all ++ rest.all)

/-- The names of all calls with a name. -/
def Calls.names (c : Calls V W Q O K R) : List Name := c.entries.map (·.1)

/-- The cells made. -/
def madeBy : List (Fact W Q O) → List (Loc × W)
  | [] => []
  | .made l v :: fs => (l, v) :: madeBy fs
  | .seen .. :: fs => madeBy fs

deriving instance DecidableEq for Fact
deriving instance DecidableEq for OEntry

/-- The number of calls that are not among the old ones, nor below one that is. -/
def Calls.fresh [DecidableEq V] [DecidableEq W] [DecidableEq Q] [DecidableEq O] [DecidableEq K] [DecidableEq R] (old : List (Name × OEntry V W Q O K R)) :
    Calls V W Q O K R → Nat
  | .nil => 0
  | .cons n key rd fs r sub rest => (if (n.toList.any fun n => (n, ⟨key, rd, fs, r⟩) ∈ old) then 0 else 1 + sub.fresh old) + rest.fresh old

/-- A run uses each name for one call and makes each cell once. -/
def Rec.Once (c : Rec V W Q O K R A) : Prop := c.calls.names.Nodup ∧ ((madeBy c.facts).map (·.1)).Nodup

/-- Names of calls that the last run did not use any more do not come back. The list has the earlier runs, the last one first. -/
def Calls.NoReturn (past : List (Calls V W Q O K R)) (c : Calls V W Q O K R) : Prop :=
  match past with
  | [] => True
  | last :: older => ∀ m ∈ c.names, m ∉ last.names → ∀ d ∈ older, m ∉ d.names

/-- A namespace after running one function again and again, over any stores and with any arguments, and the calls that these runs make
without memoisation (the last run first). -/
inductive RanAs [DecidableEq V] [DecidableEq W] [DecidableEq O] [DecidableEq K] (view : Q → Loc → W → P O) (body : K → OProg V W Q O K R R) :
    OSpace V W Q O K R → List (Calls V W Q O K R) → Prop
  | start : RanAs view body OSpace.empty []
  | run {s : OSpace V W Q O K R} {past : List (Calls V W Q O K R)} {σ : Store V} {n : Nat} {key : K} {c : Rec V W Q O K R R} {o : OOut V W Q O K R R}
    (hs : RanAs view body s past) (hc : trun view body σ n key s.mem = some (.ok c)) (h1 : c.Once) (hr : c.calls.NoReturn past)
    (ho : orun view body σ n key s = some (.ok o)) : RanAs view body o.space (c.calls :: past)

/-- The calls of the last run. -/
def lastCalls (past : List (Calls V W Q O K R)) : List (Name × OEntry V W Q O K R) := (past.head?.map Calls.entries).getD []

end Iodyn.Incr
