import Verif.Model.IncrObs
import Verif.Spec.IncrLr
/-
The same bodies without memoisation, and namespaces in which one function was run again and again.
-/
namespace Iodyn.Incr
open Iodyn.Heap (HTree)
open Iodyn.Skip (Skiplist)
variable {V W Q O K R A E M : Type}

/-- Running a body without memoisation: all calls are plain ones. -/
def sexec (view : Q → Loc → W → P O) (callee : K → Store W → Option (P (R × Store W))) (σ : Store V) :
    OProg V W Q O K R A → Store W → Option (P (A × Store W))
  | .ret a, τ => some (.ok (a, τ))
  | .fail q, _ => some (.error q)
  | .force l k, τ =>
    match σ.cells l with
    | none => some (.error .unreachable)
    | some v => sexec view callee σ (k v) τ
  | .look l q k, τ =>
    match τ.cells l with
    | none => some (.error .unreachable)
    | some w =>
      match view q l w with
      | .error p => some (.error p)
      | .ok o => sexec view callee σ (k o) τ
  | .alloc n v k, τ => sexec view callee σ (k (τ.cell .dcg n v).2) (τ.cell .dcg n v).1
  | .call _ key k, τ =>
    match callee key τ with
    | none => none
    | some (.error q) => some (.error q)
    | some (.ok (r, τ')) => sexec view callee σ (k r) τ'

/-- The function without memoisation, calls nested at most `n` deep; `none` if that does not suffice. -/
def srun (view : Q → Loc → W → P O) (body : K → OProg V W Q O K R R) (σ : Store V) : Nat → K → Store W → Option (P (R × Store W))
  | 0, _, _ => none
  | n+1, key, τ => sexec view (srun view body σ n) σ (body key) τ

/-- Without memoisation the function ends with this result, or panic, and these cells. -/
def Plainly (view : Q → Loc → W → P O) (body : K → OProg V W Q O K R R) (σ : Store V) (key : K) (τ : Store W) (r : P (R × Store W)) : Prop :=
  ∃ n, ∀ m, n ≤ m → srun view body σ m key τ = some r

/-- The namespaces that come from running one function again and again, with any arguments and over any stores. Between two runs any cells
of the namespace may be changed. -/
inductive Rerun [DecidableEq V] [DecidableEq W] [DecidableEq O] [DecidableEq K] (view : Q → Loc → W → P O) (body : K → OProg V W Q O K R R) :
    OSpace V W Q O K R → Prop
  | start : Rerun view body OSpace.empty
  | run {s : OSpace V W Q O K R} {σ : Store V} {n : Nat} {key : K} {o : OOut V W Q O K R R} (hs : Rerun view body s)
    (ho : orun view body σ n key s = some (.ok o)) : Rerun view body o.space
  | disturb {s : OSpace V W Q O K R} {m : Store W} (hs : Rerun view body s) (hm : m.path = s.mem.path) : Rerun view body { s with mem := m }

/-- What a skip list finds, with the computation of eval/examples/unique_elms.rs. -/
def uniqueRun [DecidableEq E] [DecidableEq M] (hash : E → Word) (pathLen : Nat) (t : HTree M) (s : UqSpace E M) :
    Heap.HR E M ((E → P (Option Unit)) × UqSpace E M) := fun f σ =>
  match uniqueIn hash pathLen t s f σ with
  | .error q => .error q
  | .ok ((sk, s'), σ') => .ok ((fun x => sk.get hash s'.mem x, s'), σ')

end Iodyn.Incr
