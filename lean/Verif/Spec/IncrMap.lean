import Verif.Model.IncrMap
import Verif.Spec.Incr
/-
Clients that edit sequences and map them again and again, each function in a namespace of its own.
-/
namespace Iodyn
namespace Incr
open Iodyn.Heap (Tr Cell Mem)
variable {D X D' X' : Type}

/-- The mapping function on trees as values. -/
def MapFn.val (g : MapFn D D') : D → Nat → Option Name → Tree D' → Tree D' → P D' :=
  fun d lv n l r => g d lv n l.peek? r.peek?

/-- A namespace with mapped trees `D'`, made from trees `D`. -/
abbrev MSpace (D X D' X' : Type) := Space (Cell D X) (Cell D' X') Tr Tr

section
variable [DecidableEq D] [DecidableEq X] [DecidableEq D'] [DecidableEq X']

/-- The namespaces that come from mapping trees one after the other with one function. The trees are in any stores; the names of the nodes
of one tree are different. -/
inductive Mapped (g : MapFn D D') : MSpace D X D' X' → Prop
  | start : Mapped g Space.empty
  | map {s : MSpace D X D' X'} {σ : Mem D X} {h : Tr} {v : Tree (Tr × D)} {n : Nat} {o : AOut (Cell D X) (Cell D' X') Tr Tr Tr}
    (hs : Mapped g s) (hv : View σ (some h) v) (hn : (nodeNames v).Nodup) (ho : amrun (mapBody g) σ n h s = some (.ok o)) :
    Mapped g o.space
end

/-- The whole tree behind a handle; `none` if it is not there or more than `n` deep. -/
def readTree (σ : Mem D X) : Nat → Option Tr → Option (Tree D)
  | _, none => some .nil
  | 0, some _ => none
  | n+1, some h =>
    match σ.cells h.link with
    | some (.node d l r) =>
      match readTree σ n l, readTree σ n r with
      | some l, some r => some (.node h.level h.name d l r)
      | _, _ => none
    | _ => none

end Incr

variable {E M F N C : Type}

/-- What a client does. `C` numbers the functions. -/
inductive MEv (E I C : Type) where
  /-- a statement, see `Cmd` -/
  | stmt (c : Cmd E I)
  /-- `ns(p, || v_i.clone().map(f_c))` -/
  | map (p : Name) (c : C) (i : Nat)

/-- What the client sees: of a mapped sequence, all there is. -/
inductive MAns (E F N : Type) where
  | out (o : Out E)
  | mapped (t : RazTree F N)
  /-- the variable holds no tree -/
  | bad
  /-- the mapped tree cannot be read -/
  | lost

/-- The statements among the events. -/
def MEv.stmts {I : Type} : List (MEv E I C) → List (Cmd E I)
  | [] => []
  | .stmt c :: l => c :: MEv.stmts l
  | _ :: l => MEv.stmts l

/-- `map` uses the function that belongs to its namespace. -/
def MEv.UsesNs {I : Type} (g : Name → C) : MEv E I C → Prop
  | .stmt _ => True
  | .map p c _ => c = g p

/-- One event with values: mapped from scratch. -/
def Vars.mev [RazMeta E M] [RazMeta F N] (fn : C → E → F) (vs : Vars E M) : MEv E (RazMeta.Index E M) C → P (Vars E M × MAns E F N)
  | .stmt c => do
    let (vs', o) ← vs.step c
    return (vs', .out o)
  | .map _ c i =>
    match vs[i]? with
    | some (some (.tree t)) => do
      let t' ← t.map (fn c)
      return (vs, .mapped t')
    | _ => return (vs, .bad)

/-- All events with values. -/
def Vars.mevs [RazMeta E M] [RazMeta F N] (fn : C → E → F) :
    Vars E M → List (MEv E (RazMeta.Index E M) C) → P (Vars E M × List (MAns E F N))
  | vs, [] => .ok (vs, [])
  | vs, ev :: l => do
    let (vs', a) ← vs.mev fn ev
    let (vs'', as) ← Vars.mevs fn vs' l
    return (vs'', a :: as)

/-- What the client sees with values. -/
def mevAnswers [RazMeta E M] [RazMeta F N] (fn : C → E → F) (l : List (MEv E (RazMeta.Index E M) C)) : P (List (MAns E F N)) :=
  (Vars.mevs (M := M) fn [] l).map (·.2)

namespace Heap
variable [RazMeta E M] [RazMeta F N] [DecidableEq E] [DecidableEq M] [DecidableEq F] [DecidableEq N]

/-- One event over the store, with the incremental engine; `S` are the namespaces. -/
def HVars.mev (fn : C → E → F) (vs : HVars E M) (S : Name → Incr.RSpace E M F N) :
    MEv E (RazMeta.Index E M) C → HR E M (HVars E M × (Name → Incr.RSpace E M F N) × MAns E F N)
  | .stmt c => do
    let (vs', o) ← vs.step .dcg c
    return (vs', S, .out o)
  | .map p c i =>
    match vs[i]? with
    | some (some (.tree t)) => do
      let (t', s) ← Incr.razMap (fn c) t (S p)
      return (vs, fun q => if q = p then s else S q,
        (← fun f σ => .ok (match Incr.readTree s.mem f t'.tree with
          | some w => .mapped ⟨t'.info, w⟩
          | none => .lost, σ)))
    | _ => return (vs, S, .bad)

/-- All events over the store. -/
def HVars.mevs (fn : C → E → F) : HVars E M → (Name → Incr.RSpace E M F N) → List (MEv E (RazMeta.Index E M) C) →
    HR E M (HVars E M × (Name → Incr.RSpace E M F N) × List (MAns E F N))
  | vs, S, [] => return (vs, S, [])
  | vs, S, ev :: l => do
    let (vs', S', a) ← HVars.mev fn vs S ev
    let (vs'', S'', as) ← HVars.mevs fn vs' S' l
    return (vs'', S'', a :: as)

/-- What the client sees from an empty store: its answers, or the panic it ends with. -/
def MEvAnswers (fn : C → E → F) (l : List (MEv E (RazMeta.Index E M) C)) (r : P (List (MAns E F N))) : Prop :=
  ∃ f0, ∀ f, f0 ≤ f → (HVars.mevs (M := M) fn [] (fun _ => Incr.Space.empty) l f Store.empty).map (fun x => x.1.2.2) = r
end Heap

/-! ### Cost -/
namespace Incr
open Iodyn.Heap (Tr Cell Mem)
variable {D X D' X' : Type} [DecidableEq D] [DecidableEq X] [DecidableEq D'] [DecidableEq X']

/-- A namespace after mapping the trees of the list (the last one first), in any stores. Names of calls that went away with the last tree
do not come back. -/
inductive MapHistory (g : MapFn D D') : MSpace D X D' X' → List (Tree (Tr × D)) → Prop
  | start : MapHistory g Space.empty []
  | map {s : MSpace D X D' X'} {vs : List (Tree (Tr × D))} {σ : Mem D X} {h : Tr} {v : Tree (Tr × D)} {n : Nat}
    {o : AOut (Cell D X) (Cell D' X') Tr Tr Tr} (hs : MapHistory g s vs) (hv : View σ (some h) v) (hn : (nodeNames v).Nodup)
    (hr : NoReturn vs v) (ho : amrun (mapBody g) σ n h s = some (.ok o)) : MapHistory g o.space (v :: vs)
end Incr
end Iodyn
