import Verif.Model.IncrFold
import Verif.Model.Programs
import Verif.Spec.IncrMap
/-
Clients that edit sequences and reverse and filter them again and again, each program in a namespace of its own.
-/
namespace Iodyn
namespace Incr
open Iodyn.Heap (Tr Cell Mem)
variable {D X D' X' R : Type}

/-- A namespace with results of folds over trees `D`. -/
abbrev USpace (D X D' X' R : Type) := Space (Cell D X) (Cell D' X') Tr R

section
variable [DecidableEq D] [DecidableEq X] [DecidableEq D'] [DecidableEq X']

/-- The namespaces that come from folding trees one after the other with one function. The trees are in any stores; the names of the nodes
of one tree are different. -/
inductive Folded (node : NodeProg (Cell D X) (Cell D' X') R D) : USpace D X D' X' R → Prop
  | start : Folded node Space.empty
  | fold {s : USpace D X D' X' R} {σ : Mem D X} {h : Tr} {v : Tree (Tr × D)} {n : Nat} {o : AOut (Cell D X) (Cell D' X') Tr R R}
    (hs : Folded node s) (hv : View σ (some h) v) (hn : (nodeNames v).Nodup) (ho : amrun (upBody node) σ n h s = some (.ok o)) :
    Folded node o.space

/-- A namespace after folding the trees of the list (the last one first), in any stores. Names of calls that went away with the last tree
do not come back. -/
inductive FoldHistory (node : NodeProg (Cell D X) (Cell D' X') R D) : USpace D X D' X' R → List (Tree (Tr × D)) → Prop
  | start : FoldHistory node Space.empty []
  | fold {s : USpace D X D' X' R} {vs : List (Tree (Tr × D))} {σ : Mem D X} {h : Tr} {v : Tree (Tr × D)} {n : Nat}
    {o : AOut (Cell D X) (Cell D' X') Tr R R} (hs : FoldHistory node s vs) (hv : View σ (some h) v) (hn : (nodeNames v).Nodup)
    (hr : NoReturn vs v) (ho : amrun (upBody node) σ n h s = some (.ok o)) : FoldHistory node o.space (v :: vs)
end

variable {E M N : Type}

/-- The program with values, from scratch: eval/examples/reverse.rs and filter.rs as in `Verif/Model/Programs.lean`. -/
def Rebuild.scratch [RazMeta E N] : Rebuild E → RazTree E M → P (Option (RazTree E N))
  | .reverse, t => t.foldUpGauged Eval.Reverse.init Eval.Reverse.bin
  | .filter p, t => t.foldUpGauged (Eval.Filter.init p) Eval.Filter.bin

/-- The program on a plain list. -/
def Rebuild.list : Rebuild E → List E → List E
  | .reverse, l => l.reverse
  | .filter p, l => l.filter p

end Incr

variable {E M N : Type}
open Incr (Rebuild)

/-- What a client does. -/
inductive REv (E I : Type) where
  /-- a statement, see `Cmd` -/
  | stmt (c : Cmd E I)
  /-- `v_i.clone().fold_up_gauged(..)` with the functions of the program, with namespace `p` -/
  | rebuild (p : Name) (c : Rebuild E) (i : Nat)

/-- What the client sees: of a sequence that was made, all there is. -/
inductive RAns (E N : Type) where
  | out (o : Out E)
  | rebuilt (t : Option (RazTree E N))
  /-- the variable holds no tree -/
  | bad
  /-- the tree cannot be read -/
  | lost

/-- The statements among the events. -/
def REv.stmts {I : Type} : List (REv E I) → List (Cmd E I)
  | [] => []
  | .stmt c :: l => c :: REv.stmts l
  | _ :: l => REv.stmts l

/-- The program is the one that belongs to its namespace. -/
def REv.UsesNs {I : Type} (g : Name → Rebuild E) : REv E I → Prop
  | .stmt _ => True
  | .rebuild p c _ => c = g p

/-- One event with values: everything from scratch. -/
def Vars.rev [RazMeta E M] [RazMeta E N] (vs : Vars E M) : REv E (RazMeta.Index E M) → P (Vars E M × RAns E N)
  | .stmt c => do
    let (vs', o) ← vs.step c
    return (vs', .out o)
  | .rebuild _ c i =>
    match vs[i]? with
    | some (some (.tree t)) => do
      let t' ← c.scratch t
      return (vs, .rebuilt t')
    | _ => return (vs, .bad)

/-- All events with values. -/
def Vars.revs [RazMeta E M] [RazMeta E N] : Vars E M → List (REv E (RazMeta.Index E M)) → P (Vars E M × List (RAns E N))
  | vs, [] => .ok (vs, [])
  | vs, ev :: l => do
    let (vs', a) ← vs.rev ev
    let (vs'', as) ← Vars.revs vs' l
    return (vs'', a :: as)

/-- What the client sees with values. -/
def revAnswers [RazMeta E M] [RazMeta E N] (l : List (REv E (RazMeta.Index E M))) : P (List (RAns E N)) :=
  (Vars.revs (M := M) [] l).map (·.2)

namespace Heap
variable [RazMeta E M] [RazMeta E N] [DecidableEq E] [DecidableEq M] [DecidableEq N]

/-- Reading a sequence in full. -/
def readBack (τ : Mem (TreeData E N) (Nat × List E)) (n : Nat) : Option (HTree N) → RAns E N
  | none => .rebuilt none
  | some t =>
    match Incr.readTree τ n t.tree with
    | some w => .rebuilt (some ⟨t.info, w⟩)
    | none => .lost

/-- One event over the store, with the incremental engine; `S` are the namespaces. -/
def HVars.rev (vs : HVars E M) (S : Name → Incr.GSpace E M N) :
    REv E (RazMeta.Index E M) → HR E M (HVars E M × (Name → Incr.GSpace E M N) × RAns E N)
  | .stmt c => do
    let (vs', o) ← vs.step .dcg c
    return (vs', S, .out o)
  | .rebuild p c i =>
    match vs[i]? with
    | some (some (.tree t)) => do
      let (t', s) ← Incr.rebuildIn c t (S p)
      return (vs, fun q => if q = p then s else S q, (← fun f σ => .ok (readBack s.mem f t', σ)))
    | _ => return (vs, S, .bad)

/-- All events over the store. -/
def HVars.revs : HVars E M → (Name → Incr.GSpace E M N) → List (REv E (RazMeta.Index E M)) →
    HR E M (HVars E M × (Name → Incr.GSpace E M N) × List (RAns E N))
  | vs, S, [] => return (vs, S, [])
  | vs, S, ev :: l => do
    let (vs', S', a) ← HVars.rev vs S ev
    let (vs'', S'', as) ← HVars.revs vs' S' l
    return (vs'', S'', a :: as)

/-- What the client sees from an empty store: its answers, or the panic it ends with. -/
def REvAnswers (l : List (REv E (RazMeta.Index E M))) (r : P (List (RAns E N))) : Prop :=
  ∃ f0, ∀ f, f0 ≤ f → (HVars.revs (M := M) [] (fun _ => Incr.Space.empty) l f Store.empty).map (fun x => x.1.2.2) = r
end Heap
end Iodyn
