import Verif.Model.HeapBuild
import Verif.Spec.HeapSession
/-
Sessions of the test driver for building.
-/
namespace Iodyn.Heap
open Iodyn.Eval Iodyn.Incr
variable {E M G R B : Type}

/-- The sequence of a harness read in full. -/
def lookH [RazMeta E M] (s : HEval M G) : HR E M (Option (RazTree E M)) := fun f σ =>
  match s.raztree with
  | none => .ok (none, σ)
  | some t => .ok ((readTree σ f t.tree).map (⟨t.info, ·⟩), σ)

/-- A session over the store. -/
def buildH [RazMeta E M] (e : Engine) (C : Coord G E) (word : R → BitVec 64 × R) (dg ng : Nat) (coord : G) (edit : HEval M G → R → HR E M (HEval M G × R)) :
    List Nat → R → HR E M (List (Option (RazTree E M) × Option (RazTree E M)) × R) :=
  buildTest (fun size rng => HEval.incInit e C word size dg ng coord rng) edit lookH

/-- A session on values. -/
def buildV [RazMeta E M] (C : Coord G E) (word : R → BitVec 64 × R) (dg ng : Nat) (coord : G) (edit : EvalRaz E M G → R → P (EvalRaz E M G × R)) :
    List Nat → R → P (List (Option (RazTree E M) × Option (RazTree E M)) × R) :=
  Eval.buildTest (fun size rng => EvalRaz.incInit C word size dg ng coord rng) edit (fun s => .ok s.raztree)

/-- A session with vectors. -/
def buildVec (C : Coord G E) (coord : G) (batch : Nat) : List Nat → R → P (List (List E × List E) × R) :=
  Eval.buildTest (fun size rng => createVec C ⟨size, 1, 1, batch, 1⟩ coord rng) (insertVec C ⟨0, 1, 1, batch, 1⟩) (fun s => .ok s.vec)

end Iodyn.Heap
