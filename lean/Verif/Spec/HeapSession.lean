import Verif.Model.HeapSession
import Verif.Spec.IncrFold
import Verif.Spec.IncrLr
import Verif.Spec.Session
/-
Sessions of the test driver with the incremental engine, and the same sessions on values with every answer computed from scratch.
-/
namespace Iodyn.Heap
open Iodyn.Eval Iodyn.Incr
variable {E M F N G R B C : Type}

/-! ### Computations of the harness, and reading their results in full -/

/-- `comp_max`, `comp_tfold`: a fold over the tree in namespace `p` with stored calls. -/
def upRun [DecidableEq E] [DecidableEq M] [DecidableEq B] (up : Option B → TreeData E M → Nat → Option Name → Option B → P B) (p : Name) (t : HTree M) (T : RTable E M B) :
    HR E M (Option B × RTable E M B) :=
  match t.tree with
  | none => return (none, T)
  | some h => do
    let (r, T) ← memoFold ⟨up, fun b _ _ _ => b⟩ p (.up h) T
    return (some r, T)

/-- `comp_map`, and reading the result in full. -/
def mapRun [RazMeta F N] [DecidableEq E] [DecidableEq M] [DecidableEq F] [DecidableEq N] (fn : E → F) (t : HTree M) (s : RSpace E M F N) :
    HR E M (Option (RazTree F N) × RSpace E M F N) := fun f σ =>
  match razMap fn t s f σ with
  | .error q => .error q
  | .ok ((t, s), σ) => .ok (((readTree s.mem f t.tree).map (⟨t.info, ·⟩), s), σ)

/-- Reversing or filtering, and reading the result in full. -/
def rebuildRun [RazMeta E N] [DecidableEq E] [DecidableEq M] [DecidableEq N] (c : Rebuild E) (t : HTree M) (s : GSpace E M N) :
    HR E M (RAns E N × GSpace E M N) := fun f σ =>
  match rebuildIn c t s f σ with
  | .error q => .error q
  | .ok ((t, s), σ) => .ok ((readBack s.mem f t, s), σ)

/-! ### Sessions -/

/-- A batch edit of a harness with positions over the store. -/
def editH (C : Coord G E) (word : R → BitVec 64 × R) : Edit → HEval Count G → R → HR E Count (HEval Count G × R)
  | .insert b => HEval.insert .dcg C word b
  | .append b => HEval.append .dcg C word b

/-- A batch edit of a harness with names over the store. The order in which the hash map enumerates its keys may differ each time. -/
def editHN (C : Coord G E) (word : R → BitVec 64 × R) (order : R → List Name → List Name) : Edit → HEval Names G → R → HR E Names (HEval Names G × R)
  | .insert b => fun s rng => HEval.insertAtName .dcg C word (order rng) b s rng
  | .append b => HEval.appendLast .dcg C word b

/-- A session over the store with the incremental engine. -/
def sessionH {Sp : Type} [RazMeta E M] (C : Coord G E) (word : R → BitVec 64 × R) (p : Params) (coord : G) (rng : R)
    (edit : HEval M G → R → HR E M (HEval M G × R)) (run : HTree M → Sp → HR E M (B × Sp)) (new : Sp) : HR E M (List B × R) :=
  test (HEval.incInit .dcg C word p.size p.datagauge p.namegauge coord) edit (HEval.comp run) p.changes new rng

/-- The session on values, with every answer computed from scratch. -/
def sessionV [RazMeta E M] (C : Coord G E) (word : R → BitVec 64 × R) (p : Params) (coord : G) (rng : R)
    (edit : EvalRaz E M G → R → P (EvalRaz E M G × R)) (scratch : RazTree E M → P B) : P (List B × R) :=
  (Eval.test (createRaz C word p coord) edit (plainly (T := Unit) (fun s => unwrap s.raztree >>= scratch)) p.changes () rng).map
    (fun x => (x.1.map Prod.snd, x.2))

/-- What a session ends with from an empty store: its answers, or a panic. -/
def Ends (m : HR E M (List B × R)) (r : P (List B × R)) : Prop := ∃ f0, ∀ f, f0 ≤ f → (m f Store.empty).map Prod.fst = r

end Iodyn.Heap
