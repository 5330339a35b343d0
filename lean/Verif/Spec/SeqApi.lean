import Verif.Model.AccumLists
/-
Programs over the sequence interface of eval/src/interface.rs with any number of values (values can be cloned), and
their meaning on plain lists.
-/
namespace Iodyn.Eval
variable {T S X : Type}

/-- A call; values are numbered in order of creation. -/
inductive SeqOp (X : Type) where
  | new
  | clone (i : Nat)
  | push (i : Nat) (x : X)
  | pop (i : Nat)
  | archive (i : Nat) (lev : Nat) (nm : Option Name)

/-- The name a call uses. -/
def SeqOp.name? : SeqOp X → Option Name
  | .archive _ _ nm => nm
  | _ => none

/-- The call uses existing values only, `n` of them. -/
def SeqOp.Valid (n : Nat) : SeqOp X → Prop
  | .new => True
  | .clone i => i < n
  | .push i _ => i < n
  | .pop i => i < n
  | .archive i lev _ => i < n ∧ 1 ≤ lev

/-- Number of values after the call. -/
def SeqOp.count (n : Nat) : SeqOp X → Nat
  | .new => n + 1
  | .clone _ => n + 1
  | _ => n

/-- Every call of the program uses existing values. -/
def Valid : Nat → List (SeqOp X) → Prop
  | _, [] => True
  | n, op :: ops => op.Valid n ∧ Valid (op.count n) ops

/-- One call; the answer is that of `seq_pop`. -/
def SeqImpl.step (I : SeqImpl T S X) (fuel : Nat) (σ : T) (pool : List S) : SeqOp X →
    P (T × List S × Option (Option X))
  | .new => .ok (σ, pool ++ [I.new], none)
  | .clone i => do
    let s ← unwrap pool[i]?
    return (σ, pool ++ [s], none)
  | .push i x => do
    let s ← unwrap pool[i]?
    let s ← I.push s x
    return (σ, pool.set i s, none)
  | .pop i => do
    let s ← unwrap pool[i]?
    let (x, s) ← I.pop fuel σ s
    return (σ, pool.set i s, some x)
  | .archive i lev nm => do
    let s ← unwrap pool[i]?
    let (σ, s) ← I.archive σ s lev nm
    return (σ, pool.set i s, none)

/-- The answers of a program. -/
def SeqImpl.run (I : SeqImpl T S X) (fuel : Nat) : T → List S → List (SeqOp X) → P (List (Option X))
  | _, _, [] => .ok []
  | σ, pool, op :: ops => do
    let (σ, pool, out) ← I.step fuel σ pool op
    let outs ← I.run fuel σ pool ops
    return out.toList ++ outs

/-- Meaning of one call on plain stacks (top first). -/
def plainSeqStep (pool : List (List X)) : SeqOp X → List (List X) × Option (Option X)
  | .new => (pool ++ [[]], none)
  | .clone i => (pool ++ [pool[i]?.getD []], none)
  | .push i x => (pool.set i (x :: pool[i]?.getD []), none)
  | .pop i => (pool.set i (pool[i]?.getD []).tail, some (pool[i]?.getD []).head?)
  | .archive _ _ _ => (pool, none)

/-- The answers of a program on plain stacks. -/
def plainSeqRun : List (List X) → List (SeqOp X) → List (Option X)
  | _, [] => []
  | pool, op :: ops => (plainSeqStep pool op).2.toList ++ plainSeqRun (plainSeqStep pool op).1 ops

end Iodyn.Eval
