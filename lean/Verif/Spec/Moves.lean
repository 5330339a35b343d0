import Verif.Model.Moves
import Verif.Spec.EditAny
import Verif.Spec.MeanAny
/-
The moves of cursors that edits take.
-/
namespace Iodyn
variable {E M : Type}

/-- A counted computation does the same as an uncounted one. -/
def Same {A : Type} (m : Counting A) (p : P A) : Prop := ∀ n, (m n).map (fun x => x.1) = p

/-- A counted computation ends with `a` after `k` moves. -/
def Costs {A : Type} (m : Counting A) (a : A) (k : Nat) : Prop := ∀ n, m n = .ok (a, n + k)

/-- One call, with its moves, src/raz.rs:559-644. Only pops move cursors. -/
def Raz.lopC [RazMeta E M] (z : Raz E M) : LOp E → Counting (Raz E M)
  | .pushL x => return (z.pushLeft x).1
  | .pushR x => return (z.pushRight x).1
  | .archL lev nm => return z.archiveLeft lev nm
  | .archR lev nm => return z.archiveRight lev nm
  | .popL => do
    let (z', _) ← z.popLeftC
    return z'
  | .popR => do
    let (z', _) ← z.popRightC
    return z'

/-- All calls. -/
def Raz.lopsC [RazMeta E M] (z : Raz E M) : List (LOp E) → Counting (Raz E M)
  | [] => return z
  | op :: l => do
    let z' ← z.lopC op
    z'.lopsC l

/-- One edit with its moves: `focus` (with `unwrap`), the calls, `unfocus`, src/raz.rs:321-378, 443-529. -/
def RazTree.editC [RazMeta E M] (t : RazTree E M) (i : RazMeta.Index E M) (ops : List (LOp E)) : Counting (RazTree E M) := do
  let o ← t.focusC i
  let z ← still (unwrap o)
  let z ← z.lopsC ops
  z.unfocusC

/-- The number of archive points that calls make. -/
def LOp.archs : List (LOp E) → Nat
  | [] => 0
  | .archL _ _ :: l => 1 + LOp.archs l
  | .archR _ _ :: l => 1 + LOp.archs l
  | _ :: l => LOp.archs l

/-- The branches between the root and the cursor. -/
def Raz.path (z : Raz E M) : Nat := z.lForest.lForest.length + z.rForest.rForest.length

/-- Edits one after the other, with their moves. -/
def RazTree.editsC [RazMeta E M] (t : RazTree E M) : List (RazMeta.Index E M × List (LOp E)) → Counting (RazTree E M)
  | [] => return t
  | (i, ops) :: l => do
    let t' ← t.editC i ops
    t'.editsC l

/-- A new sequence made with some calls, with the moves: `Raz::new` (src/raz.rs:541-550), the calls, `unfocus`. -/
def RazTree.makeC [RazMeta E M] (ops : List (LOp E)) : Counting (RazTree E M) := do
  let z ← (Raz.new : Raz E M).lopsC ops
  z.unfocusC

/-- A bound for the mean of the moves of edits, from lists alone: for an edit of a sequence with `m` archive points, twice the mean way to its place
(`C84_mean_path`), four times the mean depth (`C88_mean_depth`) for each crossing, one for each pop, eight for each archive point and nine. -/
def movesBound (items : List (Item E)) : List (Nat × List (LOp E)) → Nat
  | [] => 0
  | (i, ops) :: l => 2 * (2 * (Nat.clog 2 (marksOf items).length + 1)) + crossingsAt (cutAt i items) ops * (4 * (sixLogs (marksOf items).length + 1)) +
      LOp.pops ops + 8 * LOp.archs ops + 9 + movesBound (editList i ops items) l

end Iodyn
