import Verif.Model.Tree
import Verif.Model.Raz
import Verif.Model.Meta
/-
`Level` of src/trees.rs with its implementations `NegBin` and `usize`, and the example tree of the evaluation
suite (eval/src/examples.rs).
-/
namespace Iodyn

/-- A primitive unsigned integer type with `2 ^ bits` values as a `Level`, src/trees.rs:53-62. `NegBin`
(src/trees.rs:71) wraps `u8`, so it has 8 bits; `usize` (src/trees.rs:91) has 64 bits on the 64-bit machines that
the model takes (as everywhere else). -/
structure PrimLevel (bits : Nat) where
  val : BitVec bits
  deriving DecidableEq

namespace PrimLevel
variable {bits : Nat}

/-- `l_max`, src/trees.rs:83 and 92: `max_value()`. -/
def lMax : PrimLevel bits := ⟨BitVec.allOnes bits⟩

/-- `l_min`, src/trees.rs:84 and 93: `min_value()`. -/
def lMin : PrimLevel bits := ⟨0#bits⟩

/-- `l_inc`, src/trees.rs:85 and 94: `self.0+1`, with the overflow check of a debug build. -/
def lInc (l : PrimLevel bits) : P (PrimLevel bits) :=
  if l.val.toNat + 1 < 2 ^ bits then .ok ⟨l.val + 1#bits⟩ else .error .overflow

/-- `l_dec`, src/trees.rs:86 and 95: `self.0-1`, with the overflow check of a debug build. -/
def lDec (l : PrimLevel bits) : P (PrimLevel bits) :=
  if 1 ≤ l.val.toNat then .ok ⟨l.val - 1#bits⟩ else .error .overflow

/-- The derived order (src/trees.rs:70) and the order of `usize`. -/
instance : LT (PrimLevel bits) := ⟨fun a b => a.val.toNat < b.val.toNat⟩

end PrimLevel

/-- `NegBin::rand`, src/trees.rs:76-80: the random 64-bit number is the parameter; the cast `as u8` keeps the
low 8 bits. -/
def negBinRand (num : BitVec 64) : PrimLevel 8 := ⟨BitVec.ofNat 8 (trailingZeros (num <<< 1))⟩

/-- `inc_level`, src/lib.rs:55-57: `gen_branch_level` with the random number of the thread. -/
def incLevel (num : BitVec 64) : Nat := genBranchLevel num

/-- `iraztree_depth_4`, eval/src/examples.rs:24-49, with the conversion `A::from` as parameter. -/
def iraztreeDepth4 {A : Type} (conv : Nat → A) : P (RazTree A Count) :=
  let r : Raz A Count := Raz.new
  let r := (r.pushLeft (conv 1)).1
  let r := (r.pushLeft (conv 2)).1
  let r := r.archiveLeft 1 (some (.str "ll"))
  let r := (r.pushLeft (conv 3)).1
  let r := (r.pushLeft (conv 4)).1
  let r := r.archiveLeft 4 (some (.str "l"))
  let r := (r.pushLeft (conv 5)).1
  let r := (r.pushLeft (conv 6)).1
  let r := r.archiveLeft 2 (some (.str "lr"))
  let r := (r.pushLeft (conv 7)).1
  let r := (r.pushLeft (conv 8)).1
  let r := r.archiveLeft 6 (some (.str "rl"))
  let r := (r.pushLeft (conv 9)).1
  let r := (r.pushLeft (conv 10)).1
  let r := r.archiveLeft 3 (some (.str "r"))
  let r := (r.pushLeft (conv 11)).1
  let r := (r.pushLeft (conv 12)).1
  let r := r.archiveLeft 5 (some (.str "rr"))
  let r := (r.pushLeft (conv 13)).1
  let r := (r.pushLeft (conv 14)).1
  let r := r.archiveLeft 4 (some (.str "g"))
  let r := (r.pushLeft (conv 15)).1
  let r := (r.pushLeft (conv 16)).1
  r.unfocus

end Iodyn
