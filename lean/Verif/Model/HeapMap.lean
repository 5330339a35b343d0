import Verif.Model.Heap
import Verif.Model.IncrMap
/-
`map` of src/level_tree.rs:173-203 and src/raz.rs:287-318 without a namespace, to elements of the same type: the mapped tree is made in
the store of the tree itself. `memo!` is a plain call here; for the first `map` of a sequence there is no stored call to use.
-/
namespace Iodyn.Heap
variable {D X E M : Type}

/-- `branch.map(|t| ..)`, src/level_tree.rs:186-193; `rec` maps a tree. -/
def mapOpt (rec : Tr → H D X Tr) : Option Tr → H D X (Option Tr)
  | none => return none
  | some t => do
    let t' ← rec t
    return some t'

/-- `Tree::map`, src/level_tree.rs:178-202, calls nested at most `n` deep. The mapping function sees the data of the mapped branches, see
`Incr.MapFn`. -/
def mapTree (e : Engine) (g : Incr.MapFn D D) : Nat → Tr → H D X Tr
  | 0, _ => diverge
  | n+1, t => do
    let (d, l, r) ← forceNode t.link
    let l' ← mapOpt (mapTree e g n) l
    let r' ← mapOpt (mapTree e g n) r
    let a ← peekOp l'
    let b ← peekOp r'
    let d' ← liftP (g d t.level t.name a b)
    newTree e t.level t.name d' l' r'

/-- `RazTree::map`, src/raz.rs:288-317. -/
def HTree.map [RazMeta E M] (e : Engine) (f : E → E) (t : HTree M) : HR E M (HTree M) := fun n σ => (do
  let tree ← mapOpt (mapTree e (Incr.razMapFn f) n) t.tree
  mkTree tree) n σ

end Iodyn.Heap
