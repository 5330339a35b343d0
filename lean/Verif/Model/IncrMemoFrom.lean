import Verif.Model.IncrMap
import Verif.Spec.HeapMemoFrom
/-
The memoised `memo_from` of src/raz.rs:710-859 with the incremental engine, in a namespace of its own (`ns`, as in
eval/src/actions.rs:418, 421): the tree nodes that it makes, which have the names of the archive points (src/raz.rs:752, 828), are not
the cells of the stack that it reads. For `memo!` see `Verif/Model/Incr.lean` and `Verif/Model/IncrMap.lean`.

The two conversions differ in four places, which are functions of `End` here: the two assertions, the comparison of levels, the order
of the elements of a leaf and the side on which the next part of the stack goes.
-/
namespace Iodyn.Incr
open Iodyn.Heap (Tr Head Cell Mem HTree ASt FromRes)
variable {V W K R A E M : Type}

deriving instance DecidableEq for ASt

/-- The arguments of a call of `from_stack` and which of the two functions it is, src/raz.rs:726, 731-737, 801, 806-812. -/
structure FromKey (E : Type) where
  side : End
  stack : ASt E
  level : Nat
  name : Option Name
  tree : Tr
  max : Nat
  deriving DecidableEq

/-- `accum_tree.level() <= first_level`, src/raz.rs:738, and `<`, :813. -/
def _root_.Iodyn.End.fits : End → Nat → Nat → Bool
  | .tail, a, b => decide (a ≤ b)
  | .head, a, b => decide (a < b)

/-- `lev < first_level`, src/raz.rs:739, 746, 756, and `<=`, :814, 822, 832. -/
def _root_.Iodyn.End.below : End → Nat → Nat → Bool
  | .tail, a, b => decide (a < b)
  | .head, a, b => decide (a ≤ b)

/-- The elements of a leaf: src/raz.rs:742, and with `vec.reverse()`, :817-818. -/
def _root_.Iodyn.End.vec : End → List E → List E
  | .tail, v => v
  | .head, v => v.reverse

/-- `AStack::next_archive`, src/archive_stack.rs:120-132. `peek` and `pull` (src/stack.rs:56-58, 69-71) both force the cell of the head. -/
def nextArchiveProg {D : Type} (s : ASt E) (k : ASt E → Option (List E × Option Nat) → AProg (Cell D (Nat × List E)) W K R A) :
    AProg (Cell D (Nat × List E)) W K R A :=
  if s.isEmpty then k s none
  else
    match s.archived with
    | none => k { current := [], archived := none } (some (s.current, none))
    | some h => .force h.main fun c => .force h.main fun c' =>
      match c, c' with
      | .body (m, v) _, .body _ a => k { current := v, archived := a } (some (s.current, some m))
      | _, _ => .fail .unreachable

/-- `leaf(vec, None)`, src/raz.rs:687-689. -/
def leafProg (v : List E) (k : Tr → AProg V (Cell (TreeData E M) (Nat × List E)) K R A) : AProg V (Cell (TreeData E M) (Nat × List E)) K R A :=
  .alloc none (.node (.leaf v) none none) fun l => k ⟨0, none, l⟩

/-- `bin`, src/raz.rs:692-708. -/
def binProg [RazMeta E M] (t1 : Tr) (l : Nat) (n : Option Name) (t2 : Tr) (k : Tr → AProg V (Cell (TreeData E M) (Nat × List E)) K R A) :
    AProg V (Cell (TreeData E M) (Nat × List E)) K R A :=
  .peek t1.link fun c => .peek t2.link fun c' =>
    match c, c' with
    | .node a _ _, .node b _ _ =>
      match TreeData.rebuild (some a) .dummy l n (some b) with
      | .error q => .fail q
      | .ok d => .alloc n (.node d (some t1) (some t2)) fun k' => k ⟨l, n, k'⟩
    | _, _ => .fail .unreachable

/-- `bin(small_tree, .., accum_tree)`, src/raz.rs:752, and `bin(accum_tree, .., small_tree)`, :828. -/
def joinProg [RazMeta E M] (w : End) (small : Tr) (l : Nat) (n : Option Name) (accum : Tr) (k : Tr → AProg V (Cell (TreeData E M) (Nat × List E)) K R A) :
    AProg V (Cell (TreeData E M) (Nat × List E)) K R A :=
  match w with
  | .tail => binProg small l n accum k
  | .head => binProg accum l n small k

/-- `from_stack_memo`, src/raz.rs:719-729, 794-804: `name_fork(nm).0` is the name of the call. -/
def callFrom (key : FromKey E) (k : FromRes E → AProg V W (FromKey E) (FromRes E) A) : AProg V W (FromKey E) (FromRes E) A :=
  .call (key.name.map .forkL) key k

/-- `match next_level { .. }`, src/raz.rs:743-751, 819-827: the tree `leaf`, with what is on the stack below `key.level`; `go` is the rest of
the function. -/
def fromNext (key : FromKey E) (stack : ASt E) (nextLevel : Option Nat) (leaf : Tr) (go : FromRes E → AProg V W (FromKey E) (FromRes E) A) :
    AProg V W (FromKey E) (FromRes E) A :=
  match nextLevel with
  | none => go (ASt.new, none, none, leaf)
  | some lev =>
    if key.side.below lev key.level then callFrom ⟨key.side, stack, lev, key.stack.name, leaf, key.level⟩ go
    else go (stack, some lev, key.stack.name, leaf)

/-- `match final_level { .. }`, src/raz.rs:753-761, 829-837. -/
def fromFinal (key : FromKey E) (r : FromRes E) (newTree : Tr) : AProg V W (FromKey E) (FromRes E) (FromRes E) :=
  match r.2.1 with
  | none => .ret (ASt.new, none, none, newTree)
  | some lev =>
    if key.side.below lev key.max then callFrom ⟨key.side, r.1, lev, r.2.2.1, newTree, key.max⟩ .ret
    else .ret (r.1, some lev, r.2.2.1, newTree)

/-- `from_stack`, src/raz.rs:731-762, 806-838. -/
def fromBody [RazMeta E M] (key : FromKey E) :
    AProg (Cell (TreeData E M) (Nat × List E)) (Cell (TreeData E M) (Nat × List E)) (FromKey E) (FromRes E) (FromRes E) :=
  if key.side.fits key.tree.level key.level && key.side.below key.level key.max then
    nextArchiveProg key.stack fun stack o =>
      match o with
      | none => .fail .explicit
      | some (vec, nextLevel) =>
        leafProg (key.side.vec vec) fun leaf =>
        fromNext key stack nextLevel leaf fun r =>
        joinProg key.side r.2.2.2 key.level key.name key.tree fun newTree =>
        fromFinal key r newTree
  else .fail .assertion

/-- `RazTree::memo_from` up to the metadata of the whole tree, src/raz.rs:717-778, 792-858. -/
def memoFromProg [RazMeta E M] (w : End) (stack : ASt E) :
    AProg (Cell (TreeData E M) (Nat × List E)) (Cell (TreeData E M) (Nat × List E)) (FromKey E) (FromRes E) (Option Tr) :=
  nextArchiveProg stack fun s o =>
    match o with
    | none => .ret none
    | some (vec, none) => leafProg (w.vec vec) fun t => .ret (some t)
    | some (vec, some level) =>
      leafProg (w.vec vec) fun t =>
      callFrom ⟨w, s, level, stack.name, t, u32Max⟩ fun r =>
        if r.2.1.isNone && r.2.2.1.isNone && r.1.isEmpty then .ret (some r.2.2.2) else .fail .assertion

/-- A namespace with converted stacks (`ns`, eval/src/actions.rs:418, 421). -/
abbrev FSpace (E M : Type) := Space (Cell (TreeData E M) (Nat × List E)) (Cell (TreeData E M) (Nat × List E)) (FromKey E) (FromRes E)

/-- Running `memo_from` (src/raz.rs:717-778, 792-858) in the namespace `s`, calls nested at most `n` deep. -/
def memoFromRun [RazMeta E M] [DecidableEq E] [DecidableEq M] (w : End) (σ : Mem (TreeData E M) (Nat × List E)) (n : Nat) (stack : ASt E)
    (s : FSpace E M) : Option (P (AOut (Cell (TreeData E M) (Nat × List E)) (Cell (TreeData E M) (Nat × List E)) (FromKey E) (FromRes E) (Option Tr))) :=
  amexec (amrun fromBody σ n) σ (memoFromProg w stack) s

/-- `RazTree::memo_from`, src/raz.rs:717-778, 792-858, in the namespace `s`. -/
def memoFromIn [RazMeta E M] [DecidableEq E] [DecidableEq M] (w : End) (stack : ASt E) (s : FSpace E M) :
    Heap.HR E M (HTree M × FSpace E M) := fun fuel σ =>
  match memoFromRun w σ fuel stack s with
  | none => Heap.diverge fuel σ
  | some (.error q) => .error q
  | some (.ok o) =>
    match Heap.mkTree (E := E) o.val fuel o.space.mem with
    | .error q => .error q
    | .ok (t, m) => .ok ((t, { o.space with mem := m }), σ)

end Iodyn.Incr
