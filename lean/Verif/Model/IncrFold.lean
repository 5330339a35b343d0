import Verif.Model.IncrMemoFrom
/-
The memoised `fold_up_meta` of src/level_tree.rs:101-120 and `fold_up_gauged` of src/raz.rs:210-230 with functions that make
articulations themselves: the programs eval/examples/reverse.rs:66-97 and eval/examples/filter.rs:66-97, which build a sequence out
of the sequences for the branches. For `memo!` see `Verif/Model/Incr.lean` and `Verif/Model/IncrMap.lean`.

The joined trees are made in a namespace of the program (`ns(name_reverse, ..)`, eval/examples/reverse.rs:90; `ns(name_filter, ..)`,
eval/examples/filter.rs:90), so they are not the cells of the tree that is read. Leaves are anonymous (src/raz.rs:139); it makes no
difference in which namespace they are made. The stored calls are those of the namespace that the whole program runs in; here they are
kept together with the articulations of the program.
-/
namespace Iodyn.Incr
open Iodyn.Heap (Tr Cell Mem HTree)
variable {V W K R A D X E M N : Type}

/-! ### src/level_tree.rs -/

/-- `node_calc` of `fold_up_meta`, which may make articulations, src/level_tree.rs:101-103. -/
abbrev NodeProg (V W R D : Type) := Option R → D → Nat → Option Name → Option R → AProg V W Tr R R

/-- `branch.map(|t| ..)`, src/level_tree.rs:107-108, 113-114. -/
def memoBranch (n : Option Name) (t : Option Tr) (k : Option R → AProg V W Tr R A) : AProg V W Tr R A :=
  match t with
  | none => k none
  | some t => .call n t (fun r => k (some r))

/-- `Tree::fold_up_meta`, src/level_tree.rs:101-120. -/
def upBody (node : NodeProg (Cell D X) W R D) (t : Tr) : AProg (Cell D X) W Tr R R :=
  .force t.link fun c =>
    match c with
    | .body .. => .fail .unreachable
    | .node d l r =>
      memoBranch (forks t.name).1 l fun a =>
      memoBranch (forks t.name).2 r fun b =>
      node a d t.level t.name b

/-! ### src/raz.rs -/

/-- `treetop_meta(Some(&tree))`, src/raz.rs:93-105. -/
def topProg [RazMeta E N] (t : Tr) (k : N → AProg V (Cell (TreeData E N) (Nat × List E)) K R A) :
    AProg V (Cell (TreeData E N) (Nat × List E)) K R A :=
  .peek t.link fun c =>
    match c with
    | .body .. => .fail .unreachable
    | .node .dummy _ _ => .fail .unreachable
    | .node (.leaf v) _ _ => k (RazMeta.fromVec v 0 none)
    | .node (.branch l r) _ _ => k (RazMeta.fromMeta E l r 0 none)

/-- `RazTree::join`, src/raz.rs:121-131. -/
def joinTreeProg [RazMeta E N] (lt : HTree N) (level : Nat) (name : Option Name) (rt : HTree N)
    (k : Option (HTree N) → AProg V (Cell (TreeData E N) (Nat × List E)) K R A) : AProg V (Cell (TreeData E N) (Nat × List E)) K R A :=
  match lt.tree, rt.tree with
  | some a, some b => binProg a level name b fun t => topProg t fun m => k (some ⟨m, some t⟩)
  | _, _ => k none

/-- `RazTree::from_vec`, src/raz.rs:137-141. -/
def fromVecProg [RazMeta E N] (v : List E) (k : Option (HTree N) → AProg V (Cell (TreeData E N) (Nat × List E)) K R A) :
    AProg V (Cell (TreeData E N) (Nat × List E)) K R A :=
  if v = [] then k none else leafProg v fun t => topProg t fun m => k (some ⟨m, some t⟩)

/-- The node function of `fold_up_gauged`, src/raz.rs:217-228. -/
def gaugedProg (init : List E → AProg V W Tr R R) (bin : R → Nat → Option Name → R → AProg V W Tr R R) : NodeProg V W R (TreeData E M) :=
  fun l c lv n r =>
    match c with
    | .leaf v => init v
    | _ =>
      match l, r with
      | none, none => .fail .explicit
      | some r, none => .ret r
      | none, some r => .ret r
      | some lr, some rr => bin lr lv n rr

/-! ### eval/examples -/

/-- `match IRazTree::from_vec(c) {None => IRazTree::empty(), Some(t) => t}`, eval/examples/reverse.rs:78-81,
eval/examples/filter.rs:78-81. -/
def vecTreeProg [RazMeta E N] (c : List E) : AProg V (Cell (TreeData E N) (Nat × List E)) Tr (HTree N) (HTree N) :=
  fromVecProg c fun o =>
    match o with
    | none => .ret (HTree.empty E)
    | some t => .ret t

/-- `IRazTree::join(..).unwrap()`, eval/examples/reverse.rs:91, eval/examples/filter.rs:91. -/
def unwrapJoinProg [RazMeta E N] (lt : HTree N) (lev : Nat) (nm : Option Name) (rt : HTree N) :
    AProg V (Cell (TreeData E N) (Nat × List E)) Tr (HTree N) (HTree N) :=
  joinTreeProg lt lev nm rt fun o =>
    match o with
    | none => .fail .unwrapNone
    | some t => .ret t

/-- First closure, eval/examples/reverse.rs:75-82. -/
def reverseInit [RazMeta E N] (v : List E) : AProg V (Cell (TreeData E N) (Nat × List E)) Tr (HTree N) (HTree N) := vecTreeProg v.reverse

/-- Second closure, eval/examples/reverse.rs:83-94. -/
def reverseBin [RazMeta E N] (t1 : HTree N) (lev : Nat) (nm : Option Name) (t2 : HTree N) :
    AProg V (Cell (TreeData E N) (Nat × List E)) Tr (HTree N) (HTree N) :=
  match t1.tree.isNone, t2.tree.isNone with
  | true, true => .ret (HTree.empty E)
  | false, true => .ret t1
  | true, false => .ret t2
  | false, false => unwrapJoinProg t2 lev nm t1

/-- First closure, eval/examples/filter.rs:75-82, with any predicate. -/
def filterInit [RazMeta E N] (p : E → Bool) (v : List E) : AProg V (Cell (TreeData E N) (Nat × List E)) Tr (HTree N) (HTree N) :=
  vecTreeProg (v.filter p)

/-- Second closure, eval/examples/filter.rs:83-94. -/
def filterBin [RazMeta E N] (t1 : HTree N) (lev : Nat) (nm : Option Name) (t2 : HTree N) :
    AProg V (Cell (TreeData E N) (Nat × List E)) Tr (HTree N) (HTree N) :=
  match t1.tree.isNone, t2.tree.isNone with
  | true, true => .ret (HTree.empty E)
  | false, true => .ret t1
  | true, false => .ret t2
  | false, false => unwrapJoinProg t1 lev nm t2

/-- The two programs, eval/examples/reverse.rs:66-97 and eval/examples/filter.rs:66-97. -/
inductive Rebuild (E : Type) where
  | reverse
  | filter (p : E → Bool)

/-- The node function of a program, eval/examples/reverse.rs:74-95 and eval/examples/filter.rs:74-95. -/
def Rebuild.node [RazMeta E N] : Rebuild E → NodeProg V (Cell (TreeData E N) (Nat × List E)) (HTree N) (TreeData E M)
  | .reverse => gaugedProg reverseInit reverseBin
  | .filter p => gaugedProg (filterInit p) filterBin

/-- A namespace with sequences made by such a program (`ns`, eval/examples/reverse.rs:90, eval/examples/filter.rs:90). -/
abbrev GSpace (E M N : Type) := Space (Cell (TreeData E M) (Nat × List E)) (Cell (TreeData E N) (Nat × List E)) Tr (HTree N)

/-- `comp_tfoldg`, eval/src/eval_iraz.rs:334-350, with the functions of the program: `fold_up_gauged`, src/raz.rs:210-230. The first call is
not memoised. -/
def rebuildIn [RazMeta E N] [DecidableEq E] [DecidableEq M] [DecidableEq N] (c : Rebuild E) (t : HTree M) (s : GSpace E M N) :
    Heap.HR E M (Option (HTree N) × GSpace E M N) := fun fuel σ =>
  match t.tree with
  | none => .ok ((none, s), σ)
  | some h =>
    match amrun (upBody c.node) σ fuel h s with
    | none => Heap.diverge fuel σ
    | some (.error q) => .error q
    | some (.ok o) => .ok ((some o.val, o.space), σ)

end Iodyn.Incr
