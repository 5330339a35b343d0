import Verif.Model.Heap
/-
Memoised folds over the store of articulations: `memo!( name =>> f , args ;; closure )` as used in src/level_tree.rs:101-170
by `fold_up_meta` and `fold_lr_meta`, and the folds of src/raz.rs:148-285 on top of them.

Adapton is not in /repo. The behaviour of `memo!` assumed here is the documented one: the call is stored under its name
(in the current namespace, `ns`). A later `memo!` with the same name uses the stored result if the function and its
arguments before `;;` are equal to the stored ones and every articulation that the stored call has read still has the same
content; otherwise the call is run and replaces the stored one. What comes after `;;` (the closure) is not compared.
-/
namespace Iodyn.Incr
open Iodyn.Heap (Tr Cell Mem HTree)
variable {V K R A D X E M : Type}

/-- The body of a memoised function as a tree of the engine calls it makes: `force` of an articulation and (memoised) calls
of itself. Statements between them are Lean functions. Cf. src/level_tree.rs:104-119, 139-169. Bodies that make
articulations are not expressible. -/
inductive Prog (V K R A : Type) where
  /-- the value of the block -/
  | ret (a : A)
  /-- a panic -/
  | fail (p : Panic)
  /-- `force(&link)`, src/level_tree.rs:104, 158 -/
  | force (l : Loc) (k : V → Prog V K R A)
  /-- a plain recursive call (`none`, src/level_tree.rs:107-108, 142) or `memo!` with a name (src/level_tree.rs:113-114, 144) -/
  | call (n : Option Name) (key : K) (k : R → Prog V K R A)

/-! ### Without memoisation -/

/-- Running a body (e.g. src/level_tree.rs:101-119) where `memo!` is a plain call; `callee` runs the calls. The result is `none` if a call does not return.
Reading an articulation without content cannot happen in Rust; it is an `unreachable` panic. -/
def exec (callee : K → Option (P R)) (σ : Store V) : Prog V K R A → Option (P A)
  | .ret a => some (.ok a)
  | .fail p => some (.error p)
  | .force l k =>
    match σ.cells l with
    | none => some (.error .unreachable)
    | some v => exec callee σ (k v)
  | .call _ key k =>
    match callee key with
    | none => none
    | some (.error p) => some (.error p)
    | some (.ok r) => exec callee σ (k r)

/-- A function with the given body (e.g. `fold_up_meta`, src/level_tree.rs:101-119), calls nested at most `n` deep; `none` if that does not suffice. -/
def run (body : K → Prog V K R R) (σ : Store V) : Nat → K → Option (P R)
  | 0, _ => none
  | n+1, key => exec (run body σ n) σ (body key)

/-! ### With memoisation -/

/-- A stored call: its arguments, the articulations it has read (also in calls that it made) with their content, and its
result. `memo!` (src/level_tree.rs:113-114, 144) makes it in Adapton. See the head of the file. -/
structure Entry (V K R : Type) where
  key : K
  reads : List (Loc × V)
  res : R

/-- The stored calls by namespace and name. The namespace is that of the enclosing `ns` (src/raz.rs:1367,
eval/src/actions.rs:287, 418); namespaces are not nested here. -/
abbrev Table (V K R : Type) := Name → Name → Option (Entry V K R)

/-- No calls yet: the state after `init_dcg()`, eval/examples/max.rs:93. -/
def Table.empty : Table V K R := fun _ _ => none

/-- Storing a call, as `memo!` does (src/level_tree.rs:113-114, 144). -/
def Table.set (T : Table V K R) (p n : Name) (e : Entry V K R) : Table V K R :=
  fun p' n' => if p' = p ∧ n' = n then some e else T p' n'

/-- What running a body (e.g. src/level_tree.rs:101-119) gives: its value, what it has read, the stored calls and the number of bodies that were run. -/
structure MOut (V K R A : Type) where
  val : A
  reads : List (Loc × V)
  table : Table V K R
  work : Nat

section
variable [DecidableEq V] [DecidableEq K]

/-- Whether the stored call can be used by `memo!` (src/level_tree.rs:113-114, 144): the same arguments, and everything it has read is unchanged. -/
def Entry.usable (σ : Store V) (key : K) (e : Entry V K R) : Bool :=
  decide (e.key = key) && e.reads.all (fun p => decide (σ.cells p.1 = some p.2))

/-- The stored call that `memo!` (src/level_tree.rs:113-114, 144) uses, if any. -/
def lookup (T : Table V K R) (p n : Name) (σ : Store V) (key : K) : Option (Entry V K R) :=
  (T p n).filter (Entry.usable σ key)

/-- Running a body in namespace `p` with `memo!` (src/level_tree.rs:101-119, 139-169). `callee` runs the calls. -/
def mexec (callee : K → Table V K R → Option (P (MOut V K R R))) (p : Name) (σ : Store V) :
    Prog V K R A → Table V K R → Option (P (MOut V K R A))
  | .ret a, T => some (.ok ⟨a, [], T, 0⟩)
  | .fail q, _ => some (.error q)
  | .force l k, T =>
    match σ.cells l with
    | none => some (.error .unreachable)
    | some v =>
      match mexec callee p σ (k v) T with
      | some (.ok o) => some (.ok { o with reads := (l, v) :: o.reads })
      | x => x
  | .call none key k, T =>
    match callee key T with
    | none => none
    | some (.error q) => some (.error q)
    | some (.ok c) =>
      match mexec callee p σ (k c.val) c.table with
      | some (.ok o) => some (.ok { o with reads := c.reads ++ o.reads, work := c.work + o.work })
      | x => x
  | .call (some n) key k, T =>
    match lookup T p n σ key with
    | some e =>
      match mexec callee p σ (k e.res) T with
      | some (.ok o) => some (.ok { o with reads := e.reads ++ o.reads })
      | x => x
    | none =>
      match callee key T with
      | none => none
      | some (.error q) => some (.error q)
      | some (.ok c) =>
        match mexec callee p σ (k c.val) (c.table.set p n ⟨key, c.reads, c.val⟩) with
        | some (.ok o) => some (.ok { o with reads := c.reads ++ o.reads, work := c.work + o.work })
        | x => x

/-- A function with the given body (src/level_tree.rs:101-119, 139-169) in namespace `p`, calls nested at most `n` deep. -/
def mrun (body : K → Prog V K R R) (p : Name) (σ : Store V) : Nat → K → Table V K R → Option (P (MOut V K R R))
  | 0, _, _ => none
  | n+1, key, T =>
    match mexec (mrun body p σ n) p σ (body key) T with
    | some (.ok o) => some (.ok { o with work := o.work + 1 })
    | x => x
end

/-! ### src/level_tree.rs -/

/-- The memoised functions with their arguments before `;;`: `fold_up_meta` (src/level_tree.rs:113) and `fold_lr_meta`
(src/level_tree.rs:144-146: tree, carried name, accumulator). -/
inductive Key (R : Type) where
  | up (t : Tr)
  | lr (t : Tr) (carried : Option Name) (accum : R)
  deriving DecidableEq

/-- The closures after `;;`: `node_calc` of `fold_up_meta` (src/level_tree.rs:101-103) and of `fold_lr_meta`
(src/level_tree.rs:135-138). The result type is the same for both. -/
structure Fns (D R : Type) where
  up : Option R → D → Nat → Option Name → Option R → P R
  lr : R → D → Nat → Option Name → R

/-- `name_fork` of the name of the tree, if it has one: the names of the two `memo!`, src/level_tree.rs:105-112, 151-157. -/
def forks : Option Name → Option Name × Option Name
  | none => (none, none)
  | some n => (some (.forkL n), some (.forkR n))

/-- `branch.map(|t| ..)`, src/level_tree.rs:107-114. -/
def upBranch (n : Option Name) (t : Option Tr) (k : Option R → Prog V (Key R) R A) : Prog V (Key R) R A :=
  match t with
  | none => k none
  | some t => .call n (.up t) (fun r => k (some r))

/-- `fold_memo`, src/level_tree.rs:139-150. -/
def lrBranch (n carried : Option Name) (a : R) (t : Option Tr) (k : R → Prog V (Key R) R A) : Prog V (Key R) R A :=
  match t with
  | none => k a
  | some t => .call n (.lr t carried a) k

/-- `fold_up_meta`, src/level_tree.rs:101-120, and `fold_lr_meta`, src/level_tree.rs:135-170. -/
def foldBody (F : Fns D R) : Key R → Prog (Cell D X) (Key R) R R
  | .up t =>
    .force t.link fun c =>
      match c with
      | .body .. => .fail .unreachable
      | .node d l r =>
        upBranch (forks t.name).1 l fun a =>
        upBranch (forks t.name).2 r fun b =>
        match F.up a d t.level t.name b with
        | .ok x => .ret x
        | .error p => .fail p
  | .lr t start a =>
    .force t.link fun c =>
      match c with
      | .body .. => .fail .unreachable
      | .node d l r =>
        if l.isSome || r.isSome then
          lrBranch (forks t.name).1 start a l fun a =>
          lrBranch (forks t.name).2 t.name (F.lr a d t.level t.name) r fun a =>
          .ret a
        else .ret (F.lr a d t.level start)

/-! ### src/raz.rs -/

/-- The closure of `fold_up`, src/raz.rs:155-170. -/
def upNode (init : E → R) (bin : R → R → R) :
    Option R → TreeData E M → Nat → Option Name → Option R → P R :=
  fun l c _ _ r =>
    match c with
    | .leaf v => RazTree.foldLeaf init bin v
    | _ =>
      match l, r with
      | none, none => .error .explicit
      | some r, none => .ok r
      | none, some r => .ok r
      | some r1, some r2 => .ok (bin r1 r2)

/-- The closure of `fold_up_nl`, src/raz.rs:187-202. -/
def nlNode (init : E → R) (bin : R → R → R) (binnl : R → Nat → Option Name → R → R) :
    Option R → TreeData E M → Nat → Option Name → Option R → P R :=
  fun l c lv n r =>
    match c with
    | .leaf v => RazTree.foldLeaf init bin v
    | _ =>
      match l, r with
      | none, none => .error .explicit
      | some r, none => .ok r
      | none, some r => .ok r
      | some lr, some rr => .ok (binnl lr lv n rr)

/-- The closure of `fold_up_gauged`, src/raz.rs:217-228. -/
def gaugedNode (init : List E → P R) (bin : R → Nat → Option Name → R → P R) :
    Option R → TreeData E M → Nat → Option Name → Option R → P R :=
  fun l c lv n r =>
    match c with
    | .leaf v => init v
    | _ =>
      match l, r with
      | none, none => .error .explicit
      | some r, none => .ok r
      | none, some r => .ok r
      | some lr, some rr => bin lr lv n rr

/-- The closure of `fold_lr_meta`, src/raz.rs:248-257. -/
def lrNode (bin : R → E → R) (mt : R → Nat × Option Name → R) : R → TreeData E M → Nat → Option Name → R :=
  fun a e l n =>
    match e with
    | .leaf v => v.foldl bin a
    | _ => mt a (l, n)

/-- The closure of `fold_lr_archive`, src/raz.rs:273-282. -/
def archiveNode (bin : R → E → R) (finbin : R → Option Name → R) (mt : R → Nat → R) :
    R → TreeData E M → Nat → Option Name → R :=
  fun a e l n =>
    match e with
    | .leaf v => finbin (v.foldl bin a) n
    | _ => mt a l

end Iodyn.Incr
