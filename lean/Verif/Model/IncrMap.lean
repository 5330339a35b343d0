import Verif.Model.Incr
/-
The memoised `map` of src/level_tree.rs:173-203 and src/raz.rs:287-318 with the incremental engine, in a namespace of its own
(`ns`, as in eval/src/actions.rs:287): the cells that it makes are not those of the tree that it reads.

Adapton is not in /repo. The behaviour of `memo!` assumed here is the documented one, see `Verif/Model/Incr.lean`. In addition the
stored call is used only if the cells that it has made, and those that it has read back, still have the content that it gave them
or found.
-/
namespace Iodyn.Incr
open Iodyn.Heap (Tr Cell Mem HTree)
variable {V W K R A D X D' X' E M F N : Type}

/-- The body of a memoised function that makes articulations, as a tree of the engine calls it makes. Cf. src/level_tree.rs:182-200. `V`
is the content of the articulations outside the namespace, `W` of those inside. -/
inductive AProg (V W K R A : Type) where
  /-- the value of the block -/
  | ret (a : A)
  /-- a panic -/
  | fail (p : Panic)
  /-- `force(&link)` of an articulation from outside, src/level_tree.rs:183 -/
  | force (l : Loc) (k : V → AProg V W K R A)
  /-- `force(&link)` of an articulation of the namespace: `t.peek()`, src/raz.rs:308, 311 -/
  | peek (l : Loc) (k : W → AProg V W K R A)
  /-- `cell` with a name or `put`, src/level_tree.rs:57-66 -/
  | alloc (n : Option Name) (v : W) (k : Loc → AProg V W K R A)
  /-- a plain recursive call (`none`, src/level_tree.rs:186-187) or `memo!` with a name (src/level_tree.rs:192-193) -/
  | call (n : Option Name) (key : K) (k : R → AProg V W K R A)

/-- A stored call: its arguments, the articulations it has read outside the namespace, the articulations it has read or made inside (also
in calls that it made), with their content, and its result (`memo!`, src/level_tree.rs:192-193). See the head of the file. -/
structure AEntry (V W K R : Type) where
  key : K
  reads : List (Loc × V)
  facts : List (Loc × W)
  res : R

/-- A namespace (`ns`, eval/src/actions.rs:287): its articulations and its stored calls. Anonymous articulations are counted with the
namespace in which they are made. -/
structure Space (V W K R : Type) where
  mem : Store W
  table : Name → Option (AEntry V W K R)

/-- An unused namespace (`ns`, eval/src/actions.rs:287). -/
def Space.empty : Space V W K R := ⟨Store.empty, fun _ => none⟩

/-- Storing a call (`memo!`, src/level_tree.rs:192-193). -/
def Space.set (s : Space V W K R) (n : Name) (e : AEntry V W K R) : Space V W K R :=
  { s with table := fun n' => if n' = n then some e else s.table n' }

/-- What running a body gives: its value, what it has read outside, what it has read or made inside, the namespace and the number of
bodies that were run. No counterpart in /repo (see src/level_tree.rs:178-202 for the bodies). -/
structure AOut (V W K R A : Type) where
  val : A
  reads : List (Loc × V)
  facts : List (Loc × W)
  space : Space V W K R
  work : Nat

/-- Going on after a step that has read `rd`, has read or made `fs` and has run `w` bodies; no counterpart in /repo: the rest of a block as
in src/level_tree.rs:178-202. -/
def after (rd : List (Loc × V)) (fs : List (Loc × W)) (w : Nat) : Option (P (AOut V W K R A)) → Option (P (AOut V W K R A))
  | some (.ok o) => some (.ok { o with reads := rd ++ o.reads, facts := fs ++ o.facts, work := w + o.work })
  | x => x

section
variable [DecidableEq V] [DecidableEq W] [DecidableEq K]

/-- `put(v)`, src/level_tree.rs:66. Adapton compares anonymous articulations by what they hold: one with the same content, if there is
any, is as good as a new one. -/
def Space.put (s : Space V W K R) (v : W) : Space V W K R × Loc :=
  match (List.range s.mem.next).find? (fun k => decide (s.mem.cells (.anon k) = some v)) with
  | some k => (s, .anon k)
  | none => let (m, l) := s.mem.put v; ({ s with mem := m }, l)

/-- `cell(name, v)` or `put(v)` in the namespace, src/level_tree.rs:57-66. -/
def Space.alloc (s : Space V W K R) (n : Option Name) (v : W) : Space V W K R × Loc :=
  match n with
  | some n => let (m, l) := s.mem.cell .dcg n v; ({ s with mem := m }, l)
  | none => s.put v

/-- Whether the stored call can be used (`memo!`, src/level_tree.rs:192-193; see the head of the file). -/
def AEntry.usable (σ : Store V) (τ : Store W) (key : K) (e : AEntry V W K R) : Bool :=
  decide (e.key = key) && e.reads.all (fun p => decide (σ.cells p.1 = some p.2)) &&
    e.facts.all (fun p => decide (τ.cells p.1 = some p.2))

/-- The stored call that `memo!` uses, if any (src/level_tree.rs:192-193). -/
def Space.lookup (s : Space V W K R) (n : Name) (σ : Store V) (key : K) : Option (AEntry V W K R) :=
  (s.table n).filter (AEntry.usable σ s.mem key)

/-- Running a body (src/level_tree.rs:182-200) with `memo!`. `callee` runs the calls. Reading an articulation without content cannot
happen in Rust; it is an `unreachable` panic. -/
def amexec (callee : K → Space V W K R → Option (P (AOut V W K R R))) (σ : Store V) :
    AProg V W K R A → Space V W K R → Option (P (AOut V W K R A))
  | .ret a, s => some (.ok ⟨a, [], [], s, 0⟩)
  | .fail q, _ => some (.error q)
  | .force l k, s =>
    match σ.cells l with
    | none => some (.error .unreachable)
    | some v => after [(l, v)] [] 0 (amexec callee σ (k v) s)
  | .peek l k, s =>
    match s.mem.cells l with
    | none => some (.error .unreachable)
    | some v => after [] [(l, v)] 0 (amexec callee σ (k v) s)
  | .alloc n v k, s =>
    let (s', l) := s.alloc n v
    after [] [(l, v)] 0 (amexec callee σ (k l) s')
  | .call none key k, s =>
    match callee key s with
    | none => none
    | some (.error q) => some (.error q)
    | some (.ok c) => after c.reads c.facts c.work (amexec callee σ (k c.val) c.space)
  | .call (some n) key k, s =>
    match s.lookup n σ key with
    | some e => after e.reads e.facts 0 (amexec callee σ (k e.res) s)
    | none =>
      match callee key s with
      | none => none
      | some (.error q) => some (.error q)
      | some (.ok c) =>
        after c.reads c.facts c.work (amexec callee σ (k c.val) (c.space.set n ⟨key, c.reads, c.facts, c.val⟩))

/-- A function with the given body (src/level_tree.rs:178-202), calls nested at most `n` deep; `none` if that does not suffice. -/
def amrun (body : K → AProg V W K R R) (σ : Store V) : Nat → K → Space V W K R → Option (P (AOut V W K R R))
  | 0, _, _ => none
  | n+1, key, s => after [] [] 1 (amexec (amrun body σ n) σ (body key) s)
end

/-! ### src/level_tree.rs -/

/-- The mapping function, src/level_tree.rs:178-180. Of the mapped branches it sees the data (`t.peek()`), which is what `RazTree::map` uses
(src/raz.rs:308, 311). It may panic (src/raz.rs:307). -/
abbrev MapFn (D D' : Type) := D → Nat → Option Name → Option D' → Option D' → P D'

/-- `branch.map(|t| ..)`, src/level_tree.rs:186-193. -/
def mapBranch (n : Option Name) (t : Option Tr) (k : Option Tr → AProg V W Tr Tr A) : AProg V W Tr Tr A :=
  match t with
  | none => k none
  | some t => .call n t (fun r => k (some r))

/-- `branch.map(|t| t.peek())`, src/raz.rs:308, 311. -/
def peekBranch (t : Option Tr) (k : Option D' → AProg V (Cell D' X') Tr Tr A) : AProg V (Cell D' X') Tr Tr A :=
  match t with
  | none => k none
  | some t => .peek t.link fun c =>
    match c with
    | .body .. => .fail .unreachable
    | .node d _ _ => k (some d)

/-- The end of `Tree::map`, src/level_tree.rs:198-199, for the node `t` with data `d` and the mapped branches `l`, `r`, whose data are `a`, `b`. -/
def mapEnd (g : MapFn D D') (t : Tr) (d : D) (l r : Option Tr) (a b : Option D') : AProg V (Cell D' X') Tr Tr Tr :=
  match g d t.level t.name a b with
  | .error q => .fail q
  | .ok d' => .alloc t.name (.node d' l r) fun k => .ret ⟨t.level, t.name, k⟩

/-- `Tree::map`, src/level_tree.rs:178-202. -/
def mapBody (g : MapFn D D') (t : Tr) : AProg (Cell D X) (Cell D' X') Tr Tr Tr :=
  .force t.link fun c =>
    match c with
    | .body .. => .fail .unreachable
    | .node d l r =>
      mapBranch (forks t.name).1 l fun l' =>
      mapBranch (forks t.name).2 r fun r' =>
      peekBranch l' fun a =>
      peekBranch r' fun b =>
      mapEnd g t d l' r' a b

/-! ### src/raz.rs -/

/-- The mapping function of `RazTree::map`, src/raz.rs:295-316. -/
def razMapFn [RazMeta F N] (f : E → F) : MapFn (TreeData E M) (TreeData F N) := fun d lev n l r =>
  match d with
  | .leaf v => .ok (.leaf (v.map f))
  | _ => TreeData.rebuild l .dummy lev n r

/-- A namespace with mapped sequences (`ns`, eval/src/actions.rs:287). -/
abbrev RSpace (E M F N : Type) := Space (Cell (TreeData E M) (Nat × List E)) (Cell (TreeData F N) (Nat × List F)) Tr Tr

/-- `RazTree::map`, src/raz.rs:288-317, in the namespace `s`. The first call is not memoised. -/
def razMap [RazMeta F N] [DecidableEq E] [DecidableEq M] [DecidableEq F] [DecidableEq N] (f : E → F) (t : HTree M) (s : RSpace E M F N) :
    Heap.HR E M (HTree N × RSpace E M F N) := fun fuel σ =>
  let top (t : Option Tr) (s : RSpace E M F N) : P ((HTree N × RSpace E M F N) × Mem (TreeData E M) (Nat × List E)) :=
    match Heap.mkTree (E := F) t fuel s.mem with
    | .error q => .error q
    | .ok (t, m) => .ok ((t, { s with mem := m }), σ)
  match t.tree with
  | none => top none s
  | some h =>
    match amrun (mapBody (razMapFn f)) σ fuel h s with
    | none => Heap.diverge fuel σ
    | some (.error q) => .error q
    | some (.ok o) => top (some o.val) o.space

end Iodyn.Incr
