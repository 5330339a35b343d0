import Verif.Model.Basic
/-
The part of the Adapton engine that the data structures of /repo use: allocation and reading of
articulations (`put`, `cell`, `force`, `force_map`; imported at src/stack.rs:20, src/level_tree.rs:17,
src/skiplist.rs:12). Adapton itself is not in /repo; its documented behaviour is modelled here:
`put` makes an immutable anonymous articulation, `cell` makes a named one, and with the incremental engine
(`manage::init_dcg`) a second `cell` with the same name replaces the content that all holders see. With the
functional engine (the default) every `cell` is a fresh reference.
`ns(name, body)` runs `body` in a namespace: names used in it refer to cells of that namespace.
Memoisation and dirtying are not modelled here.
-/
namespace Iodyn

/-- Which engine runs: `manage::init_dcg()` or the functional one (cf. src/skiplist.rs:310-317). -/
inductive Engine where
  | naive | dcg
  deriving DecidableEq, Repr

/-- A namespace: the names of the enclosing `ns` calls (src/lib.rs:23-26; eval/src/actions.rs:287, 418, 421), innermost first. -/
abbrev NsPath := List Name

/-- What an `Art` (src/stack.rs:30, src/level_tree.rs:24, src/skiplist.rs:31) refers to: a named cell of a namespace or
an anonymous reference (numbered in order of allocation). -/
inductive Loc where
  | named (n : Name) (p : NsPath := [])
  | anon (k : Nat)
  deriving DecidableEq, Repr

/-- The memory behind the articulations. `next` numbers the anonymous allocations, `path` is the current namespace.
Models the engine state used through `put`/`cell`/`force` (src/stack.rs:120-127) and `ns` (eval/src/actions.rs:287). -/
structure Store (V : Type) where
  cells : Loc → Option V
  next : Nat
  path : NsPath := []

namespace Store
variable {V : Type}

/-- The store at program start (no articulation yet; cf. `manage::init_dcg()`, src/skiplist.rs:317). -/
def empty : Store V := { cells := fun _ => none, next := 0 }

/-- Replace one cell; the effect of `cell` on the memory (src/stack.rs:127). -/
def set (s : Store V) (l : Loc) (v : V) : Store V :=
  { s with cells := fun l' => if l' = l then some v else s.cells l' }

/-- `put(v)`, src/stack.rs:120, src/level_tree.rs:66. -/
def put (s : Store V) (v : V) : Store V × Loc :=
  ({ s.set (.anon s.next) v with next := s.next + 1 }, .anon s.next)

/-- `cell(name, v)`, src/stack.rs:127, src/level_tree.rs:58, src/skiplist.rs:269-272. -/
def cell (e : Engine) (s : Store V) (n : Name) (v : V) : Store V × Loc :=
  match e with
  | .naive => s.put v
  | .dcg => (s.set (.named n s.path) v, .named n s.path)

/-- `force(&art)`, src/stack.rs:94, src/level_tree.rs:82-88, src/skiplist.rs:168-170. A reference without content cannot be made in
Rust; it is an `unreachable` panic here. -/
def force (s : Store V) (l : Loc) : P V :=
  match s.cells l with
  | none => .error .unreachable
  | some v => .ok v

end Store
end Iodyn
