/-
Base types of the model: panics, names.
-/
namespace Iodyn

/-- Kinds of Rust panics that the modelled code can raise. Models the `unwrap`, `expect`, `assert!`,
`unreachable!`, `panic!`, slice-index, shift-overflow and arithmetic panics found in
`/repo/src/*.rs`. Only the kind is kept, not the message text. -/
inductive Panic where
  /-- `Option::unwrap` on `None` -/
  | unwrapNone
  /-- `expect(..)` on `None`, e.g. src/raz.rs:159 "leaf with empty vec" -/
  | expect
  /-- a failed `assert!`, e.g. src/raz.rs:738-739 -/
  | assertion
  /-- `unreachable!()`, e.g. src/raz.rs:73 -/
  | unreachable
  /-- an explicit `panic!(..)`, e.g. src/raz.rs:165 -/
  | explicit
  /-- slice split/index out of range, e.g. `split_at` in src/raz_meta.rs:139 -/
  | outOfRange
  /-- shift amount >= word size or arithmetic overflow (debug builds) -/
  | overflow
  deriving DecidableEq, Repr

/-- Result of a Rust function that may panic, e.g. `fold_up`, src/raz.rs:148-172, with `panic!` in line 165. -/
abbrev P (α : Type) := Except Panic α

/-- `Option::unwrap`, e.g. src/raz.rs:467, 485. -/
def unwrap {α : Type} : Option α → P α
  | none => .error .unwrapNone
  | some a => .ok a

/-- `assert!(b)`, e.g. src/tree_cursor.rs:215, src/raz.rs:738. -/
def assert (b : Bool) : P Unit :=
  if b then .ok () else .error .assertion

/-- Adapton names as used by /repo (`name_unit`, `name_of_usize`, `name_of_string`, `name_pair`,
`name_fork`; imported at src/raz.rs:40, src/skiplist.rs:12). Adapton represents a name by a hash of such a
term; the model uses the term itself, i.e. assumes the hash is injective. -/
inductive Name where
  | unit
  | usize (n : Nat)
  | str (s : String)
  | pair (a b : Name)
  | forkL (n : Name)
  | forkR (n : Name)
  deriving DecidableEq, Repr

/-- `u32::max_value()`, used as level bound at src/raz.rs:773 and 853. -/
def u32Max : Nat := 4294967295

/-- `usize::max_value()` on a 64-bit target, used as end marker at src/raz_meta.rs:127,136,146. -/
def usizeMax : Nat := 18446744073709551615

end Iodyn
