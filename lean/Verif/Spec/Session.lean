import Verif.Model.Session
import Verif.Spec.Eval
import Verif.Spec.Meta
/-
What the example programs and the test driver of the evaluation suite are meant to do.
-/
namespace Iodyn.Eval
variable {E G T S X : Type}

/-- The results of popping `n` times. -/
def drain (I : SeqImpl T S X) (fuel : Nat) (σ : T) : Nat → S → P (List (Option X))
  | 0, _ => .ok []
  | n+1, s => do
    let (x, s) ← I.pop fuel σ s
    let xs ← drain I fuel σ n s
    return x :: xs

/-- What popping `n` times gives on a plain stack (top first). -/
def popped (n : Nat) (xs : List X) : List (Option X) := (List.range n).map (fun i => xs[i]?)

/-- Walking backwards (the list is reversed): the elements up to the nearest named archive point, and its name. -/
def sinceName : List (Item E) → List E × Option Name
  | [] => ([], none)
  | .elem e :: r => (e :: (sinceName r).1, (sinceName r).2)
  | .mark _ (some n) :: _ => ([], some n)
  | _ :: r => sinceName r

/-- A list with the elements since the last named archive point; the rest is in a cell with that name, in the namespace
`p`. -/
def listSince (p : NsPath) (x : List (Item E)) : AList E :=
  (sinceName x.reverse).1.foldr .cons (match (sinceName x.reverse).2 with
    | none => .nil
    | some n => .name n (.art (.named n p)))

/-- The same with the elements in a vector. -/
def vecListSince (p : NsPath) (x : List (Item E)) : VList E :=
  let base : VList E := match (sinceName x.reverse).2 with
    | none => .nil
    | some n => .name n (.art (.named n p))
  if (sinceName x.reverse).1 = [] then base else .cons (sinceName x.reverse).1.reverse base

/-- After every named archive point of `l` has been stored: its cell has what `f` makes of the items before it, and all other
cells are as they were. -/
structure Stored {V : Type} (f : List (Item E) → V) (l : List (Item E)) (σ σ' : Store V) : Prop where
  named : ∀ x lev n y, l = x ++ .mark lev (some n) :: y → σ'.cells (.named n σ.path) = some (f x)
  other : ∀ a, (∀ n ∈ namesOf l, a ≠ .named n σ.path) → σ'.cells a = σ.cells a
  path : σ'.path = σ.path

/-- The names under which the elements of a sequence are put into the skip list: name, number, element. The elements after
the first archive point are put under the name "start", those after the next under the name of the first, and so on;
unnamed archive points do not count. -/
def stamps (cur : Name) (c : Nat) : List (Option Name × List E) → List (Name × Nat × E)
  | [] => []
  | (nm, es) :: ps => (es.zipIdx c).map (fun p => (cur, p.2, p.1)) ++
    match nm with
    | none => stamps cur (c + es.length) ps
    | some n => stamps n 0 ps

/-- Each of the elements is in the cell with its name and number, and all other cells are as they were. -/
structure StoredAt {E : Type} (st : List (Name × Nat × E)) (σ σ' : Store (Skip.Path E Unit)) : Prop where
  named : ∀ x ∈ st, ∃ p, σ'.cells (.named (.pair x.1 (.usize x.2.1)) σ.path) = some p ∧ (x.2.2, some ()) ∈ p.kvs
  other : ∀ a, (∀ x ∈ st, a ≠ .named (.pair x.1 (.usize x.2.1)) σ.path) → σ'.cells a = σ.cells a
  path : σ'.path = σ.path

/-- The set of the members of a list, as a map to `()`. -/
def setOf [DecidableEq E] (l : List E) : E → Option Unit := fun k => if k ∈ l then some () else none

/-- `f` applied `n` times. -/
def times {Y : Type} (f : Y → Y) : Nat → Y → Y
  | 0, x => x
  | n+1, x => times f n (f x)

/-- Sequence and generator after building and `i` edits. -/
def sessionAt (edit : List E × G → List E × G) (C : Coord G E) (size : Nat) (coord : G) (i : Nat) : List E × G :=
  times edit i (draws C.elem coord size, after C.elem coord size)

/-- Insertion of a batch into a plain list as the vector harness does it: the batch is drawn before the position and
inserted in reverse order. -/
def vecInsertSpec (C : Coord G E) (batch : Nat) (x : List E × G) : List E × G :=
  let g := after C.elem x.2 batch
  let loc := (C.pos g).1 % x.1.length
  (x.1.take loc ++ (draws C.elem x.2 batch).reverse ++ x.1.drop loc, (C.pos g).2)

/-- The greatest element of a plain list, if any. -/
def maxSpec (le : E → E → Bool) (xs : List E) (m : Option E) : Prop :=
  (xs = [] ∧ m = none) ∨ ∃ x, m = some x ∧ LastMax le xs x

end Iodyn.Eval
