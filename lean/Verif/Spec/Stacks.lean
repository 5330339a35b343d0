import Verif.Spec.Items
/-
Reading an archive stack as a sequence with archive points.
-/
namespace Iodyn
variable {E : Type}

/-- `memo_from` keeps the names of the stack's archive points unchanged. -/
def Item.keep : Item E → Item E
  | .pend lev nm => .mark lev nm
  | i => i

/-- The stack from bottom to top. -/
def AStack.bottomUp (s : AStack E Nat) : List (Item E) := (s.side.map Item.keep).reverse
/-- The stack from top to bottom. -/
def AStack.topDown (s : AStack E Nat) : List (Item E) := s.side.map Item.keep

/-- The elements of a stack (with any metadata) from top to bottom. -/
def AStack.elems {M : Type} (s : AStack E M) : List E :=
  s.current.reverse ++ s.archived.flatMap (fun p => p.2.2.reverse)

/-- Stacks that a client can build with the API of src/archive_stack.rs, archiving with metadata satisfying
`ok`. -/
inductive AStack.Built {M : Type} (ok : M → Prop) : AStack E M → Prop
  | new : AStack.Built ok AStack.new
  | push {s} (e : E) : AStack.Built ok s → AStack.Built ok (s.push e)
  | extend {s} (v : List E) : AStack.Built ok s → AStack.Built ok (s.extend v)
  | extendRev {s} (v : List E) : AStack.Built ok s → AStack.Built ok (s.extendRev v)
  | archive {s} (nm : Option Name) (m : M) : ok m → AStack.Built ok s → AStack.Built ok (s.archive nm m).1
  | pop {s s' e} : AStack.Built ok s → s.pop = .ok (s', e) → AStack.Built ok s'
  | popMeta {s s' e} : AStack.Built ok s → s.popMeta = .ok (s', e) → AStack.Built ok s'
  | nextArchive {s} : AStack.Built ok s → AStack.Built ok s.nextArchive.1

end Iodyn
