import Verif.Model.MemoFrom
import Verif.Spec.Items
/-
Histories of calls of the sequence API (src/raz.rs): the state machine that a client drives, its
specification on plain lists, and the set of reachable cursors and trees.
-/
namespace Iodyn
variable {E M : Type}

/-- Law of `split_vec`: nothing is lost. -/
class LawfulMeta (E M : Type) [RazMeta E M] : Prop where
  split : ∀ (v : List E) (i : RazMeta.Index E M) (a b : List E), RazMeta.splitVec (M := M) v i = .ok (a, b) → a ++ b = v

/-- What a client holds: a cursor (`Raz`) or a tree (`RazTree`). -/
inductive St (E M : Type) where
  | cursor (z : Raz E M)
  | tree (t : RazTree E M)

/-- Calls of the API. -/
inductive ApiOp (E I : Type) where
  | pushL (e : E) | pushR (e : E)
  | popL | popR | peekL | peekR
  | archL (lev : Nat) (nm : Option Name) | archR (lev : Nat) (nm : Option Name)
  | unfocus
  | focus (i : I)
  | focusLeft

/-- Observable result of a call. -/
inductive Out (E : Type) where
  /-- nothing (archive, unfocus, or a call that the type of the state does not offer) -/
  | unit
  /-- `push`: the reported number of active elements -/
  | count (n : Nat)
  /-- `pop` and `peek` -/
  | val (o : Option E)
  /-- `focus`: whether a cursor was returned -/
  | found (b : Bool)
  deriving DecidableEq

/-- One call, src/raz.rs:321-640. Calls that do not exist for the current kind of state are ignored. -/
def St.step [RazMeta E M] : St E M → ApiOp E (RazMeta.Index E M) → P (St E M × Out E)
  | .cursor z, .pushL e => .ok (.cursor (z.pushLeft e).1, .count (z.pushLeft e).2)
  | .cursor z, .pushR e => .ok (.cursor (z.pushRight e).1, .count (z.pushRight e).2)
  | .cursor z, .popL => do let (z', e) ← z.popLeft; return (.cursor z', .val e)
  | .cursor z, .popR => do let (z', e) ← z.popRight; return (.cursor z', .val e)
  | .cursor z, .peekL => do let e ← z.peekLeft; return (.cursor z, .val e)
  | .cursor z, .peekR => do let e ← z.peekRight; return (.cursor z, .val e)
  | .cursor z, .archL lev nm => .ok (.cursor (z.archiveLeft lev nm), .unit)
  | .cursor z, .archR lev nm => .ok (.cursor (z.archiveRight lev nm), .unit)
  | .cursor z, .unfocus => do let t ← z.unfocus; return (.tree t, .unit)
  | .tree t, .focus i => do
    match ← t.focus i with
    | some z => return (.cursor z, .found true)
    | none => return (.tree t, .found false)
  | .tree t, .focusLeft => do let z ← t.focusLeft; return (.cursor z, .unit)
  | s, _ => .ok (s, .unit)

/-- A whole history. -/
def St.run [RazMeta E M] : St E M → List (ApiOp E (RazMeta.Index E M)) → P (St E M × List (Out E))
  | s, [] => .ok (s, [])
  | s, op :: ops => do
    let (s', o) ← s.step op
    let (s'', os) ← St.run s' ops
    return (s'', o :: os)

/-! ### Specification on plain lists -/

/-- The plain counterpart: two lists of elements (nearest to the cursor first), or one list. -/
inductive LSt (E : Type) where
  | cursor (l r : List E)
  | tree (s : List E)

/-- Plain-list meaning of one call: which results and next states are allowed. -/
inductive LStep {I : Type} : LSt E → ApiOp E I → Out E → LSt E → Prop
  | pushL (l r e n) : LStep (.cursor l r) (.pushL e) (.count n) (.cursor (e :: l) r)
  | pushR (l r e n) : LStep (.cursor l r) (.pushR e) (.count n) (.cursor l (e :: r))
  | popL (l r) : LStep (.cursor l r) .popL (.val l.head?) (.cursor l.tail r)
  | popR (l r) : LStep (.cursor l r) .popR (.val r.head?) (.cursor l r.tail)
  | peekL (l r) : LStep (.cursor l r) .peekL (.val l.head?) (.cursor l r)
  | peekR (l r) : LStep (.cursor l r) .peekR (.val r.head?) (.cursor l r)
  | archL (l r lev nm) : LStep (.cursor l r) (.archL lev nm) .unit (.cursor l r)
  | archR (l r lev nm) : LStep (.cursor l r) (.archR lev nm) .unit (.cursor l r)
  | unfocus (l r) : LStep (.cursor l r) .unfocus .unit (.tree (l.reverse ++ r))
  | focus (l r s i) (h : s = l.reverse ++ r) : LStep (.tree s) (.focus i) (.found true) (.cursor l r)
  | nofocus (s i) : LStep (.tree s) (.focus i) (.found false) (.tree s)
  | focusLeft (s) : LStep (.tree s) .focusLeft .unit (.cursor [] s)
  | ignoreC (l r op) (h : (∃ i, op = .focus i) ∨ op = .focusLeft) : LStep (.cursor l r) op .unit (.cursor l r)
  | ignoreT (s op) (h : (∀ i, op ≠ .focus i) ∧ op ≠ .focusLeft) : LStep (.tree s) op .unit (.tree s)

/-- Plain-list meaning of a history. -/
inductive LRun {I : Type} : LSt E → List (ApiOp E I) → List (Out E) → LSt E → Prop
  | nil (s) : LRun s [] [] s
  | cons {s s' s'' op ops o os} : LStep s op o s' → LRun s' ops os s'' → LRun s (op :: ops) (o :: os) s''

/-- Reading a model state as plain lists. -/
def St.read : St E M → LSt E
  | .cursor z => .cursor z.leftElems z.rightElems
  | .tree t => .tree t.elems

/-- Levels used for archiving are at least 1 (0 is the level of leaves, src/raz.rs:687-689). -/
def ApiOp.LevelOK {I : Type} : ApiOp E I → Prop
  | .archL lev _ => 1 ≤ lev
  | .archR lev _ => 1 ≤ lev
  | _ => True

end Iodyn
