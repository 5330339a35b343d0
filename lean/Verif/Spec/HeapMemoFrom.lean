import Verif.Model.HeapMemoFrom
import Verif.Model.MemoFrom
import Verif.Spec.Heap
import Verif.Spec.Levels
/-
Clients that also fill archive stacks and turn them into sequences with `memo_from`, in the same namespace.
-/
namespace Iodyn
variable {E M : Type}

/-- Which conversion: of `AtTail` or of `AtHead` (src/archive_stack.rs:45-56). -/
inductive End where
  | tail | head
  deriving DecidableEq

/-- What a client does. Sequences and stacks are numbered separately, each in order of creation. -/
inductive SEv (E I : Type) where
  /-- a statement about sequences, see `Cmd` -/
  | stmt (c : Cmd E I)
  /-- `let x = AStack::new()` -/
  | stack
  /-- `let x = s_j.clone()` -/
  | sclone (j : Nat)
  /-- `s_j.push(x)` -/
  | spush (j : Nat) (x : E)
  /-- `s_j.archive(nm, lev)` -/
  | sarch (j : Nat) (nm : Option Name) (lev : Nat)
  /-- `let x = RazTree::memo_from(&AtTail(s_j))`, after which `s_j` is not used any more; with a clone before it, a client that
  still uses the stack -/
  | conv (w : End) (j : Nat)

/-- The names that an event brings in. -/
def SEv.names {I : Type} : SEv E I → List Name
  | .stmt c => c.names
  | .sarch _ nm _ => nm.toList
  | _ => []

/-- Whether the event makes a clone. -/
def SEv.isClone {I : Type} : SEv E I → Bool
  | .stmt c => c.isClone
  | .sclone _ => true
  | _ => false

/-! ### With values -/

/-- Sequences and stacks; `none` is a variable whose value was moved away. -/
structure SSt (E M : Type) where
  vars : Vars E M
  stacks : List (Option (AStack E Nat))

/-- The conversions, Verif/Model/MemoFrom.lean. -/
def End.conv [RazMeta E M] : End → AStack E Nat → P (RazTree E M)
  | .tail, s => memoFromTail s
  | .head, s => memoFromHead s

/-- One event. Events that rustc would reject do nothing. -/
def SSt.step [RazMeta E M] (st : SSt E M) : SEv E (RazMeta.Index E M) → P (SSt E M × Out E)
  | .stmt c => do
    let (vs, o) ← st.vars.step c
    return (⟨vs, st.stacks⟩, o)
  | .stack => return (⟨st.vars, st.stacks ++ [some AStack.new]⟩, .unit)
  | .sclone j =>
    match st.stacks[j]? with
    | some (some s) => return (⟨st.vars, st.stacks ++ [some s]⟩, .unit)
    | _ => return (st, .unit)
  | .spush j x =>
    match st.stacks[j]? with
    | some (some s) => return (⟨st.vars, st.stacks.set j (some (s.push x))⟩, .unit)
    | _ => return (st, .unit)
  | .sarch j nm lev =>
    match st.stacks[j]? with
    | some (some s) => return (⟨st.vars, st.stacks.set j (some (s.archive nm lev).1)⟩, .unit)
    | _ => return (st, .unit)
  | .conv w j =>
    match st.stacks[j]? with
    | some (some s) => do
      let t ← w.conv s
      return (⟨st.vars ++ [some (.tree t)], st.stacks.set j none⟩, .unit)
    | _ => return (st, .unit)

/-- All events. -/
def SSt.run [RazMeta E M] : SSt E M → List (SEv E (RazMeta.Index E M)) → P (SSt E M × List (Out E))
  | st, [] => .ok (st, [])
  | st, ev :: l => do
    let (st', a) ← st.step ev
    let (st'', as) ← SSt.run st' l
    return (st'', a :: as)

/-- The answers with values. -/
def sevAnswers (M : Type) [RazMeta E M] (l : List (SEv E (RazMeta.Index E M))) : P (List (Out E)) :=
  (SSt.run (⟨[], []⟩ : SSt E M) l).map (·.2)

/-! ### Over the store -/
namespace Heap
variable [RazMeta E M]

/-- Sequences and stacks, as handles. -/
structure HSSt (E M : Type) where
  vars : HVars E M
  stacks : List (Option (ASt E))

/-- The conversions, Verif/Model/HeapMemoFrom.lean. -/
def convH (e : Engine) : End → ASt E → HR E M (HTree M)
  | .tail, s => memoFromTail e s
  | .head, s => memoFromHead e s

/-- One event, as `SSt.step`. -/
def HSSt.step (e : Engine) (st : HSSt E M) : SEv E (RazMeta.Index E M) → HR E M (HSSt E M × Out E)
  | .stmt c => do
    let (vs, o) ← st.vars.step e c
    return (⟨vs, st.stacks⟩, o)
  | .stack => return (⟨st.vars, st.stacks ++ [some ASt.new]⟩, .unit)
  | .sclone j =>
    match st.stacks[j]? with
    | some (some s) => return (⟨st.vars, st.stacks ++ [some s]⟩, .unit)
    | _ => return (st, .unit)
  | .spush j x =>
    match st.stacks[j]? with
    | some (some s) => return (⟨st.vars, st.stacks.set j (some (s.push x))⟩, .unit)
    | _ => return (st, .unit)
  | .sarch j nm lev =>
    match st.stacks[j]? with
    | some (some s) => do
      let s' ← s.archive e nm lev
      return (⟨st.vars, st.stacks.set j (some s')⟩, .unit)
    | _ => return (st, .unit)
  | .conv w j =>
    match st.stacks[j]? with
    | some (some s) => do
      let t ← convH e w s
      return (⟨st.vars ++ [some (.tree t)], st.stacks.set j none⟩, .unit)
    | _ => return (st, .unit)

/-- All events. -/
def HSSt.run (e : Engine) : HSSt E M → List (SEv E (RazMeta.Index E M)) → HR E M (HSSt E M × List (Out E))
  | st, [] => return (st, [])
  | st, ev :: l => do
    let (st', a) ← st.step e ev
    let (st'', as) ← HSSt.run e st' l
    return (st'', a :: as)

/-- The result of a client on an empty store: its answers, or the panic it ends with. -/
def SEvAnswers (e : Engine) (l : List (SEv E (RazMeta.Index E M))) (r : P (List (Out E))) : Prop :=
  ∃ f0, ∀ f, f0 ≤ f → (HSSt.run (M := M) e ⟨[], []⟩ l f Store.empty).map (fun x => x.1.2) = r

end Heap

/-- Programs for which sequences and stacks never share a named cell: with the functional engine all, with the incremental one those
without names, and those that use each name once (and none that the library makes itself) and make no clones. -/
def SSafe {I : Type} (e : Engine) (l : List (SEv E I)) : Prop :=
  e = .naive ∨ l.flatMap SEv.names = [] ∨
    ((l.flatMap SEv.names).Nodup ∧ (∀ n ∈ l.flatMap SEv.names, ∀ m, n ≠ .pair m (.str "tree")) ∧ ∀ ev ∈ l, ev.isClone = false)

/-! ### With plain lists -/

/-- Sequences and stacks as plain lists; the list of a stack is in the order of the pushes. -/
structure LSSt (E : Type) where
  vars : LVars E
  stacks : List (Option (List E))

/-- `AtTail`: the first element pushed comes first; `AtHead`: the last. -/
def End.list : End → List E → List E
  | .tail, l => l
  | .head, l => l.reverse

/-- The stack that an event uses. -/
def SEv.stackOf {I : Type} : SEv E I → Option Nat
  | .sclone j | .spush j _ | .sarch j _ _ | .conv _ j => some j
  | _ => none

/-- One event with plain lists. -/
inductive LSEv {I : Type} : LSSt E → SEv E I → Out E → LSSt E → Prop
  | stmt {vs vs' ss c o} : LVStep vs c o vs' → LSEv ⟨vs, ss⟩ (.stmt c) o ⟨vs', ss⟩
  | stack {vs ss} : LSEv ⟨vs, ss⟩ .stack .unit ⟨vs, ss ++ [some []]⟩
  | sclone {vs ss j l} : ss[j]? = some (some l) → LSEv ⟨vs, ss⟩ (.sclone j) .unit ⟨vs, ss ++ [some l]⟩
  | spush {vs ss j x l} : ss[j]? = some (some l) → LSEv ⟨vs, ss⟩ (.spush j x) .unit ⟨vs, ss.set j (some (l ++ [x]))⟩
  | sarch {vs ss j nm lev l} : ss[j]? = some (some l) → LSEv ⟨vs, ss⟩ (.sarch j nm lev) .unit ⟨vs, ss⟩
  | conv {vs ss w j l} : ss[j]? = some (some l) →
    LSEv ⟨vs, ss⟩ (.conv w j) .unit ⟨vs ++ [some (.tree (w.list l))], ss.set j none⟩
  /-- rejected by rustc -/
  | bad {st ev j} : ev.stackOf = some j → (∀ l, st.stacks[j]? ≠ some (some l)) → LSEv st ev .unit st

/-- All events with plain lists. -/
inductive LSEvs {I : Type} : LSSt E → List (SEv E I) → List (Out E) → LSSt E → Prop
  | nil (st) : LSEvs st [] [] st
  | cons {st st' st'' ev l a as} : LSEv st ev a st' → LSEvs st' l as st'' → LSEvs st (ev :: l) (a :: as) st''

/-- Levels are in the range that `memo_from` accepts. -/
def SEv.LevelOK {I : Type} : SEv E I → Prop
  | .stmt c => c.LevelOK
  | .sarch _ _ lev => 1 ≤ lev ∧ lev < u32Max
  | _ => True

/-- Each stack that is converted was pushed to since its last archive point, or was never pushed to. The list says of each stack
whether it was pushed to at all, and since its last archive point. -/
def Tops {I : Type} : List (Option (Bool × Bool)) → List (SEv E I) → Prop
  | _, [] => True
  | bs, .stmt _ :: l => Tops bs l
  | bs, .stack :: l => Tops (bs ++ [some (false, false)]) l
  | bs, .sclone j :: l =>
    match bs[j]? with
    | some (some b) => Tops (bs ++ [some b]) l
    | _ => Tops bs l
  | bs, .spush j _ :: l =>
    match bs[j]? with
    | some (some _) => Tops (bs.set j (some (true, true))) l
    | _ => Tops bs l
  | bs, .sarch j _ _ :: l =>
    match bs[j]? with
    | some (some b) => Tops (bs.set j (some (b.1, false))) l
    | _ => Tops bs l
  | bs, .conv _ j :: l =>
    match bs[j]? with
    | some (some b) => (b.1 = true → b.2 = true) ∧ Tops (bs.set j none) l
    | _ => Tops bs l

/-! ### Filling one stack -/

/-- The event for a step of filling stack `j`. -/
def Fill.ev {I : Type} (j : Nat) : Fill E → SEv E I
  | .push x => .spush j x
  | .archive nm lev => .sarch j nm lev

/-- The names of a step. -/
def Fill.names : Fill E → List Name
  | .push _ => []
  | .archive nm _ => nm.toList

/-- The level of a step is in range. -/
def Fill.LevelOK : Fill E → Prop
  | .push _ => True
  | .archive _ lev => 1 ≤ lev ∧ lev < u32Max

/-- Fill a stack, keep a clone, convert the stack; fill the clone some more and convert it too. -/
def rerun {I : Type} (w : End) (ops : List (Fill E)) (w' : End) (ops' : List (Fill E)) : List (SEv E I) :=
  .stack :: (ops.map (Fill.ev 0) ++ (.sclone 0 :: .conv w 0 :: (ops'.map (Fill.ev 1) ++ [.conv w' 1])))

end Iodyn
