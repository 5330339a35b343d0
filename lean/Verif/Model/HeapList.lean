import Verif.Model.Heap
/-
Model of the rest of src/stack.rs over the store: heads of lists and iterators.
-/
namespace Iodyn.Heap
variable {D X : Type}

/-- `Head::new`, src/stack.rs:83-85. -/
def headNew (e : Engine) (name : Option Name) (elem : X) : H D X Head := pushOnto e none name elem

/-- `Head::push`, src/stack.rs:88-90. -/
def headPush (e : Engine) (h : Head) (name : Option Name) (elem : X) : H D X Head := pushOnto e (some h) name elem

/-- `Head::peek`, src/stack.rs:93-95. -/
def headPeek (h : Head) : H D X X := do
  let (x, _) ← forceBody h.main
  return x

/-- `Head::name`, src/stack.rs:98-100. -/
def headName (h : Head) : Option Name := h.name

/-- `Head::pull`, src/stack.rs:103-105. -/
def headPull (h : Head) : H D X (Option Head) := do
  let (_, n) ← forceBody h.main
  return n

/-- `Stack::name`, src/stack.rs:61-66. -/
def stackName : Option Head → Option Name
  | none => none
  | some h => h.name

/-- `Stack::is_empty`, src/stack.rs:46-48. -/
def stackIsEmpty (s : Option Head) : Bool := s.isNone

/-- `struct Iter<T>`, src/stack.rs:136-138. -/
structure Iter where
  next : Option Head
  deriving DecidableEq

/-- `Stack::iter`, src/stack.rs:74-76. -/
def stackIter (s : Option Head) : Iter := ⟨s⟩

/-- `Head::iter`, src/stack.rs:108-110. -/
def headIter (h : Head) : Iter := ⟨some h⟩

/-- `Iter::name`, src/stack.rs:143-148. -/
def Iter.name (i : Iter) : Option Name :=
  match i.next with
  | none => none
  | some h => h.name

/-- `Iter::next`, src/stack.rs:155-161; gives the iterator after the call. -/
def Iter.step (i : Iter) : H D X (Iter × Option X) :=
  match i.next with
  | none => return (⟨none⟩, none)
  | some h => do
    let (x, n) ← forceBody h.main
    return (⟨n⟩, some x)

/-- The variables of a program that uses the lists of src/stack.rs:24-138: stacks, heads and iterators. -/
structure Vars where
  stacks : List (Option Head)
  heads : List Head
  iters : List Iter

/-- What a call of the API gives (src/stack.rs:46, 56, 61, 93, 98, 143, 155). A call that only makes a new list or iterator gives `made`; one on
a variable that does not exist is no call. -/
inductive Out (X : Type) where
  | made
  | absent
  | flag (b : Bool)
  | elem (x : Option X)
  | name (n : Option Name)
  deriving DecidableEq

/-- A call of the API on variables given by number (src/stack.rs:42-163). Results are new variables; `next` changes its iterator. `wrap` and
`unwrap` go between `Stack` and `Head` by the public field (src/stack.rs:24). -/
inductive Call (X : Type) where
  | newStack
  | isEmpty (s : Nat)
  | push (s : Nat) (name : Option Name) (elem : X)
  | peek (s : Nat)
  | name (s : Nat)
  | pull (s : Nat)
  | iter (s : Nat)
  | wrap (h : Nat)
  | unwrap (s : Nat)
  | newHead (name : Option Name) (elem : X)
  | pushHead (h : Nat) (name : Option Name) (elem : X)
  | peekHead (h : Nat)
  | nameHead (h : Nat)
  | pullHead (h : Nat)
  | iterHead (h : Nat)
  | iterName (i : Nat)
  | next (i : Nat)

/-- One call over the store (src/stack.rs:42-163). -/
def Call.run (e : Engine) (v : Vars) : Call X → H D X (Vars × Out X)
  | .newStack => return ({ v with stacks := v.stacks ++ [none] }, .made)
  | .isEmpty s =>
    match v.stacks[s]? with
    | none => return (v, .absent)
    | some s => return (v, .flag (stackIsEmpty s))
  | .push s nm x =>
    match v.stacks[s]? with
    | none => return (v, .absent)
    | some s => do
      let h ← pushOnto e s nm x
      return ({ v with stacks := v.stacks ++ [some h] }, .made)
  | .peek s =>
    match v.stacks[s]? with
    | none => return (v, .absent)
    | some s => do
      let o ← stackPeek s
      return (v, .elem o)
  | .name s =>
    match v.stacks[s]? with
    | none => return (v, .absent)
    | some s => return (v, .name (stackName s))
  | .pull s =>
    match v.stacks[s]? with
    | none => return (v, .absent)
    | some s => do
      let o ← stackPull s
      match o with
      | none => return (v, .absent)
      | some t => return ({ v with stacks := v.stacks ++ [t] }, .made)
  | .iter s =>
    match v.stacks[s]? with
    | none => return (v, .absent)
    | some s => return ({ v with iters := v.iters ++ [stackIter s] }, .made)
  | .wrap h =>
    match v.heads[h]? with
    | none => return (v, .absent)
    | some h => return ({ v with stacks := v.stacks ++ [some h] }, .made)
  | .unwrap s =>
    match v.stacks[s]? with
    | none => return (v, .absent)
    | some none => return (v, .absent)
    | some (some h) => return ({ v with heads := v.heads ++ [h] }, .made)
  | .newHead nm x => do
    let h ← headNew e nm x
    return ({ v with heads := v.heads ++ [h] }, .made)
  | .pushHead h nm x =>
    match v.heads[h]? with
    | none => return (v, .absent)
    | some h => do
      let h' ← headPush e h nm x
      return ({ v with heads := v.heads ++ [h'] }, .made)
  | .peekHead h =>
    match v.heads[h]? with
    | none => return (v, .absent)
    | some h => do
      let x ← headPeek h
      return (v, .elem (some x))
  | .nameHead h =>
    match v.heads[h]? with
    | none => return (v, .absent)
    | some h => return (v, .name (headName h))
  | .pullHead h =>
    match v.heads[h]? with
    | none => return (v, .absent)
    | some h => do
      let t ← headPull h
      return ({ v with stacks := v.stacks ++ [t] }, .made)
  | .iterHead h =>
    match v.heads[h]? with
    | none => return (v, .absent)
    | some h => return ({ v with iters := v.iters ++ [headIter h] }, .made)
  | .iterName i =>
    match v.iters[i]? with
    | none => return (v, .absent)
    | some i => return (v, .name i.name)
  | .next i =>
    match v.iters[i]? with
    | none => return (v, .absent)
    | some it => do
      let (it', o) ← it.step
      return ({ v with iters := v.iters.set i it' }, .elem o)

/-- Calls in turn (src/stack.rs:42-163). -/
def runCalls (e : Engine) (v : Vars) : List (Call X) → H D X (List (Out X))
  | [] => return []
  | c :: cs => do
    let (v, o) ← c.run e v
    let os ← runCalls e v cs
    return o :: os

end Iodyn.Heap
