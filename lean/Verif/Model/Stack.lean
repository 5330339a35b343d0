import Verif.Model.Basic
/-
Model of src/stack.rs (functional engine) and src/archive_stack.rs.
-/
namespace Iodyn

/-- `Stack<T>(Option<Head<T>>)`, src/stack.rs:24-36: the list of heads from the top, each with its optional
name and element. Functional engine: the `Art<Body>` is followed. -/
abbrev Stack (T : Type) := List (Option Name × T)

namespace Stack
variable {T : Type}

/-- `Stack::new`, src/stack.rs:42-44. -/
def new : Stack T := []
/-- `Stack::is_empty`, src/stack.rs:46-48. -/
def isEmpty (s : Stack T) : Bool := List.isEmpty s
/-- `Stack::push` / `push_onto`, src/stack.rs:51-53, 114-133. -/
def push (s : Stack T) (name : Option Name) (elem : T) : Stack T := (name, elem) :: s
/-- `Stack::peek`, src/stack.rs:56-58. -/
def peek : Stack T → Option T
  | [] => none
  | (_, e) :: _ => some e
/-- `Stack::name`, src/stack.rs:61-66. -/
def name : Stack T → Option Name
  | [] => none
  | (n, _) :: _ => n
/-- `Stack::pull`, src/stack.rs:69-71. -/
def pull : Stack T → Option (Stack T)
  | [] => none
  | _ :: s => some s

/-- `Iter::next`, src/stack.rs:151-163: the iterator state is the stack still to be visited. -/
def iterNext (s : Stack T) : Stack T × Option T :=
  match s.pull, s.peek with
  | some s', some e => (s', some e)
  | _, _ => (s, none)

/-- `iter().collect()`, src/stack.rs:151-163: run the iterator, at most `n` steps. -/
def collect : Nat → Stack T → List T
  | 0, _ => []
  | n+1, s =>
    match s.iterNext with
    | (_, none) => []
    | (s', some e) => e :: collect n s'

end Stack

/-- `struct AStack`, src/archive_stack.rs:35-40. `current` is in `Vec` order (top is last). -/
structure AStack (E M : Type) where
  current : List E
  archived : Stack (M × List E)
  deriving DecidableEq, Repr

namespace AStack
variable {E M : Type}

/-- `AStack::new` / `with_capacity`, src/archive_stack.rs:62-75. -/
def new : AStack E M := { current := [], archived := [] }

/-- `From<Vec<E>>`, src/archive_stack.rs:200-208. -/
def ofVec (v : List E) : AStack E Unit := { current := v, archived := [] }

/-- `is_empty`, src/archive_stack.rs:78. -/
def isEmpty (s : AStack E M) : Bool := decide (s.current.length = 0) && s.archived.isEmpty
/-- `active_len`, src/archive_stack.rs:80. -/
def activeLen (s : AStack E M) : Nat := s.current.length
/-- `active_data`, src/archive_stack.rs:135-137. -/
def activeData (s : AStack E M) : List E := s.current
/-- `name`, src/archive_stack.rs:82. -/
def name (s : AStack E M) : Option Name := s.archived.name
/-- `push`, src/archive_stack.rs:84. -/
def push (s : AStack E M) (e : E) : AStack E M := { s with current := s.current ++ [e] }

/-- `retrieve`, src/archive_stack.rs:170-177. -/
def retrieve (s : AStack E M) : P (AStack E M × Option M) :=
  if s.current.length = 0 then do
    let (m, v) ← unwrap s.archived.peek
    let a ← unwrap s.archived.pull
    return ({ current := v, archived := a }, some m)
  else .ok (s, none)

/-- `self.current.pop()` on the `Vec`, src/archive_stack.rs:93, 102. -/
def popCurrent (s : AStack E M) : AStack E M × Option E :=
  ({ s with current := s.current.dropLast }, s.current.getLast?)

/-- `pop`, src/archive_stack.rs:90-94. -/
def pop (s : AStack E M) : P (AStack E M × Option E) :=
  if s.isEmpty then .ok (s, none)
  else do
    let (s, _) ← s.retrieve
    return s.popCurrent

/-- `pop_meta`, src/archive_stack.rs:99-103. -/
def popMeta (s : AStack E M) : P (AStack E M × Option (E × Option M)) :=
  if s.isEmpty then .ok (s, none)
  else do
    let (s, m) ← s.retrieve
    let (s, e) := s.popCurrent
    return (s, e.map (fun e => (e, m)))

/-- `extend`, src/archive_stack.rs:107-109. -/
def extend (s : AStack E M) (v : List E) : AStack E M := { s with current := s.current ++ v }
/-- `extend_rev`, src/archive_stack.rs:113-116 (reverses the whole active vector). -/
def extendRev (s : AStack E M) (v : List E) : AStack E M := { s with current := (s.current ++ v).reverse }

/-- `next_archive`, src/archive_stack.rs:120-132. The `expect`/`unwrap` at 127 and 129 are the matched
non-empty case. -/
def nextArchive (s : AStack E M) : AStack E M × Option (List E × Option M) :=
  if s.isEmpty then (s, none)
  else
    match s.archived with
    | [] => ({ current := [], archived := [] }, some (s.current, none))
    | (_, (m, v)) :: rest => ({ current := v, archived := rest }, some (s.current, some m))

/-- `peek`, src/archive_stack.rs:144-150. -/
def peek (s : AStack E M) : P (Option E) :=
  if s.isEmpty then .ok none
  else if s.current.length = 0 then do
    let (_, v) ← unwrap s.archived.peek
    let e ← unwrap v.getLast?
    return some e
  else do
    let e ← unwrap s.current.getLast?
    return some e

/-- `archive` / `archive_with_capacity`, src/archive_stack.rs:156-166. -/
def archive (s : AStack E M) (name : Option Name) (m : M) : AStack E M × Bool :=
  if s.current.length = 0 then (s, false)
  else ({ current := [], archived := s.archived.push name (m, s.current) }, true)

/-- `into_iter().collect()`, src/archive_stack.rs:180-197: repeated `pop`, at most `n` times. -/
def drain : Nat → AStack E M → P (List E)
  | 0, _ => .ok []
  | n+1, s => do
    let (s, e) ← s.pop
    match e with
    | none => return []
    | some e => do
      let es ← drain n s
      return e :: es

/-- Measure for the loops `while let Some(..) = stack.next_archive()`, src/raz.rs:483, 491. -/
def weight (s : AStack E M) : Nat := 2 * s.archived.length + (if s.current = [] then 0 else 1)

theorem nextArchive_weight {s s' : AStack E M} {x} (h : s.nextArchive = (s', some x)) :
    s'.weight < s.weight := by
  unfold nextArchive at h
  split at h
  · simp at h
  · rename_i hne
    split at h
    · rename_i ha
      simp at h
      obtain ⟨rfl, _⟩ := h
      simp [isEmpty, ha, Stack.isEmpty] at hne
      simp [weight, hne]
    · rename_i n m v rest ha
      simp at h
      obtain ⟨rfl, _⟩ := h
      simp only [weight, ha, List.length_cons]
      split <;> split <;> omega

end AStack
end Iodyn
