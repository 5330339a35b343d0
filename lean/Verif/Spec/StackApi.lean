import Verif.Model.Stack
/-
Calls of the archive stack (src/archive_stack.rs), the model's answers, and their specification on a list of
elements and archive points.
-/
namespace Iodyn
variable {E M : Type}

/-- Calls of the archive stack. -/
inductive SOp (E M : Type) where
  | push (e : E) | extend (v : List E) | extendRev (v : List E)
  | archive (nm : Option Name) (m : M)
  | pop | popMeta | nextArchive | iter
  | peek | name | isEmpty | activeLen | activeData

/-- Answers of the archive stack. -/
inductive SOut (E M : Type) where
  | unit
  | bool (b : Bool)
  | val (o : Option E)
  | valMeta (o : Option (E × Option M))
  | vec (o : Option (List E × Option M))
  | name (o : Option Name)
  | len (n : Nat)
  | data (v : List E)
  deriving DecidableEq

/-- One call, src/archive_stack.rs:78-197. `iter` consumes the stack (src/archive_stack.rs:180-197); its
iterator is run until it ends, at most `size + 1` times. -/
def AStack.step (s : AStack E M) : SOp E M → P (AStack E M × SOut E M)
  | .push e => .ok (s.push e, .unit)
  | .extend v => .ok (s.extend v, .unit)
  | .extendRev v => .ok (s.extendRev v, .unit)
  | .archive nm m => .ok ((s.archive nm m).1, .bool (s.archive nm m).2)
  | .pop => do let (s', o) ← s.pop; return (s', .val o)
  | .popMeta => do let (s', o) ← s.popMeta; return (s', .valMeta o)
  | .nextArchive => .ok (s.nextArchive.1, .vec s.nextArchive.2)
  | .iter => do
    let v ← s.drain (s.current.length + (s.archived.map (fun p => p.2.2.length)).sum + 1)
    return (AStack.new, .data v)
  | .peek => do let o ← s.peek; return (s, .val o)
  | .name => .ok (s, .name s.name)
  | .isEmpty => .ok (s, .bool s.isEmpty)
  | .activeLen => .ok (s, .len s.activeLen)
  | .activeData => .ok (s, .data s.activeData)

/-- All answers of a history of calls. -/
def AStack.answers (s : AStack E M) : List (SOp E M) → P (List (SOut E M))
  | [] => .ok []
  | op :: ops => do
    let (s', o) ← s.step op
    let os ← s'.answers ops
    return o :: os

/-! ### Specification -/

/-- An element, or an archive point with its name and metadata. -/
inductive SItem (E M : Type) where
  | elem (e : E)
  | arch (nm : Option Name) (m : M)
  deriving DecidableEq

/-- The element of an item. -/
def SItem.elem? : SItem E M → Option E
  | .elem e => some e
  | .arch .. => none

/-- The elements before the first archive point, and the rest. -/
def topSegment : List (SItem E M) → List E × List (SItem E M)
  | .elem e :: l => (e :: (topSegment l).1, (topSegment l).2)
  | l => ([], l)

/-- Specification of the calls on the list of items, top first: the next list and the answer. -/
def specStep (l : List (SItem E M)) : SOp E M → List (SItem E M) × SOut E M
  | .push e => (.elem e :: l, .unit)
  | .extend v => (v.reverse.map .elem ++ l, .unit)
  | .extendRev v => (((topSegment l).1.reverse ++ v).map .elem ++ (topSegment l).2, .unit)
  | .archive nm m =>
    match l with
    | .elem _ :: _ => (.arch nm m :: l, .bool true)
    | _ => (l, .bool false)
  | .pop =>
    match l with
    | .elem e :: r => (r, .val (some e))
    | .arch _ _ :: .elem e :: r => (r, .val (some e))
    | _ => (l, .val none)
  | .popMeta =>
    match l with
    | .elem e :: r => (r, .valMeta (some (e, none)))
    | .arch _ m :: .elem e :: r => (r, .valMeta (some (e, some m)))
    | _ => (l, .valMeta none)
  | .nextArchive =>
    if l.isEmpty then (l, .vec none)
    else match (topSegment l).2 with
      | .arch _ m :: r => (r, .vec (some ((topSegment l).1.reverse, some m)))
      | r => (r, .vec (some ((topSegment l).1.reverse, none)))
  | .iter => ([], .data (l.filterMap SItem.elem?))
  | .peek => (l, .val (l.filterMap SItem.elem?).head?)
  | .name => (l, .name (l.findSome? (fun i => match i with
      | .arch nm _ => some nm
      | .elem _ => none)).join)
  | .isEmpty => (l, .bool l.isEmpty)
  | .activeLen => (l, .len (topSegment l).1.length)
  | .activeData => (l, .data (topSegment l).1.reverse)

/-- Specified answers of a history. -/
def specAnswers (l : List (SItem E M)) : List (SOp E M) → List (SOut E M)
  | [] => []
  | op :: ops => (specStep l op).2 :: specAnswers (specStep l op).1 ops

/-- A plain stack of elements (top first), for the calls that do not look at archives. -/
def plainStep (l : List E) : SOp E M → List E × Option E
  | .push e => (e :: l, none)
  | .extend v => (v.reverse ++ l, none)
  | .pop => (l.tail, l.head?)
  | .popMeta => (l.tail, l.head?)
  | .peek => (l, l.head?)
  | _ => (l, none)

/-- The element that an answer reports. -/
def SOut.elem? : SOut E M → Option E
  | .val o => o
  | .valMeta o => o.map Prod.fst
  | _ => none

end Iodyn
