import Verif.Model.Store
import Verif.Model.Raz
/-
Model of eval/src/accum_lists.rs and eval/src/interface.rs: the sequence interface of the evaluation suite and its
seven implementations. The lists with articulations live in the store of `Verif/Model/Store.lean`; `IRaz` and
`IAStack` are the (functional) models of `Verif/Model/Raz.lean` and `Verif/Model/Stack.lean`.
-/
namespace Iodyn.Eval
variable {X : Type}

/-- `enum List<X>` and `enum RcList<X>`, eval/src/accum_lists.rs:5-11, 43-49. `Box` and `Rc` are transparent and
`clone` is the identity, so that both types have the same model; likewise their functions below. -/
inductive AList (X : Type) where
  | nil
  | cons (x : X) (l : AList X)
  | name (n : Name) (l : AList X)
  | art (a : Loc)

namespace AList

/-- `seq_push`, eval/src/accum_lists.rs:14-16, 52-54. -/
def push (l : AList X) (x : X) : AList X := .cons x l

/-- `seq_pop`, eval/src/accum_lists.rs:17-24, 55-62. `fuel` bounds the recursion depth; running out of it stands for
a call that does not return (endless recursion). -/
def pop (σ : Store (AList X)) : Nat → AList X → P (Option X × AList X)
  | 0, _ => .error .explicit
  | _+1, .nil => .ok (none, .nil)
  | _+1, .cons x l => .ok (some x, l)
  | f+1, .name _ l => pop σ f l
  | f+1, .art a => do
    let l ← σ.force a
    pop σ f l

/-- `archive`, eval/src/accum_lists.rs:28-33, 66-71. -/
def archive (e : Engine) (σ : Store (AList X)) (l : AList X) (_lev : Nat) (nm : Option Name) :
    Store (AList X) × AList X :=
  match nm with
  | none => (σ, l)
  | some n =>
    let (σ, a) := σ.cell e n l
    (σ, .name n (.art a))

end AList

/-- `enum VecList<X>` and `enum RcVecList<X>`, eval/src/accum_lists.rs:80-86, 131-137 (see `AList` on `Box` and
`Rc`). The vectors are in `Vec` order (top is last). -/
inductive VList (X : Type) where
  | nil
  | cons (v : List X) (l : VList X)
  | name (n : Name) (l : VList X)
  | art (a : Loc)

namespace VList

/-- `seq_push`, eval/src/accum_lists.rs:89-97, 140-148. -/
def push (l : VList X) (x : X) : VList X :=
  match l with
  | .cons v l => .cons (v ++ [x]) l
  | l => .cons [x] l

/-- `seq_pop`, eval/src/accum_lists.rs:98-112, 149-163. `fuel` as for `AList.pop`. -/
def pop (σ : Store (VList X)) : Nat → VList X → P (Option X × VList X)
  | 0, _ => .error .explicit
  | _+1, .nil => .ok (none, .nil)
  | _+1, .cons v l => do
    let x ← unwrap v.getLast?
    if v.dropLast.isEmpty then return (some x, l)
    else return (some x, .cons v.dropLast l)
  | f+1, .name _ l => pop σ f l
  | f+1, .art a => do
    let l ← σ.force a
    pop σ f l

/-- `archive`, eval/src/accum_lists.rs:116-121, 167-172. -/
def archive (e : Engine) (σ : Store (VList X)) (l : VList X) (_lev : Nat) (nm : Option Name) :
    Store (VList X) × VList X :=
  match nm with
  | none => (σ, l)
  | some n =>
    let (σ, a) := σ.cell e n l
    (σ, .name n (.art a))

end VList

/-- The traits `IFaceSeq`, `IFaceArchive` (with a level and an optional name) and `IFaceNew`,
eval/src/interface.rs:13-27, over a type `S` with a store `T`. `pop` takes the recursion bound. -/
structure SeqImpl (T S X : Type) where
  new : S
  push : S → X → P S
  pop : Nat → T → S → P (Option X × S)
  archive : T → S → Nat → Option Name → P (T × S)

/-- `List` and `RcList`, eval/src/accum_lists.rs:13-40, 51-78; `new` is `Nil`. -/
def listImpl (e : Engine) : SeqImpl (Store (AList X)) (AList X) X where
  new := .nil
  push l x := .ok (l.push x)
  pop f σ l := AList.pop σ f l
  archive σ l lev nm := .ok (l.archive e σ lev nm)

/-- `VecList` and `RcVecList`, eval/src/accum_lists.rs:88-129, 139-178; `new` is `Nil`. -/
def vecListImpl (e : Engine) : SeqImpl (Store (VList X)) (VList X) X where
  new := .nil
  push l x := .ok (l.push x)
  pop f σ l := VList.pop σ f l
  archive σ l lev nm := .ok (l.archive e σ lev nm)

/-- `IRaz`, eval/src/interface.rs:33-55. -/
def irazImpl : SeqImpl Unit (Raz X Count) X where
  new := Raz.new
  push z x := .ok (z.pushLeft x).1
  pop _ _ z := do
    let (z, x) ← z.popLeft
    return (x, z)
  archive σ z lev nm := .ok (σ, z.archiveLeft lev nm)

/-- `IAStack<T,u32>`, eval/src/interface.rs:61-77, 87-91. -/
def iastackImpl : SeqImpl Unit (AStack X Nat) X where
  new := AStack.new
  push s x := .ok (s.push x)
  pop _ _ s := do
    let (s, x) ← s.pop
    return (x, s)
  archive σ s lev nm := .ok (σ, (s.archive nm lev).1)

/-- `IAStack<T,()>`, eval/src/interface.rs:61-70, 79-91; ignores the metadata. -/
def iastackUnitImpl : SeqImpl Unit (AStack X Unit) X where
  new := AStack.new
  push s x := .ok (s.push x)
  pop _ _ s := do
    let (s, x) ← s.pop
    return (x, s)
  archive σ s _lev nm := .ok (σ, (s.archive nm ()).1)

/-- `Vec`, eval/src/interface.rs:97-116. -/
def vecImpl : SeqImpl Unit (List X) X where
  new := []
  push v x := .ok (v ++ [x])
  pop _ _ v := .ok (v.getLast?, v.dropLast)
  archive σ v _lev _nm := .ok (σ, v)

end Iodyn.Eval
