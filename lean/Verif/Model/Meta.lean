import Verif.Model.Basic
/-
Model of src/raz_meta.rs.
-/
namespace Iodyn

/-- `enum Navigation`, src/raz_meta.rs:51-53. -/
inductive Navigation (I : Type) where
  | left (i : I) | right (i : I) | here | nowhere
  deriving DecidableEq, Repr

/-- `trait RazMeta` with its `Index: FirstLast`, src/raz_meta.rs:17-59. `navigate` and `split_vec` may panic. -/
class RazMeta (E : Type) (M : Type) where
  Index : Type
  first : Index
  last : Index
  fromNone : Nat → Option Name → M
  fromVec : List E → Nat → Option Name → M
  fromMeta : M → M → Nat → Option Name → M
  navigate : M → M → Index → P (Navigation Index)
  splitVec : List E → Index → P (List E × List E)

/-- `enum Position`, src/raz_meta.rs:68-70. -/
inductive Position (I : Type) where
  | left | right | center (i : I)
  deriving DecidableEq, Repr

/-- `slice::split_at`, src/raz_meta.rs:96-97, 137-139, 199-200: panics if the index is beyond the length. -/
def splitAt {E : Type} (v : List E) (i : Nat) : P (List E × List E) :=
  if i ≤ v.length then .ok (v.take i, v.drop i) else .error .outOfRange

/-- `impl RazMeta for ()`, src/raz_meta.rs:81-101. -/
instance instRazMetaUnit (E : Type) : RazMeta E Unit where
  Index := Position Unit
  first := .left
  last := .right
  fromNone _ _ := ()
  fromVec _ _ _ := ()
  fromMeta _ _ _ _ := ()
  navigate _ _
    | .left => .ok (.left .left)
    | .right => .ok (.right .right)
    | .center _ => .error .explicit
  splitVec v
    | .left => splitAt v 0
    | .right => splitAt v v.length
    | .center _ => .error .explicit

/-- `struct Count`, src/raz_meta.rs:109. -/
structure Count where
  n : Nat
  deriving DecidableEq, Repr

/-- `Count::navigate`, src/raz_meta.rs:121-132. `l + r` is computed in `Nat` (no overflow). -/
def Count.navigate (l r : Count) (i : Nat) : Navigation Nat :=
  if i = usizeMax then .right i
  else if i > l.n + r.n then .nowhere
  else if i > l.n then .right (i - l.n)
  else if i = l.n then .here
  else .left i

/-- `impl RazMeta for Count`, src/raz_meta.rs:111-147. -/
instance instRazMetaCount (E : Type) : RazMeta E Count where
  Index := Nat
  first := 0
  last := usizeMax
  fromNone _ _ := ⟨0⟩
  fromVec v _ _ := ⟨v.length⟩
  fromMeta l r _ _ := ⟨l.n + r.n⟩
  navigate l r i := .ok (Count.navigate l r i)
  splitVec v i := if i = usizeMax then splitAt v v.length else splitAt v i

/-- `struct Names(HashMap<Name,()>)`, src/raz_meta.rs:155. The key set as a list without order significance;
only membership is observed. -/
structure Names where
  names : List Name
  deriving DecidableEq, Repr

/-- `h.insert(nm,())` on the key set, src/raz_meta.rs:166,171,176-178. -/
def Names.insert (h : List Name) (n : Name) : List Name := if n ∈ h then h else n :: h

/-- insert an optional name, src/raz_meta.rs:166. -/
def Names.insertOpt (h : List Name) : Option Name → List Name
  | none => h
  | some n => Names.insert h n

/-- `Names::from_meta`, src/raz_meta.rs:174-180. -/
def Names.fromMeta (l r : Names) (n : Option Name) : Names :=
  let h := l.names.foldl Names.insert []
  let h := r.names.foldl Names.insert h
  ⟨Names.insertOpt h n⟩

/-- `Names::navigate`, src/raz_meta.rs:181-194. -/
def Names.navigate (l r : Names) : Position Name → Navigation (Position Name)
  | .left => .left .left
  | .right => .right .right
  | .center nm =>
    match decide (nm ∈ l.names), decide (nm ∈ r.names) with
    | true, true => .here
    | true, false => .left (.center nm)
    | false, true => .right (.center nm)
    | false, false => .nowhere

/-- `impl RazMeta for Names`, src/raz_meta.rs:161-204. -/
instance instRazMetaNames (E : Type) : RazMeta E Names where
  Index := Position Name
  first := .left
  last := .right
  fromNone _ n := ⟨Names.insertOpt [] n⟩
  fromVec _ _ n := ⟨Names.insertOpt [] n⟩
  fromMeta l r _ n := Names.fromMeta l r n
  navigate l r i := .ok (Names.navigate l r i)
  splitVec v
    | .left => splitAt v 0
    | .right => splitAt v v.length
    | .center _ => .error .explicit

end Iodyn
