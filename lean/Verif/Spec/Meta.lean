import Verif.Spec.Items
/-
What metadata should say about a sequence.
-/
namespace Iodyn
variable {E : Type}

/-- The names of the archive points of a tree's sequence. -/
def namesOf (l : List (Item E)) : List Name :=
  l.filterMap (fun i => match i with
    | .mark _ nm => nm
    | _ => none)

/-- `s` is a subtree of a tree. -/
inductive Tree.Sub {D : Type} (s : Tree D) : Tree D → Prop
  | refl : Sub s s
  | left {lv nm d l r} : Sub s l → Sub s (.node lv nm d l r)
  | right {lv nm d l r} : Sub s r → Sub s (.node lv nm d l r)

end Iodyn
