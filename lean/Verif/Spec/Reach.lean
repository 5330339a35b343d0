import Verif.Spec.Api
import Verif.Spec.Stacks
/-
The cursors and trees that a client of src/raz.rs can obtain.
-/
namespace Iodyn

/-- Which calls the client uses. -/
structure Usage where
  /-- `RazTree::join` with an arbitrary level (src/raz.rs:121) -/
  join : Bool
  /-- `memo_from` of a stack that was archived and not pushed to since (src/raz.rs:721, 796) -/
  emptyTop : Bool

/-- Every call of the API. -/
def Usage.any : Usage := ⟨true, true⟩
/-- Every call except those that make empty leaves. -/
def Usage.full : Usage := ⟨true, false⟩
/-- Additionally without `RazTree::join`. -/
def Usage.edit : Usage := ⟨false, false⟩

/-- Cursors and trees that a client can obtain, archiving at levels from 1 on. -/
inductive Reach (u : Usage) : (E M : Type) → (inst : RazMeta E M) → St E M → Prop
  | new {E M : Type} {inst : RazMeta E M} : Reach u E M inst (St.cursor Raz.new)
  | pushL {E M : Type} {inst : RazMeta E M} {z : Raz E M} (e : E) :
    Reach u E M inst (St.cursor z) → Reach u E M inst (St.cursor (z.pushLeft e).1)
  | pushR {E M : Type} {inst : RazMeta E M} {z : Raz E M} (e : E) :
    Reach u E M inst (St.cursor z) → Reach u E M inst (St.cursor (z.pushRight e).1)
  | archL {E M : Type} {inst : RazMeta E M} {z : Raz E M} {lev : Nat} (nm : Option Name) :
    1 ≤ lev → Reach u E M inst (St.cursor z) → Reach u E M inst (St.cursor (z.archiveLeft lev nm))
  | archR {E M : Type} {inst : RazMeta E M} {z : Raz E M} {lev : Nat} (nm : Option Name) :
    1 ≤ lev → Reach u E M inst (St.cursor z) → Reach u E M inst (St.cursor (z.archiveRight lev nm))
  | popL {E M : Type} {inst : RazMeta E M} {z z' : Raz E M} {e} :
    Reach u E M inst (St.cursor z) → z.popLeft = .ok (z', e) → Reach u E M inst (St.cursor z')
  | popR {E M : Type} {inst : RazMeta E M} {z z' : Raz E M} {e} :
    Reach u E M inst (St.cursor z) → z.popRight = .ok (z', e) → Reach u E M inst (St.cursor z')
  | focus {E M : Type} {inst : RazMeta E M} [LawfulMeta E M] {t : RazTree E M} {i : RazMeta.Index E M}
    {z : Raz E M} : Reach u E M inst (St.tree t) → t.focus i = .ok (some z) → Reach u E M inst (St.cursor z)
  | focusLeft {E M : Type} {inst : RazMeta E M} {t : RazTree E M} {z : Raz E M} :
    Reach u E M inst (St.tree t) → t.focusLeft = .ok z → Reach u E M inst (St.cursor z)
  | empty {E M : Type} {inst : RazMeta E M} : Reach u E M inst (St.tree RazTree.empty)
  | unfocus {E M : Type} {inst : RazMeta E M} {z : Raz E M} {t : RazTree E M} :
    Reach u E M inst (St.cursor z) → z.unfocus = .ok t → Reach u E M inst (St.tree t)
  | fromVec {E M : Type} {inst : RazMeta E M} {v : List E} {t : RazTree E M} :
    RazTree.fromVec v = .ok (some t) → Reach u E M inst (St.tree t)
  | join {E M : Type} {inst : RazMeta E M} {a b t : RazTree E M} {lev : Nat} {nm : Option Name} :
    u.join = true → Reach u E M inst (St.tree a) → Reach u E M inst (St.tree b) → 1 ≤ lev → a.join lev nm b = .ok (some t) →
    Reach u E M inst (St.tree t)
  | memoTail {E M : Type} {inst : RazMeta E M} {s : AStack E Nat} {t : RazTree E M} :
    s.Built (fun n => 1 ≤ n ∧ n < u32Max) → (u.emptyTop = true ∨ s.current ≠ [] ∨ s.archived = []) →
    memoFromTail s = .ok t → Reach u E M inst (St.tree t)
  | memoHead {E M : Type} {inst : RazMeta E M} {s : AStack E Nat} {t : RazTree E M} :
    s.Built (fun n => 1 ≤ n ∧ n ≤ u32Max) → (u.emptyTop = true ∨ s.current ≠ [] ∨ s.archived = []) →
    memoFromHead s = .ok t → Reach u E M inst (St.tree t)
  | map {E M F N : Type} {inst : RazMeta E M} {inst' : RazMeta F N} {t : RazTree E M} {t' : RazTree F N}
    (f : E → F) : Reach u E M inst (St.tree t) → t.map f = .ok t' → Reach u F N inst' (St.tree t')

/-- A cursor that a client can obtain. -/
abbrev Raz.Reachable {E M : Type} [inst : RazMeta E M] (u : Usage) (z : Raz E M) : Prop := Reach u E M inst (St.cursor z)
/-- A tree that a client can obtain. -/
abbrev RazTree.Reachable {E M : Type} [inst : RazMeta E M] (u : Usage) (t : RazTree E M) : Prop := Reach u E M inst (St.tree t)
/-- A state that a client can obtain. -/
abbrev St.Reachable {E M : Type} [inst : RazMeta E M] (u : Usage) (s : St E M) : Prop := Reach u E M inst s

end Iodyn
