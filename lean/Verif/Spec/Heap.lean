import Verif.Model.Heap
import Verif.Spec.Api
/-
Programs over several sequences: variables, clones, calls, `from_vec` and `join`. Each program has a meaning with
values (every variable its own functional value, Verif/Spec/Api.lean) and a meaning over the store of articulations
(Verif/Model/Heap.lean), where clones share cells.
-/
namespace Iodyn
variable {E M : Type}

/-- Statements of a client. Variables are numbered in order of creation. -/
inductive Cmd (E I : Type) where
  /-- `let x = Raz::new()` -/
  | new
  /-- `let x = RazTree::from_vec(v)` -/
  | fromVec (v : List E)
  /-- `let x = v_i.clone()` -/
  | clone (i : Nat)
  /-- a call on variable `i` -/
  | op (i : Nat) (o : ApiOp E I)
  /-- `let x = RazTree::join(v_i, lev, nm, v_j)`, which consumes `v_i` and `v_j` -/
  | join (i : Nat) (lev : Nat) (nm : Option Name) (j : Nat)

/-- The names that a statement brings in. -/
def Cmd.names {I : Type} : Cmd E I → List Name
  | .op _ (.archL _ nm) => nm.toList
  | .op _ (.archR _ nm) => nm.toList
  | .join _ _ nm _ => nm.toList
  | _ => []

/-- Whether the statement makes a clone. -/
def Cmd.isClone {I : Type} : Cmd E I → Bool
  | .clone _ => true
  | _ => false

/-! ### With values -/

/-- The variables; `none` is a variable whose value was moved away. -/
abbrev Vars (E M : Type) := List (Option (St E M))

/-- One statement. Statements that rustc would reject (unknown or moved variable, wrong type) do nothing. -/
def Vars.step [RazMeta E M] (vs : Vars E M) : Cmd E (RazMeta.Index E M) → P (Vars E M × Out E)
  | .new => .ok (vs ++ [some (.cursor Raz.new)], .unit)
  | .fromVec v => do
    match ← (RazTree.fromVec v : P (Option (RazTree E M))) with
    | some t => return (vs ++ [some (.tree t)], .found true)
    | none => return (vs, .found false)
  | .clone i =>
    match vs[i]? with
    | some (some s) => .ok (vs ++ [some s], .unit)
    | _ => .ok (vs, .unit)
  | .op i o =>
    match vs[i]? with
    | some (some s) => do
      let (s', out) ← s.step o
      return (vs.set i (some s'), out)
    | _ => .ok (vs, .unit)
  | .join i lev nm j =>
    match vs[i]?, vs[j]? with
    | some (some (.tree a)), some (some (.tree b)) =>
      if i = j then .ok (vs, .unit)
      else do
        match ← a.join lev nm b with
        | some t => return ((vs.set i none).set j (some (.tree t)), .found true)
        | none => return ((vs.set i none).set j none, .found false)
    | _, _ => .ok (vs, .unit)

/-- A whole program. -/
def Vars.run [RazMeta E M] : Vars E M → List (Cmd E (RazMeta.Index E M)) → P (Vars E M × List (Out E))
  | vs, [] => .ok (vs, [])
  | vs, c :: cs => do
    let (vs', o) ← vs.step c
    let (vs'', os) ← Vars.run vs' cs
    return (vs'', o :: os)

/-! ### Over the store -/
namespace Heap

/-- What a client holds, as handles. -/
inductive HSt (E M : Type) where
  | cursor (z : HRaz E)
  | tree (t : HTree M)

/-- One call, as `St.step`. -/
def HSt.step [RazMeta E M] (e : Engine) : HSt E M → ApiOp E (RazMeta.Index E M) → HR E M (HSt E M × Out E)
  | .cursor z, .pushL x => return (.cursor (z.pushLeft x).1, .count (z.pushLeft x).2)
  | .cursor z, .pushR x => return (.cursor (z.pushRight x).1, .count (z.pushRight x).2)
  | .cursor z, .popL => do let (z', x) ← z.popLeft e; return (.cursor z', .val x)
  | .cursor z, .popR => do let (z', x) ← z.popRight e; return (.cursor z', .val x)
  | .cursor z, .peekL => do let x ← z.peekLeft e; return (.cursor z, .val x)
  | .cursor z, .peekR => do let x ← z.peekRight e; return (.cursor z, .val x)
  | .cursor z, .archL lev nm => do let z' ← z.archiveLeft e lev nm; return (.cursor z', .unit)
  | .cursor z, .archR lev nm => do let z' ← z.archiveRight e lev nm; return (.cursor z', .unit)
  | .cursor z, .unfocus => do let t ← z.unfocus e; return (.tree t, .unit)
  | .tree t, .focus i => do
    match ← t.focus i with
    | some z => return (.cursor z, .found true)
    | none => return (.tree t, .found false)
  | .tree t, .focusLeft => do let z ← t.focusLeft; return (.cursor z, .unit)
  | s, _ => return (s, .unit)

/-- The variables, as handles. -/
abbrev HVars (E M : Type) := List (Option (HSt E M))

/-- One statement, as `Vars.step`. A clone copies handles only. -/
def HVars.step [RazMeta E M] (e : Engine) (vs : HVars E M) : Cmd E (RazMeta.Index E M) → HR E M (HVars E M × Out E)
  | .new => return (vs ++ [some (.cursor HRaz.new)], .unit)
  | .fromVec v => do
    match ← HTree.fromVec e v with
    | some t => return (vs ++ [some (.tree t)], .found true)
    | none => return (vs, .found false)
  | .clone i =>
    match vs[i]? with
    | some (some s) => return (vs ++ [some s], .unit)
    | _ => return (vs, .unit)
  | .op i o =>
    match vs[i]? with
    | some (some s) => do
      let (s', out) ← s.step e o
      return (vs.set i (some s'), out)
    | _ => return (vs, .unit)
  | .join i lev nm j =>
    match vs[i]?, vs[j]? with
    | some (some (.tree a)), some (some (.tree b)) =>
      if i = j then return (vs, .unit)
      else do
        match ← a.join e lev nm b with
        | some t => return ((vs.set i none).set j (some (.tree t)), .found true)
        | none => return ((vs.set i none).set j none, .found false)
    | _, _ => return (vs, .unit)

/-- A whole program. -/
def HVars.run [RazMeta E M] (e : Engine) : HVars E M → List (Cmd E (RazMeta.Index E M)) → HR E M (HVars E M × List (Out E))
  | vs, [] => return (vs, [])
  | vs, c :: cs => do
    let (vs', o) ← vs.step e c
    let (vs'', os) ← HVars.run e vs' cs
    return (vs'', o :: os)

/-- The result of a whole program on an empty store: its answers, or the panic it ends with. -/
def Answers [RazMeta E M] (e : Engine) (cs : List (Cmd E (RazMeta.Index E M))) (r : P (List (Out E))) : Prop :=
  ∃ f0, ∀ f, f0 ≤ f → (HVars.run (M := M) e [] cs f Store.empty).map (fun x => x.1.2) = r

end Heap

/-- The answers with values. -/
def answers (M : Type) [RazMeta E M] (cs : List (Cmd E (RazMeta.Index E M))) : P (List (Out E)) :=
  (Vars.run (M := M) [] cs).map (·.2)

/-- Names used as documented for a single owner: each name once, and none that the library makes itself
(`name_pair(n, "tree")`, src/raz.rs:444). -/
def GoodNames {I : Type} (cs : List (Cmd E I)) : Prop :=
  (cs.flatMap Cmd.names).Nodup ∧ ∀ n ∈ cs.flatMap Cmd.names, ∀ m, n ≠ .pair m (.str "tree")

/-- No names at all. -/
def NoNames {I : Type} (cs : List (Cmd E I)) : Prop := cs.flatMap Cmd.names = []

/-- No clones. -/
def NoClones {I : Type} (cs : List (Cmd E I)) : Prop := ∀ c ∈ cs, c.isClone = false

/-! ### With plain lists -/

/-- Levels are at least 1. -/
def Cmd.LevelOK {I : Type} : Cmd E I → Prop
  | .op _ o => o.LevelOK
  | .join _ lev _ _ => 1 ≤ lev
  | _ => True

/-- The variables as plain lists; `none` is a variable whose value was moved away. -/
abbrev LVars (E : Type) := List (Option (LSt E))

/-- The variable holds a tree with these elements. -/
def LVars.IsTree (vs : LVars E) (i : Nat) (a : List E) : Prop := vs[i]? = some (some (.tree a))

/-- Plain-list meaning of a statement: a statement changes at most the variable it names. -/
inductive LVStep {I : Type} : LVars E → Cmd E I → Out E → LVars E → Prop
  | new (vs) : LVStep vs .new .unit (vs ++ [some (.cursor [] [])])
  | fromVec (vs v) (h : v ≠ []) : LVStep vs (.fromVec v) (.found true) (vs ++ [some (.tree v)])
  | fromNil (vs) : LVStep vs (.fromVec []) (.found false) vs
  | clone (vs i s) (h : vs[i]? = some (some s)) : LVStep vs (.clone i) .unit (vs ++ [some s])
  | op (vs i s o out s') (h : vs[i]? = some (some s)) (hs : LStep s o out s') :
    LVStep vs (.op i o) out (vs.set i (some s'))
  | join (vs i lev nm j a b) (hij : i ≠ j) (ha : vs.IsTree i a) (hb : vs.IsTree j b) (h : a ≠ [] ∧ b ≠ []) :
    LVStep vs (.join i lev nm j) (.found true) ((vs.set i none).set j (some (.tree (a ++ b))))
  | joinNil (vs i lev nm j a b) (hij : i ≠ j) (ha : vs.IsTree i a) (hb : vs.IsTree j b) (h : a = [] ∨ b = []) :
    LVStep vs (.join i lev nm j) (.found false) ((vs.set i none).set j none)
  /-- programs that rustc rejects -/
  | badClone (vs i) (h : ∀ s, vs[i]? ≠ some (some s)) : LVStep vs (.clone i) .unit vs
  | badOp (vs i o) (h : ∀ s, vs[i]? ≠ some (some s)) : LVStep vs (.op i o) .unit vs
  | badJoin (vs i lev nm j) (h : i = j ∨ (∀ a, ¬ vs.IsTree i a) ∨ ∀ b, ¬ vs.IsTree j b) :
    LVStep vs (.join i lev nm j) .unit vs

/-- Plain-list meaning of a program. -/
inductive LVRun {I : Type} : LVars E → List (Cmd E I) → List (Out E) → LVars E → Prop
  | nil (vs) : LVRun vs [] [] vs
  | cons {vs vs' vs'' c cs o os} : LVStep vs c o vs' → LVRun vs' cs os vs'' → LVRun vs (c :: cs) (o :: os) vs''

/-! ### Stacks alone -/

/-- Statements of a client of `Stack`, src/stack.rs:42-71. Every statement makes a new variable; variable 0 is the empty
stack. -/
inductive SCmd (X : Type) where
  /-- `let x = v_i.push(nm, e)` -/
  | push (i : Nat) (nm : Option Name) (e : X)
  /-- `let x = v_i.pull()` where it is `Some` -/
  | pull (i : Nat)

/-- The name that a statement brings in. -/
def SCmd.names {X : Type} : SCmd X → List Name
  | .push _ nm _ => nm.toList
  | .pull _ => []

/-- Stacks as lists of names and elements: the meaning of a statement. No existing variable changes. -/
def stackStep {X : Type} (vs : List (List (Option Name × X))) : SCmd X → List (List (Option Name × X))
  | .push i nm e =>
    match vs[i]? with
    | some s => vs ++ [(nm, e) :: s]
    | none => vs
  | .pull i =>
    match vs[i]? with
    | some (_ :: s) => vs ++ [s]
    | _ => vs

/-- Of a program. -/
def stackRun {X : Type} (cs : List (SCmd X)) : List (List (Option Name × X)) := cs.foldl stackStep [[]]

namespace Heap
variable {D X : Type}

/-- The stack behind the handle reads as this list of names and elements through `name`, `peek` and `pull`
(src/stack.rs:56-71), and reading leaves the store as it is. -/
inductive Reads (σ : Mem D X) : Option Head → List (Option Name × X) → Prop
  | nil {h} (hp : ∀ f, stackPeek h f σ = .ok (none, σ)) (hq : ∀ f, stackPull h f σ = .ok (none, σ)) : Reads σ h []
  | cons {h n x h' s} (hn : h.bind Head.name = n) (hp : ∀ f, stackPeek h f σ = .ok (some x, σ))
    (hq : ∀ f, stackPull h f σ = .ok (some h', σ)) (hr : Reads σ h' s) : Reads σ h ((n, x) :: s)

/-- One statement over the store, as `stackStep`. -/
def hstackStep (e : Engine) (vs : List (Option Head)) : SCmd X → H D X (List (Option Head))
  | .push i nm x =>
    match vs[i]? with
    | some t => do
      let h ← pushOnto e t nm x
      return vs ++ [some h]
    | none => return vs
  | .pull i =>
    match vs[i]? with
    | some t => do
      match ← stackPull t with
      | some t' => return vs ++ [t']
      | none => return vs
    | none => return vs

/-- A program over the store. -/
def hstackRun (e : Engine) : List (Option Head) → List (SCmd X) → H D X (List (Option Head))
  | vs, [] => return vs
  | vs, c :: cs => do
    let vs' ← hstackStep e vs c
    hstackRun e vs' cs

/-- Numbers for anonymous articulations from `next` on are not in use. -/
def Sane {V : Type} (σ : Store V) : Prop := ∀ k, σ.next ≤ k → σ.cells (.anon k) = none

/-- The name is not in use. -/
def Unused {V : Type} (σ : Store V) (n : Name) : Prop := σ.cells (.named n σ.path) = none

end Heap
end Iodyn
