import Verif.Model.IncrLr
import Verif.Spec.IncrMemoFrom
/-
Namespaces in which trees are folded from the left again and again into an archive stack, and clients that edit sequences and run a
computation on them again and again.
-/
namespace Iodyn
namespace Incr
open Iodyn.Heap (Tr Head Cell Mem HTree ASt)
variable {D D' X X' E M T A : Type}

/-- A branch with the name of its memoised call and the name that it carries to its first leaf. -/
def pointFrom (n start : Option Name) (c : Tree D) : List (Name × Option Name × Tree D) :=
  match n, c with
  | some m, .node .. => [(m, start, c)]
  | _, _ => []

/-- All branches below named nodes. -/
def pointsFrom : Option Name → Tree D → List (Name × Option Name × Tree D)
  | _, .nil => []
  | start, .node _ n _ l r => pointFrom (n.map .forkL) start l ++ pointFrom (n.map .forkR) n r ++ pointsFrom start l ++ pointsFrom n r

/-- The nodes of a tree that are not below a branch that is already known. -/
def costFrom [DecidableEq D] (old : List (Name × Option Name × Tree D)) : Option Name → Tree D → Nat
  | _, .nil => 0
  | start, .node _ n _ l r => 1 +
    (if (pointFrom (n.map .forkL) start l).any (· ∈ old) then 0 else costFrom old start l) +
    (if (pointFrom (n.map .forkR) n r).any (· ∈ old) then 0 else costFrom old n r)

/-- Nodes without branches hold elements. -/
def EndsInLeaves : Tree (TreeData E M) → Prop
  | .nil => True
  | .node _ _ d l r => (l = .nil → r = .nil → ∃ v, d = .leaf v) ∧ EndsInLeaves l ∧ EndsInLeaves r

/-- A tree with elements at all of its ends, whose inner nodes all have a name, and not the one which the fold itself uses. -/
def Chunked : Tree (TreeData E M) → Prop
  | .nil => False
  | .node _ n d l r => (l = .nil ∧ r = .nil ∧ ∃ x v, d = .leaf (x :: v)) ∨
      (Chunked l ∧ Chunked r ∧ (∀ v, d ≠ .leaf v) ∧ ∃ m, n = some m ∧ m ≠ .str "start")

section
variable [DecidableEq D] [DecidableEq X] [DecidableEq D'] [DecidableEq X'] [DecidableEq A] [DecidableEq E] [DecidableEq M]

/-- The namespaces that come from folding trees one after the other with one function. The trees are in any stores; the names of the nodes
of one tree are different. -/
inductive Accumulated (node : AccNode (Cell (TreeData E M) X) (Cell D' X') A (TreeData E M)) (init : A) :
    Space (Cell (TreeData E M) X) (Cell D' X') (LrKey A) A → Prop
  | start : Accumulated node init Space.empty
  | fold {s : Space (Cell (TreeData E M) X) (Cell D' X') (LrKey A) A} {σ : Mem (TreeData E M) X} {h : Tr} {v : Tree (Tr × TreeData E M)} {n : Nat}
    {o : AOut (Cell (TreeData E M) X) (Cell D' X') (LrKey A) A A} (hs : Accumulated node init s) (hv : View σ (some h) v)
    (hn : (nodeNames v).Nodup) (he : EndsInLeaves (plain v))
    (ho : amrun (lrAccBody node) σ n ⟨h, some (.str "start"), init⟩ s = some (.ok o)) : Accumulated node init o.space

/-- A namespace after folding the trees of the list (the last one first), in any stores. Names of calls that went away with the last tree
do not come back. -/
inductive AccHistory (node : AccNode (Cell (TreeData E M) X) (Cell D' X') A (TreeData E M)) (init : A) :
    Space (Cell (TreeData E M) X) (Cell D' X') (LrKey A) A → List (Tree (Tr × TreeData E M)) → Prop
  | start : AccHistory node init Space.empty []
  | fold {s : Space (Cell (TreeData E M) X) (Cell D' X') (LrKey A) A} {vs : List (Tree (Tr × TreeData E M))} {σ : Mem (TreeData E M) X} {h : Tr}
    {v : Tree (Tr × TreeData E M)} {n : Nat} {o : AOut (Cell (TreeData E M) X) (Cell D' X') (LrKey A) A A} (hs : AccHistory node init s vs)
    (hv : View σ (some h) v) (hn : (nodeNames v).Nodup) (hc : Chunked (plain v)) (hr : NoReturn vs v)
    (ho : amrun (lrAccBody node) σ n ⟨h, some (.str "start"), init⟩ s = some (.ok o)) : AccHistory node init o.space (v :: vs)
end

/-- `to_list` with values, from scratch, eval/examples/tree_to_list.rs:94-101. -/
def toListScratch (t : RazTree E M) : AStack E Nat := t.foldLrMeta AStack.new AStack.push (fun a m => (a.archive m.2 m.1).1)

/-- Reading the links behind a handle, at most `n` of them. -/
def readLinks (τ : Mem D X) : Nat → Option Head → Option (Stack X)
  | _, none => some []
  | 0, some _ => none
  | n + 1, some h =>
    match τ.cells h.main with
    | some (.body x t) => (readLinks τ n t).map ((h.name, x) :: ·)
    | _ => none

/-- Reading an archive stack in full. -/
def readArchive (τ : Mem D (Nat × List T)) (n : Nat) (s : ASt T) : Option (AStack T Nat) := (readLinks τ n s.archived).map (⟨s.current, ·⟩)

end Incr

variable {E M B Sp : Type}

/-- What a client does. -/
inductive CompEv (E I : Type) where
  /-- a statement, see `Cmd` -/
  | stmt (c : Cmd E I)
  /-- the computation on `v_i`, with namespaces that belong to `p` -/
  | run (p : Name) (i : Nat)

/-- What the client sees: of a result, all there is. -/
inductive CompAns (E B : Type) where
  | out (o : Out E)
  | ran (b : B)
  /-- the variable holds no tree -/
  | bad

/-- The statements among the events. -/
def CompEv.stmts {I : Type} : List (CompEv E I) → List (Cmd E I)
  | [] => []
  | .stmt c :: l => c :: CompEv.stmts l
  | _ :: l => CompEv.stmts l

/-- One event with values: everything from scratch. -/
def Vars.comp [RazMeta E M] (scratch : RazTree E M → P B) (vs : Vars E M) : CompEv E (RazMeta.Index E M) → P (Vars E M × CompAns E B)
  | .stmt c => do
    let (vs', o) ← vs.step c
    return (vs', .out o)
  | .run _ i =>
    match vs[i]? with
    | some (some (.tree t)) => do
      let b ← scratch t
      return (vs, .ran b)
    | _ => return (vs, .bad)

/-- All events with values. -/
def Vars.comps [RazMeta E M] (scratch : RazTree E M → P B) : Vars E M → List (CompEv E (RazMeta.Index E M)) → P (Vars E M × List (CompAns E B))
  | vs, [] => .ok (vs, [])
  | vs, ev :: l => do
    let (vs', a) ← vs.comp scratch ev
    let (vs'', as) ← Vars.comps scratch vs' l
    return (vs'', a :: as)

/-- What the client sees with values. -/
def compAnswers [RazMeta E M] (scratch : RazTree E M → P B) (l : List (CompEv E (RazMeta.Index E M))) : P (List (CompAns E B)) :=
  (Vars.comps (M := M) scratch [] l).map (·.2)

namespace Heap
variable [RazMeta E M]

/-- One event over the store, with the incremental engine; `S` are the namespaces. -/
def HVars.comp (run : HTree M → Sp → HR E M (B × Sp)) (vs : HVars E M) (S : Name → Sp) :
    CompEv E (RazMeta.Index E M) → HR E M (HVars E M × (Name → Sp) × CompAns E B)
  | .stmt c => do
    let (vs', o) ← vs.step .dcg c
    return (vs', S, .out o)
  | .run p i =>
    match vs[i]? with
    | some (some (.tree t)) => do
      let (b, s) ← run t (S p)
      return (vs, fun q => if q = p then s else S q, .ran b)
    | _ => return (vs, S, .bad)

/-- All events over the store. -/
def HVars.comps (run : HTree M → Sp → HR E M (B × Sp)) : HVars E M → (Name → Sp) → List (CompEv E (RazMeta.Index E M)) →
    HR E M (HVars E M × (Name → Sp) × List (CompAns E B))
  | vs, S, [] => return (vs, S, [])
  | vs, S, ev :: l => do
    let (vs', S', a) ← HVars.comp run vs S ev
    let (vs'', S'', as) ← HVars.comps run vs' S' l
    return (vs'', S'', a :: as)

/-- What the client sees from an empty store and with empty namespaces: its answers, or the panic it ends with. -/
def CompAnswers (run : HTree M → Sp → HR E M (B × Sp)) (new : Sp) (l : List (CompEv E (RazMeta.Index E M))) (r : P (List (CompAns E B))) : Prop :=
  ∃ f0, ∀ f, f0 ≤ f → (HVars.comps (M := M) run [] (fun _ => new) l f Store.empty).map (fun x => x.1.2.2) = r
end Heap

namespace Incr
open Iodyn.Heap (HTree ASt)

/-- `to_list`, and reading the list in full. -/
def toListRun [DecidableEq E] [DecidableEq M] (t : HTree M) (s : LSpace E M E Count (ASt E)) :
    Heap.HR E M (Option (AStack E Nat) × LSpace E M E Count (ASt E)) := fun f σ =>
  match foldAccIn toListNode ASt.new t s f σ with
  | .error q => .error q
  | .ok ((a, s'), σ') => .ok ((readArchive s'.mem f a, s'), σ')

/-- The adder, and reading its result in full. -/
def adderRun (t : HTree Count) (S : AdderSpaces) : Heap.HR Char Count (Option (AStack Nat Nat) × AdderSpaces) := fun f σ =>
  match adderIn t S f σ with
  | .error q => .error q
  | .ok ((a, S'), σ') => .ok ((readArchive S'.parse.mem f a, S'), σ')

/-- The adder with values, from scratch. -/
def adderScratch (t : RazTree Char Count) : P (AStack Nat Nat) :=
  Eval.Adder.inc (⟨some t, 0, (), 0, 0, 0⟩ : Eval.EvalRaz Char Count Unit) 0 0 ()

/-- Empty namespaces for the adder. -/
def AdderSpaces.empty : AdderSpaces := ⟨Space.empty, Space.empty, Space.empty⟩

open Iodyn.Heap (Tr Mem) in
/-- The namespaces that come from running the adder again and again, on trees in any stores; the names of the nodes of one tree are
different. -/
inductive AdderRan : AdderSpaces → Prop
  | start : AdderRan AdderSpaces.empty
  | run {S S' : AdderSpaces} {σ σ' : Mem (TreeData Char Count) (Nat × List Char)} {t : HTree Count} {v : Tree (Tr × TreeData Char Count)} {a : ASt Nat} {f0 : Nat}
    (hs : AdderRan S) (hv : View σ t.tree v) (hn : (nodeNames v).Nodup) (he : EndsInLeaves (plain v))
    (ho : ∀ f, f0 ≤ f → adderIn t S f σ = .ok ((a, S'), σ')) : AdderRan S'

end Incr
end Iodyn
