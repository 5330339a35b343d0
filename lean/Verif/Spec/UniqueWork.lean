import Verif.Spec.IncrWork
import Verif.Spec.IncrLr
import Verif.Spec.SkipCost
/-
What the runs of `unique_elms` depend on, element by element and leaf by leaf.
-/
namespace Iodyn.Incr
open Iodyn.Heap (Tr Cell Mem)
open Iodyn.Skip (Skiplist Path ObsRes common)
variable {E M X : Type}

/-! ### One update -/

/-- What an update of one element depends on. -/
structure Sees (E : Type) where
  /-- for each number below the path length, the latest update before that shares exactly that many bits -/
  links : List (Option Loc)
  /-- for each number up to the path length, the latest update before that shares at least that many bits, and how many it shares -/
  leads : List (Option (Loc × Nat))
  /-- the elements of the updates before that share all bits, the latest first -/
  same : List E
  deriving DecidableEq

/-- The bits that the updated element `y` shares with the element of an earlier update. -/
def shares (L : Nat) (hash : E → Word) (y : E) (w : Loc × E) : Nat := common L (hash y) (hash w.2)

/-- What an update of `y` depends on, after the given updates (the latest first; each with its cell). -/
def sees (L : Nat) (hash : E → Word) (before : List (Loc × E)) (y : E) : Sees E where
  links := (List.range L).map fun j => (before.find? fun w => decide (shares L hash y w = j)).map (·.1)
  leads := (List.range (L + 1)).map fun j => (before.find? fun w => decide (j ≤ shares L hash y w)).map fun w => (w.1, shares L hash y w)
  same := (before.filter fun w => decide (shares L hash y w = L)).map (·.2)

/-- The lowest bits of a hash. -/
def lowBits (L : Nat) (x : Word) : Word := x &&& maskLoop L 0#64

/-- The elements of a cell, each once. -/
def kvsOf [DecidableEq E] : List E → List (E × Option Unit)
  | [] => []
  | x :: l => if x ∈ (kvsOf l).map (·.1) then (kvsOf l).map (fun q => if x = q.1 then (q.1, some ()) else q) else kvsOf l ++ [(x, some ())]

/-- The cell of an update. -/
def cellOf [DecidableEq E] (L : Nat) (hash : E → Word) (s : Sees E) (x : E) : Path E Unit := ⟨lowBits L (hash x), kvsOf (x :: s.same), s.links⟩

/-- What the search of an update is shown from bit `b` on, in at most `n` cells. -/
def lookFacts [DecidableEq E] (L : Nat) (key : Word) (s : Sees E) : Nat → Nat → List (Fact (Path E Unit) ObsParam (ObsRes E Unit))
  | 0, _ => []
  | n + 1, b =>
    match (s.leads[b]?).join with
    | none => []
    | some (l, c) =>
      if c = L then [.seen l ⟨L, key, b⟩ ⟨s.links.drop b, none, some (kvsOf s.same)⟩]
      else
        let next := ((s.leads[c + 1]?).join).map (·.1)
        .seen l ⟨L, key, b⟩ ⟨(s.links.drop b).take (c - b) ++ [some l] ++ (if next.isSome then [] else List.replicate (L - c - 1) none), next, none⟩ ::
          lookFacts L key s n (c + 1)

/-- What an update depends on, and the cell that it makes. -/
def putFacts [DecidableEq E] (L : Nat) (hash : E → Word) (l : Loc) (s : Sees E) (x : E) : List (Fact (Path E Unit) ObsParam (ObsRes E Unit)) :=
  lookFacts L (lowBits L (hash x)) s (L + 1) 0 ++ [.made l (cellOf L hash s x)]

/-! ### Leaves -/

/-- The state of the skip list: the updates so far, the latest first, and the name and the counter for the next cell. -/
structure Stage (E : Type) where
  before : List (Loc × E)
  name : Name
  cntr : Nat

/-- The cell of the `i`-th update with this name. -/
def cellLoc (n : Name) (i : Nat) : Loc := .named (.pair n (.usize i)) []

/-- After an update. -/
def Stage.put (st : Stage E) (x : E) : Stage E := ⟨(cellLoc st.name st.cntr, x) :: st.before, st.name, st.cntr + 1⟩

/-- After a new name, if there is one. -/
def Stage.arch (st : Stage E) : Option Name → Stage E
  | none => st
  | some n => ⟨st.before, n, 0⟩

/-- The handle. -/
def Stage.handle (L : Nat) (st : Stage E) : Skiplist := ⟨L, st.name, st.cntr, st.before.head?.map (·.1)⟩

/-- At the start. -/
def Stage.start : Stage E := ⟨[], .unit, 0⟩

/-- A leaf: the name that the fold carries to it, its handle and its elements. -/
abbrev Leaf (E : Type) := Option Name × Tr × List E

/-- After a leaf. -/
def Stage.leaf (st : Stage E) (l : Leaf E) : Stage E := (l.2.2.foldl Stage.put st).arch l.1

/-- The leaf of a node, if it is one. -/
def ownLeaf (c : Option Name) (h : Tr) : TreeData E M → List (Leaf E)
  | .leaf v => [(c, h, v)]
  | _ => []

/-- The leaves of a tree. -/
def leavesOf : Option Name → Tree (Tr × TreeData E M) → List (Leaf E)
  | _, .nil => []
  | c, .node _ n (h, d) l r => if l.isSome || r.isSome then leavesOf c l ++ ownLeaf n h d ++ leavesOf n r else ownLeaf c h d

/-- What the updates of some elements depend on. -/
def seesAll (L : Nat) (hash : E → Word) : Stage E → List E → List (E × Sees E)
  | _, [] => []
  | st, x :: v => (x, sees L hash st.before x) :: seesAll L hash (st.put x) v

/-- What the run over a leaf depends on: its name, the handle before, and what its updates depend on. -/
structure LeafView (E : Type) where
  name : Option Name
  tree : Tr
  handle : Skiplist
  puts : List (E × Sees E)
  deriving DecidableEq

/-- What the run over this leaf depends on. -/
def leafView (L : Nat) (hash : E → Word) (st : Stage E) (l : Leaf E) : LeafView E := ⟨l.1, l.2.1, st.handle L, seesAll L hash st l.2.2⟩

/-- What the run over leaves depends on. -/
def leafViews (L : Nat) (hash : E → Word) : Stage E → List (Leaf E) → List (LeafView E)
  | _, [] => []
  | st, l :: ls => leafView L hash st l :: leafViews L hash (st.leaf l) ls

/-- The facts for some updates, with cells from this one on. -/
def putsFacts [DecidableEq E] (L : Nat) (hash : E → Word) (n : Name) : Nat → List (E × Sees E) → List (Fact (Path E Unit) ObsParam (ObsRes E Unit))
  | _, [] => []
  | i, (x, s) :: v => putFacts L hash (cellLoc n i) s x ++ putsFacts L hash n (i + 1) v

/-- The facts for a leaf. -/
def LeafView.facts [DecidableEq E] (L : Nat) (hash : E → Word) (w : LeafView E) : List (Fact (Path E Unit) ObsParam (ObsRes E Unit)) :=
  putsFacts L hash w.handle.name w.handle.cntr w.puts

/-! ### Trees -/

/-- The handle of a tree. -/
def rootOf {D : Type} : Tree (Tr × D) → Option Tr
  | .nil => none
  | .node _ _ (h, _) _ _ => some h

/-- What the fold reads of a tree. -/
def treeReads {D : Type} : Tree (Tr × D) → List (Loc × Cell D X)
  | .nil => []
  | .node _ _ (h, d) l r => (h.link, .node d (rootOf l) (rootOf r)) :: (treeReads l ++ treeReads r)

/-- The facts for a tree. -/
def treeFacts [DecidableEq E] (L : Nat) (hash : E → Word) (c : Option Name) (st : Stage E) (v : Tree (Tr × TreeData E M)) :
    List (Fact (Path E Unit) ObsParam (ObsRes E Unit)) := (leafViews L hash st (leavesOf c v)).flatMap (LeafView.facts L hash)

/-- The calls of a run of `unique_elms`. -/
abbrev UqCalls (E M X : Type) := Calls (Cell (TreeData E M) X) (Path E Unit) ObsParam (ObsRes E Unit) (LrKey Skiplist) Skiplist

/-- A call for a branch, if there is one, before others. -/
def branchCall [DecidableEq E] (L : Nat) (hash : E → Word) (nm c : Option Name) (st : Stage E) (v : Tree (Tr × TreeData E M)) (sub rest : UqCalls E M X) : UqCalls E M X :=
  match rootOf v with
  | none => rest
  | some h => .cons nm ⟨h, c, st.handle L⟩ (treeReads v) (treeFacts L hash c st v) (((leavesOf c v).foldl Stage.leaf st).handle L) sub rest

/-- All calls for a tree. -/
def treeCalls [DecidableEq E] (L : Nat) (hash : E → Word) : Option Name → Stage E → Tree (Tr × TreeData E M) → UqCalls E M X
  | _, _, .nil => .nil
  | c, st, .node _ n (h, d) l r =>
    let st' := (leavesOf c l ++ ownLeaf n h d).foldl Stage.leaf st
    branchCall L hash (n.map .forkL) c st l (treeCalls L hash c st l) (branchCall L hash (n.map .forkR) n st' r (treeCalls L hash n st' r) .nil)

/-- All calls of a run over a tree. -/
def uqCalls [DecidableEq E] (L : Nat) (hash : E → Word) (v : Tree (Tr × TreeData E M)) : UqCalls E M X := treeCalls L hash startName Stage.start v

/-- What a run over a tree depends on, leaf by leaf. -/
def uqViews (L : Nat) (hash : E → Word) (v : Tree (Tr × TreeData E M)) : List (LeafView E) := leafViews L hash Stage.start (leavesOf startName v)

/-- The number of leaves of the second tree for which the run over the first did not depend on the same. -/
def changedLeaves [DecidableEq E] (L : Nat) (hash : E → Word) (v v' : Tree (Tr × TreeData E M)) : Nat :=
  (uqViews L hash v').countP fun w => decide (w ∉ uqViews L hash v)

/-- Trees for `unique_elms`: all inner nodes have different names, none of which the program itself uses, and no leaf is empty. -/
structure UqTree (v : Tree (Tr × TreeData E M)) : Prop where
  names : (nodeNames v).Nodup
  unit : .unit ∉ nodeNames v
  start : .str "start" ∉ nodeNames v
  chunked : Chunked (plain v)

/-- The namespace "fillskiplist" after `unique_elms` has run over the trees of the list (the last one first), in any stores. Names of calls
that went away with the last tree do not come back. -/
inductive UqHistory [DecidableEq E] [DecidableEq M] (hash : E → Word) (L : Nat) : UqSpace E M → List (Tree (Tr × TreeData E M)) → Prop
  | start : UqHistory hash L OSpace.empty []
  | fold {s : UqSpace E M} {vs : List (Tree (Tr × TreeData E M))} {σ : Mem (TreeData E M) (Nat × List E)} {h : Tr} {v : Tree (Tr × TreeData E M)} {n : Nat}
    {o : OOut (Cell (TreeData E M) (Nat × List E)) (Path E Unit) ObsParam (ObsRes E Unit) (LrKey Skiplist) Skiplist Skiplist} (hs : UqHistory hash L s vs)
    (hv : View σ (some h) v) (hu : UqTree v) (hr : NoReturn vs v) (hm : v.size ≤ n)
    (ho : orun skipView (lrObsBody (uniqueNode hash)) σ n ⟨h, startName, Eval.UniqueElms.start L⟩ s = some (.ok o)) : UqHistory hash L o.space (v :: vs)

/-- How many elements of a list share, with one of the elements `zs`, at least as many bits as all the elements before them do. The elements before the list
are `earlier`. -/
def touched (L : Nat) (hash : E → Word) (zs : List E) : List E → List E → Nat
  | _, [] => 0
  | earlier, y :: l => (if ∃ z ∈ zs, ∀ x ∈ earlier, common L (hash x) (hash z) ≤ common L (hash y) (hash z) then 1 else 0) + touched L hash zs (y :: earlier) l

/-- The elements of leaves. -/
def leafElems (ls : List (Leaf E)) : List E := ls.flatMap fun l => l.2.2

/-- The nodes on the longest way down. -/
def depthOf {D : Type} : Tree D → Nat
  | .nil => 0
  | .node _ _ _ l r => 1 + max (depthOf l) (depthOf r)

end Iodyn.Incr
