import Verif.Model.Incr
import Verif.Spec.Heap
/-
Clients that edit sequences and run folds over them again and again. `C` numbers the functions (closures) that the client
passes to the folds; a fold runs in a namespace (`ns`).
-/
namespace Iodyn
variable {E M R C : Type}

/-- What a client does. -/
inductive Ev (E I R C : Type) where
  /-- a statement, see `Cmd` -/
  | stmt (c : Cmd E I)
  /-- `ns(p, || v_i.clone().fold_up_..(f_c))` -/
  | up (p : Name) (c : C) (i : Nat)
  /-- `ns(p, || v_i.clone().fold_lr_..(init, f_c))` -/
  | lr (p : Name) (c : C) (i : Nat) (init : R)

/-- What the client sees. -/
inductive Ans (E R : Type) where
  | out (o : Out E)
  | up (r : Option R)
  | lr (r : R)
  /-- the variable holds no tree -/
  | bad
  deriving DecidableEq

/-- The statements among the events. -/
def Ev.stmts {I : Type} : List (Ev E I R C) → List (Cmd E I)
  | [] => []
  | .stmt c :: l => c :: Ev.stmts l
  | _ :: l => Ev.stmts l

/-- The fold uses the function that belongs to its namespace. -/
def Ev.UsesNs {I : Type} (g : Name → C) : Ev E I R C → Prop
  | .stmt _ => True
  | .up p c _ => c = g p
  | .lr p c _ _ => c = g p

/-- The name that a left fold carries to its first leaf, src/raz.rs:244. -/
def startName : Option Name := some (.str "start")

/-! ### With values: every fold is computed from scratch -/

/-- One event with values. -/
def Vars.ev [RazMeta E M] (F : C → Incr.Fns (TreeData E M) R) (vs : Vars E M) :
    Ev E (RazMeta.Index E M) R C → P (Vars E M × Ans E R)
  | .stmt c => do
    let (vs', o) ← vs.step c
    return (vs', .out o)
  | .up _ c i =>
    match vs[i]? with
    | some (some (.tree t)) => do
      let r ← t.tree.foldUpMeta (F c).up
      return (vs, .up r)
    | _ => return (vs, .bad)
  | .lr _ c i init =>
    match vs[i]? with
    | some (some (.tree t)) => return (vs, .lr (t.tree.foldLrMeta (F c).lr startName init))
    | _ => return (vs, .bad)

/-- All events. -/
def Vars.evs [RazMeta E M] (F : C → Incr.Fns (TreeData E M) R) :
    Vars E M → List (Ev E (RazMeta.Index E M) R C) → P (Vars E M × List (Ans E R))
  | vs, [] => .ok (vs, [])
  | vs, ev :: l => do
    let (vs', a) ← vs.ev F ev
    let (vs'', as) ← Vars.evs F vs' l
    return (vs'', a :: as)

/-! ### Over the store: folds reuse stored calls -/
namespace Heap

/-- The stored calls of a client. -/
abbrev RTable (E M R : Type) := Incr.Table (Cell (TreeData E M) (Nat × List E)) (Incr.Key R) R

/-- `tree.fold_..(..)` in namespace `p`. -/
def memoFold [DecidableEq E] [DecidableEq M] [DecidableEq R] (F : Incr.Fns (TreeData E M) R) (p : Name) (k : Incr.Key R)
    (T : RTable E M R) : HR E M (R × RTable E M R) := fun f σ =>
  match Incr.mrun (Incr.foldBody F) p σ f k T with
  | none => diverge f σ
  | some (.error q) => .error q
  | some (.ok o) => .ok ((o.val, o.table), σ)

/-- One event over the store. -/
def HVars.ev [RazMeta E M] [DecidableEq E] [DecidableEq M] [DecidableEq R] (e : Engine) (F : C → Incr.Fns (TreeData E M) R)
    (vs : HVars E M) (T : RTable E M R) : Ev E (RazMeta.Index E M) R C → HR E M (HVars E M × RTable E M R × Ans E R)
  | .stmt c => do
    let (vs', o) ← vs.step e c
    return (vs', T, .out o)
  | .up p c i =>
    match vs[i]? with
    | some (some (.tree ⟨_, some t⟩)) => do
      let (r, T') ← memoFold (F c) p (.up t) T
      return (vs, T', .up (some r))
    | some (some (.tree ⟨_, none⟩)) => return (vs, T, .up none)
    | _ => return (vs, T, .bad)
  | .lr p c i init =>
    match vs[i]? with
    | some (some (.tree ⟨_, some t⟩)) => do
      let (r, T') ← memoFold (F c) p (.lr t startName init) T
      return (vs, T', .lr r)
    | some (some (.tree ⟨_, none⟩)) => return (vs, T, .lr init)
    | _ => return (vs, T, .bad)

/-- All events. -/
def HVars.evs [RazMeta E M] [DecidableEq E] [DecidableEq M] [DecidableEq R] (e : Engine) (F : C → Incr.Fns (TreeData E M) R) :
    HVars E M → RTable E M R → List (Ev E (RazMeta.Index E M) R C) → HR E M (HVars E M × RTable E M R × List (Ans E R))
  | vs, T, [] => return (vs, T, [])
  | vs, T, ev :: l => do
    let (vs', T', a) ← HVars.ev e F vs T ev
    let (vs'', T'', as) ← HVars.evs e F vs' T' l
    return (vs'', T'', a :: as)

/-- What the client sees from an empty store and without stored calls: its answers, or the panic it ends with. -/
def EvAnswers [RazMeta E M] [DecidableEq E] [DecidableEq M] [DecidableEq R] (e : Engine) (F : C → Incr.Fns (TreeData E M) R)
    (l : List (Ev E (RazMeta.Index E M) R C)) (r : P (List (Ans E R))) : Prop :=
  ∃ f0, ∀ f, f0 ≤ f → (HVars.evs (M := M) e F [] Incr.Table.empty l f Store.empty).map (fun x => x.1.2.2) = r

end Heap

/-- What the client sees with values. -/
def evAnswers [RazMeta E M] (F : C → Incr.Fns (TreeData E M) R) (l : List (Ev E (RazMeta.Index E M) R C)) : P (List (Ans E R)) :=
  (Vars.evs (M := M) F [] l).map (·.2)

/-! ### Cost -/
namespace Incr
open Iodyn.Heap (Tr Cell Mem)
variable {D X : Type}

/-- The stored calls that come from memoised runs, over any stores; the functions of a namespace stay the same. -/
inductive Made {V K : Type} [DecidableEq V] [DecidableEq K] (body : Name → K → Prog V K R R) : Table V K R → Prop
  | empty : Made body Table.empty
  | run {T : Table V K R} {p : Name} {σ : Store V} {n : Nat} {key : K} {o : MOut V K R R} (h : Made body T)
    (hr : mrun (body p) p σ n key T = some (.ok o)) : Made body o.table

/-- The tree behind a handle, with the handle and the data at each node. -/
inductive View (σ : Mem D X) : Option Tr → Tree (Tr × D) → Prop
  | nil : View σ none .nil
  | node {h : Tr} {d : D} {hl hr : Option Tr} {l r : Tree (Tr × D)} (hc : σ.cells h.link = some (.node d hl hr))
    (hl' : View σ hl l) (hr' : View σ hr r) : View σ (some h) (.node h.level h.name (h, d) l r)

/-- The tree without the handles. -/
def plain : Tree (Tr × D) → Tree D
  | .nil => .nil
  | .node lv n (_, d) l r => .node lv n d (plain l) (plain r)

/-- The names of the nodes. -/
def nodeNames : Tree D → List Name
  | .nil => []
  | .node _ n _ l r => n.toList ++ nodeNames l ++ nodeNames r

/-- A branch with the name that its memoised call gets from the node above. -/
def point (n : Option Name) (c : Tree D) : List (Name × Tree D) :=
  match n, c with
  | some m, .node .. => [(m, c)]
  | _, _ => []

/-- All branches below named nodes, with the names of their calls. -/
def points : Tree D → List (Name × Tree D)
  | .nil => []
  | .node _ n _ l r => point (n.map .forkL) l ++ point (n.map .forkR) r ++ points l ++ points r

/-- The nodes of a tree that are not below a branch that is already known. -/
def cost [DecidableEq D] (old : List (Name × Tree D)) : Tree D → Nat
  | .nil => 0
  | .node _ n _ l r => 1 +
    (if (point (n.map .forkL) l).any (· ∈ old) then 0 else cost old l) +
    (if (point (n.map .forkR) r).any (· ∈ old) then 0 else cost old r)

/-- A branch of a left fold: the name and value it starts with matter too. -/
def pointLr (n : Option Name) (start : Option Name) (a : R) (c : Tree D) : List (Name × Option Name × R × Tree D) :=
  match n, c with
  | some m, .node .. => [(m, start, a, c)]
  | _, _ => []

/-- The value after the left branch and the node. -/
def afterNode (f : R → D → Nat → Option Name → R) (start : Option Name) (a : R) (lv : Nat) (n : Option Name) (d : D) (l : Tree (Tr × D)) : R :=
  f ((plain l).foldLrMeta f start a) d lv n

/-- All branches below named nodes in a left fold. -/
def pointsLr (f : R → D → Nat → Option Name → R) : Option Name → R → Tree (Tr × D) → List (Name × Option Name × R × Tree (Tr × D))
  | _, _, .nil => []
  | start, a, .node lv n (_, d) l r =>
    pointLr (n.map .forkL) start a l ++ pointLr (n.map .forkR) n (afterNode f start a lv n d l) r ++
      pointsLr f start a l ++ pointsLr f n (afterNode f start a lv n d l) r

/-- The nodes of a tree that are not below a branch that a left fold already knows. -/
def costLr [DecidableEq D] [DecidableEq R] (f : R → D → Nat → Option Name → R) (old : List (Name × Option Name × R × Tree (Tr × D))) :
    Option Name → R → Tree (Tr × D) → Nat
  | _, _, .nil => 0
  | start, a, .node lv n (_, d) l r => 1 +
    (if (pointLr (n.map .forkL) start a l).any (· ∈ old) then 0 else costLr f old start a l) +
    (if (pointLr (n.map .forkR) n (afterNode f start a lv n d l) r).any (· ∈ old) then 0
      else costLr f old n (afterNode f start a lv n d l) r)

/-- The second tree is the first with one subtree replaced. All nodes above it have names, which stay; the other content of these
nodes may change. `k` is the number of these nodes and those of the new subtree. -/
inductive Near : Tree D → Tree D → Nat → Prop
  | here (v w : Tree D) : Near v w w.size
  | left {lv lv' : Nat} {n : Name} {d d' : D} {l l' r : Tree D} {k : Nat} (h : Near l l' k) :
    Near (.node lv (some n) d l r) (.node lv' (some n) d' l' r) (k + 1)
  | right {lv lv' : Nat} {n : Name} {d d' : D} {l r r' : Tree D} {k : Nat} (h : Near r r' k) :
    Near (.node lv (some n) d l r) (.node lv' (some n) d' l r') (k + 1)

/-- The same for a left fold: after the replaced subtree the values differ, so that everything to the right of it counts too. The
function must not use what changes in the nodes above. -/
inductive NearLr (f : R → D → Nat → Option Name → R) : Tree (Tr × D) → Tree (Tr × D) → Nat → Prop
  | here (v w : Tree (Tr × D)) : NearLr f v w w.size
  | left {lv lv' : Nat} {n : Name} {d d' : Tr × D} {l l' : Tree (Tr × D)} {k : Nat} (r r' : Tree (Tr × D)) (h : NearLr f l l' k) :
    NearLr f (.node lv (some n) d l r) (.node lv' (some n) d' l' r') (k + r'.size + 1)
  | right {lv lv' : Nat} {n : Name} {d d' : Tr × D} {l r r' : Tree (Tr × D)} {k : Nat}
    (hf : ∀ a, f a d.2 lv (some n) = f a d'.2 lv' (some n)) (h : NearLr f r r' k) :
    NearLr f (.node lv (some n) d l r) (.node lv' (some n) d' l r') (k + 1)

/-- The names of the memoised calls of a fold over a tree. -/
def memoNames (v : Tree D) : List Name := (points v).map (·.1)

/-- Names of calls that went away with the last fold do not come back. The list has the earlier trees, the last one first. -/
def NoReturn : List (Tree D) → Tree D → Prop
  | [], _ => True
  | v :: vs, v' => ∀ m ∈ memoNames v', m ∉ memoNames v → ∀ w ∈ vs, m ∉ memoNames w

section
variable [DecidableEq D] [DecidableEq X] [DecidableEq R]

/-- The stored calls after any number of `fold_up_..` in namespace `p`, over the trees of the list (the last one first), in any stores.
In between there may be folds in other namespaces. -/
inductive UpHistory (F : Name → Fns D R) (p : Name) : Table (Cell D X) (Key R) R → List (Tree (Tr × D)) → Prop
  | start : UpHistory F p Table.empty []
  | fold {T : Table (Cell D X) (Key R) R} {vs : List (Tree (Tr × D))} {σ : Mem D X} {h : Tr} {v : Tree (Tr × D)} {x : R} {n : Nat}
    {o : MOut (Cell D X) (Key R) R R} (ht : UpHistory F p T vs) (hv : View σ (some h) v) (hn : (nodeNames v).Nodup) (hr : NoReturn vs v)
    (hx : (plain v).foldUpMeta (F p).up = .ok (some x)) (ho : mrun (foldBody (F p)) p σ n (.up h) T = some (.ok o)) :
    UpHistory F p o.table (v :: vs)
  | other {T : Table (Cell D X) (Key R) R} {vs : List (Tree (Tr × D))} {σ : Mem D X} {q : Name} {k : Key R} {n : Nat}
    {o : MOut (Cell D X) (Key R) R R} (ht : UpHistory F p T vs) (hq : q ≠ p)
    (ho : mrun (foldBody (F q)) q σ n k T = some (.ok o)) : UpHistory F p o.table vs

/-- The same for `fold_lr_..`. -/
inductive LrHistory (F : Name → Fns D R) (p : Name) (start : Option Name) (a : R) :
    Table (Cell D X) (Key R) R → List (Tree (Tr × D)) → Prop
  | start : LrHistory F p start a Table.empty []
  | fold {T : Table (Cell D X) (Key R) R} {vs : List (Tree (Tr × D))} {σ : Mem D X} {h : Tr} {v : Tree (Tr × D)} {n : Nat}
    {o : MOut (Cell D X) (Key R) R R} (ht : LrHistory F p start a T vs) (hv : View σ (some h) v) (hn : (nodeNames v).Nodup)
    (hr : NoReturn vs v) (ho : mrun (foldBody (F p)) p σ n (.lr h start a) T = some (.ok o)) : LrHistory F p start a o.table (v :: vs)
  | other {T : Table (Cell D X) (Key R) R} {vs : List (Tree (Tr × D))} {σ : Mem D X} {q : Name} {k : Key R} {n : Nat}
    {o : MOut (Cell D X) (Key R) R R} (ht : LrHistory F p start a T vs) (hq : q ≠ p)
    (ho : mrun (foldBody (F q)) q σ n k T = some (.ok o)) : LrHistory F p start a o.table vs
end

end Incr
end Iodyn
