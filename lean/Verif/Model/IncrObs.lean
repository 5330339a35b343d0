import Verif.Model.IncrLr
import Verif.Model.Session
/-
Memoised computations that read articulations through a function (`force_map`, src/skiplist.rs:169) and make named articulations (`cell`,
src/skiplist.rs:269-272), with the incremental engine; and the computation of eval/examples/unique_elms.rs:97-104 as one of them: a
memoised `fold_lr_archive` (src/raz.rs:263-285, src/level_tree.rs:135-170) that puts the elements of a sequence in a skip list, in a
namespace of its own (`HFolder`, eval/src/actions.rs:495, 518).

Adapton is not in /repo. The behaviour of `memo!` assumed here is that of `Verif/Model/Incr.lean` and `Verif/Model/IncrMap.lean`; of an
articulation read with `force_map` only what the function has shown matters: the stored call is used if the function still shows the same.
-/
namespace Iodyn.Incr
open Iodyn.Heap (Tr Cell Mem HTree)
open Iodyn.Skip (Skiplist Path ObsRes)
variable {V W Q O K R A D X E M : Type}

/-- The body of a memoised function, as a tree of the engine calls it makes. `V` is the content of the articulations outside the
namespace, `W` of those inside, `Q` are the functions given to `force_map` and `O` is what they show. Cf. src/level_tree.rs:144-168 and
src/skiplist.rs:157-191, 232-275. -/
inductive OProg (V W Q O K R A : Type) where
  /-- the value of the block -/
  | ret (a : A)
  /-- a panic -/
  | fail (p : Panic)
  /-- `force(&link)` of an articulation from outside, src/level_tree.rs:158 -/
  | force (l : Loc) (k : V → OProg V W Q O K R A)
  /-- `force_map(&art, f)` of an articulation of the namespace, src/skiplist.rs:168-170 -/
  | look (l : Loc) (q : Q) (k : O → OProg V W Q O K R A)
  /-- `cell(name, v)`, src/skiplist.rs:269-272 -/
  | alloc (n : Name) (v : W) (k : Loc → OProg V W Q O K R A)
  /-- a plain recursive call (`none`, src/level_tree.rs:143) or `memo!` with a name (src/level_tree.rs:145-147) -/
  | call (n : Option Name) (key : K) (k : R → OProg V W Q O K R A)

/-- What a stored call depends on inside the namespace: the content of an articulation that it has made (src/skiplist.rs:269-272), or what
the function of a `force_map` has shown (src/skiplist.rs:168-170). -/
inductive Fact (W Q O : Type) where
  | made (l : Loc) (v : W)
  | seen (l : Loc) (q : Q) (o : O)

/-- A stored call: its arguments, the articulations it has read outside the namespace, what it depends on inside (also in calls that it
made), and its result (`memo!`, src/level_tree.rs:145-147). -/
structure OEntry (V W Q O K R : Type) where
  key : K
  reads : List (Loc × V)
  facts : List (Fact W Q O)
  res : R

/-- A namespace (`ns`, eval/src/actions.rs:495): its articulations and its stored calls. -/
structure OSpace (V W Q O K R : Type) where
  mem : Store W
  table : Name → Option (OEntry V W Q O K R)

/-- An unused namespace (`ns`, eval/src/actions.rs:495). -/
def OSpace.empty : OSpace V W Q O K R := ⟨Store.empty, fun _ => none⟩

/-- Storing a call (`memo!`, src/level_tree.rs:145-147). -/
def OSpace.set (s : OSpace V W Q O K R) (n : Name) (e : OEntry V W Q O K R) : OSpace V W Q O K R :=
  { s with table := fun n' => if n' = n then some e else s.table n' }

/-- What running a body gives: its value, what it depends on, the namespace and the number of bodies that were run. No counterpart in /repo
(see src/level_tree.rs:135-170 for the bodies). -/
structure OOut (V W Q O K R A : Type) where
  val : A
  reads : List (Loc × V)
  facts : List (Fact W Q O)
  space : OSpace V W Q O K R
  work : Nat

/-- Going on after a step that has read `rd`, depends on `fs` and has run `w` bodies; no counterpart in /repo: the rest of a block as in
src/level_tree.rs:135-170. -/
def thenO (rd : List (Loc × V)) (fs : List (Fact W Q O)) (w : Nat) : Option (P (OOut V W Q O K R A)) → Option (P (OOut V W Q O K R A))
  | some (.ok o) => some (.ok { o with reads := rd ++ o.reads, facts := fs ++ o.facts, work := w + o.work })
  | x => x

section
variable [DecidableEq V] [DecidableEq W] [DecidableEq O] [DecidableEq K]

/-- Whether this is still so (`memo!`, src/level_tree.rs:145-147; see the head of the file). `view` runs the function of a `force_map` on
an articulation and its content (src/skiplist.rs:169: `|art,path|`); it may panic. -/
def Fact.still (view : Q → Loc → W → P O) (τ : Store W) : Fact W Q O → Bool
  | .made l v => decide (τ.cells l = some v)
  | .seen l q o =>
    match τ.cells l with
    | none => false
    | some w =>
      match view q l w with
      | .ok o' => decide (o' = o)
      | .error _ => false

/-- Whether the stored call can be used (`memo!`, src/level_tree.rs:145-147; see the head of the file). -/
def OEntry.usable (view : Q → Loc → W → P O) (σ : Store V) (τ : Store W) (key : K) (e : OEntry V W Q O K R) : Bool :=
  decide (e.key = key) && e.reads.all (fun p => decide (σ.cells p.1 = some p.2)) && e.facts.all (Fact.still view τ)

/-- The stored call that `memo!` uses, if any (src/level_tree.rs:145-147). -/
def OSpace.lookup (view : Q → Loc → W → P O) (s : OSpace V W Q O K R) (n : Name) (σ : Store V) (key : K) : Option (OEntry V W Q O K R) :=
  (s.table n).filter (OEntry.usable view σ s.mem key)

/-- Running a body (src/level_tree.rs:144-168) with `memo!`. `callee` runs the calls. Reading an articulation without content cannot
happen in Rust; it is an `unreachable` panic. -/
def oexec (view : Q → Loc → W → P O) (callee : K → OSpace V W Q O K R → Option (P (OOut V W Q O K R R))) (σ : Store V) :
    OProg V W Q O K R A → OSpace V W Q O K R → Option (P (OOut V W Q O K R A))
  | .ret a, s => some (.ok ⟨a, [], [], s, 0⟩)
  | .fail q, _ => some (.error q)
  | .force l k, s =>
    match σ.cells l with
    | none => some (.error .unreachable)
    | some v => thenO [(l, v)] [] 0 (oexec view callee σ (k v) s)
  | .look l q k, s =>
    match s.mem.cells l with
    | none => some (.error .unreachable)
    | some w =>
      match view q l w with
      | .error p => some (.error p)
      | .ok o => thenO [] [.seen l q o] 0 (oexec view callee σ (k o) s)
  | .alloc n v k, s =>
    let (m, l) := s.mem.cell .dcg n v
    thenO [] [.made l v] 0 (oexec view callee σ (k l) { s with mem := m })
  | .call none key k, s =>
    match callee key s with
    | none => none
    | some (.error q) => some (.error q)
    | some (.ok c) => thenO c.reads c.facts c.work (oexec view callee σ (k c.val) c.space)
  | .call (some n) key k, s =>
    match s.lookup view n σ key with
    | some e => thenO e.reads e.facts 0 (oexec view callee σ (k e.res) s)
    | none =>
      match callee key s with
      | none => none
      | some (.error q) => some (.error q)
      | some (.ok c) =>
        thenO c.reads c.facts c.work (oexec view callee σ (k c.val) (c.space.set n ⟨key, c.reads, c.facts, c.val⟩))

/-- A function with the given body (src/level_tree.rs:135-170), calls nested at most `n` deep; `none` if that does not suffice. -/
def orun (view : Q → Loc → W → P O) (body : K → OProg V W Q O K R R) (σ : Store V) : Nat → K → OSpace V W Q O K R → Option (P (OOut V W Q O K R R))
  | 0, _, _ => none
  | n+1, key, s => thenO [] [] 1 (oexec view (orun view body σ n) σ (body key) s)
end

/-! ### src/level_tree.rs -/

/-- `node_calc` of `fold_lr_meta`, src/level_tree.rs:135-137; the last argument is what comes after it. -/
abbrev ObsNode (V W Q O A D : Type) := A → D → Nat → Option Name → (A → OProg V W Q O (LrKey A) A A) → OProg V W Q O (LrKey A) A A

/-- `fold_memo`, src/level_tree.rs:139-150. -/
def lrMemoO (n start : Option Name) (a : A) (t : Option Tr) (k : A → OProg V W Q O (LrKey A) A A) : OProg V W Q O (LrKey A) A A :=
  match t with
  | none => k a
  | some t => .call n ⟨t, start, a⟩ k

/-- `Tree::fold_lr_meta`, src/level_tree.rs:135-170. -/
def lrObsBody (node : ObsNode (Cell D X) W Q O A D) (key : LrKey A) : OProg (Cell D X) W Q O (LrKey A) A A :=
  .force key.tree.link fun c =>
    match c with
    | .body .. => .fail .unreachable
    | .node d l r =>
      if l.isSome || r.isSome then
        lrMemoO (forks key.tree.name).1 key.start key.accum l fun a =>
        node a d key.tree.level key.tree.name fun a =>
        lrMemoO (forks key.tree.name).2 key.tree.name a r .ret
      else node key.accum d key.tree.level key.start .ret

/-! ### src/raz.rs -/

/-- `vec.iter().fold(a, |a,e| bin(a,e))`, src/raz.rs:276. -/
def foldVecO (bin : A → E → (A → OProg V W Q O K R R) → OProg V W Q O K R R) : List E → A → (A → OProg V W Q O K R R) → OProg V W Q O K R R
  | [], a, k => k a
  | x :: v, a, k => bin a x fun a => foldVecO bin v a k

/-- The node function of `fold_lr_archive`, src/raz.rs:273-282. -/
def archNode (bin : A → E → (A → OProg V W Q O (LrKey A) A A) → OProg V W Q O (LrKey A) A A) (fin : A → Option Name → A) (mt : A → Nat → A) :
    ObsNode V W Q O A (TreeData E M) :=
  fun a e l n k =>
    match e with
    | .leaf v => foldVecO bin v a fun a => k (fin a n)
    | _ => k (mt a l)

/-! ### src/skiplist.rs -/

/-- `struct ObsParam`, src/skiplist.rs:82-89: what the function given to `force_map` depends on. -/
structure ObsParam where
  pathLen : Nat
  keyBits : Word
  keyBiti : Nat
  deriving DecidableEq

deriving instance DecidableEq for Skip.ObsRes
deriving instance DecidableEq for Skip.Path

/-- The function given to `force_map`, src/skiplist.rs:169-170. -/
def skipView {V : Type} (q : ObsParam) (art : Loc) (path : Path K V) : P (ObsRes K V) := Skip.buildPathStep art path q.pathLen q.keyBits q.keyBiti

/-- `assert_eq!(cursor.paths.len(), path_len)`, src/skiplist.rs:175, 187, in a body. -/
def assertO (b : Bool) (k : OProg V W Q O K R A) : OProg V W Q O K R A := if b then k else .fail .assertion

/-- `build_path_rec`, src/skiplist.rs:157-191, in a body; fuel as in `Skip.buildPathRec`. -/
def searchFrom {U : Type} (pathLen : Nat) (key : Word) : Nat → Loc → List (Option Loc) →
    (List (Option Loc) × Option (List (E × Option U)) → OProg V (Path E U) ObsParam (ObsRes E U) K R A) → OProg V (Path E U) ObsParam (ObsRes E U) K R A
  | 0, _, _, _ => .fail .explicit
  | fuel+1, art, cur, k =>
    .look art ⟨pathLen, key, cur.length⟩ fun res =>
      let cur := cur ++ res.paths
      match res.kvs with
      | some kvs => assertO (decide (cur.length = pathLen)) (k (cur, some kvs))
      | none =>
        match res.next with
        | some a => searchFrom pathLen key fuel a cur k
        | none => assertO (decide (cur.length = pathLen)) (k (cur, none))

/-- `ext`, src/skiplist.rs:232-275, in a body. -/
def extProg {U : Type} [DecidableEq E] (hash : E → Word) (s : Skiplist) (x : E) (opv : Option U)
    (k : Skiplist × Option U → OProg V (Path E U) ObsParam (ObsRes E U) K R A) : OProg V (Path E U) ObsParam (ObsRes E U) K R A :=
  match makeMask s.pathLen with
  | .error p => .fail p
  | .ok mask =>
    let kHash := hash x &&& mask
    let found := fun (r : List (Option Loc) × Option (List (E × Option U))) =>
      let (cur, newKvs, old) :=
        match r.2 with
        | some kvs =>
          let (new, old, found) := Skip.updateLoop x opv kvs [] none false
          (r.1, if found then new else new ++ [(x, opv)], old)
        | none => (Skip.fillEmpty r.1 s.pathLen, [(x, opv)], none)
      OProg.alloc (.pair s.name (.usize s.cntr)) { hash := kHash, kvs := newKvs, paths := cur } fun art =>
        k ({ s with head := some art, cntr := s.cntr + 1 }, old.getD none)
    match s.head with
    | none => found ([], none)
    | some a => searchFrom s.pathLen kHash (s.pathLen + 1) a [] found

/-! ### eval/examples/unique_elms.rs -/

/-- `|mut a,&GenSetElm(e)|{ a.put(e, ()); a }`, eval/examples/unique_elms.rs:100, with `put`, src/skiplist.rs:281-283. -/
def putProg [DecidableEq E] (hash : E → Word) (a : Skiplist) (x : E) (k : Skiplist → OProg V (Path E Unit) ObsParam (ObsRes E Unit) K R A) :
    OProg V (Path E Unit) ObsParam (ObsRes E Unit) K R A := extProg hash a x (some ()) fun r => k r.1

/-- `|mut a,nm|{ match nm { None => a, Some(nm) => { a.archive(nm); a }}}`, eval/examples/unique_elms.rs:101. -/
def archiveAt (a : Skiplist) (nm : Option Name) : Skiplist :=
  match nm with
  | none => a
  | some nm => a.archive nm

/-- The functions of eval/examples/unique_elms.rs:100-102. -/
def uniqueNode [DecidableEq E] (hash : E → Word) : ObsNode V (Path E Unit) ObsParam (ObsRes E Unit) Skiplist (TreeData E M) :=
  archNode (putProg hash) archiveAt (fun a _lev => a)

/-- The namespace "fillskiplist", eval/examples/unique_elms.rs:98. -/
abbrev UqSpace (E M : Type) := OSpace (Cell (TreeData E M) (Nat × List E)) (Path E Unit) ObsParam (ObsRes E Unit) (LrKey Skiplist) Skiplist

/-- `comp_fold_archive`, eval/src/eval_iraz.rs:397-413, with `fold_lr_archive`, src/raz.rs:263-285, of eval/examples/unique_elms.rs:97-104, in
the namespace `s`. The first call is not memoised; the name "start" is from src/raz.rs:269. -/
def uniqueIn [DecidableEq E] [DecidableEq M] (hash : E → Word) (pathLen : Nat) (t : HTree M) (s : UqSpace E M) : Heap.HR E M (Skiplist × UqSpace E M) := fun fuel σ =>
  match t.tree with
  | none => .ok ((Eval.UniqueElms.start pathLen, s), σ)
  | some h =>
    match orun skipView (lrObsBody (uniqueNode hash)) σ fuel ⟨h, some (.str "start"), Eval.UniqueElms.start pathLen⟩ s with
    | none => Heap.diverge fuel σ
    | some (.error q) => .error q
    | some (.ok o) => .ok ((o.val, o.space), σ)

end Iodyn.Incr
