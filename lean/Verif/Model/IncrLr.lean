import Verif.Model.IncrMemoFrom
import Verif.Model.Programs
/-
The memoised `fold_lr_meta` of src/level_tree.rs:135-170 and src/raz.rs:239-260 with an archive stack as accumulator, whose cells are made
while folding: `to_list` (eval/examples/tree_to_list.rs:94-116) and the two folds of eval/examples/adder.rs:160-212. Each fold runs in a
namespace of its own (`MFolder`, eval/src/actions.rs:418), so the cells of the stack, which have the names of the nodes of the tree, are
not the cells of the tree. For `memo!` see `Verif/Model/Incr.lean` and `Verif/Model/IncrMap.lean`.

The arguments of a call are the tree, the name carried to the first leaf and the accumulator. Accumulators are compared as Rust does: the
open vector and the link of the archived part, not what is behind the link.
-/
namespace Iodyn.Incr
open Iodyn.Heap (Tr Head Cell Mem HTree ASt)
variable {V W K R B A D X E M T N : Type}

/-! ### src/level_tree.rs -/

/-- The arguments of `fold_lr_meta` before `;;`, src/level_tree.rs:145. -/
structure LrKey (A : Type) where
  tree : Tr
  start : Option Name
  accum : A
  deriving DecidableEq

/-- `node_calc` of `fold_lr_meta`, which may read and make articulations, src/level_tree.rs:135-137; the last argument is what comes after
it. -/
abbrev AccNode (V W A D : Type) := A → D → Nat → Option Name → (A → AProg V W (LrKey A) A A) → AProg V W (LrKey A) A A

/-- `fold_memo`, src/level_tree.rs:139-150. -/
def lrMemo (n start : Option Name) (a : A) (t : Option Tr) (k : A → AProg V W (LrKey A) A A) : AProg V W (LrKey A) A A :=
  match t with
  | none => k a
  | some t => .call n ⟨t, start, a⟩ k

/-- `Tree::fold_lr_meta`, src/level_tree.rs:135-170. -/
def lrAccBody (node : AccNode (Cell D X) W A D) (key : LrKey A) : AProg (Cell D X) W (LrKey A) A A :=
  .force key.tree.link fun c =>
    match c with
    | .body .. => .fail .unreachable
    | .node d l r =>
      if l.isSome || r.isSome then
        lrMemo (forks key.tree.name).1 key.start key.accum l fun a =>
        node a d key.tree.level key.tree.name fun a =>
        lrMemo (forks key.tree.name).2 key.tree.name a r .ret
      else node key.accum d key.tree.level key.start .ret

/-! ### src/raz.rs -/

/-- `vec.iter().fold(a, |a,e| bin(a,e))`, src/raz.rs:251. -/
def foldVec (bin : A → E → (A → AProg V W K R B) → AProg V W K R B) : List E → A → (A → AProg V W K R B) → AProg V W K R B
  | [], a, k => k a
  | x :: v, a, k => bin a x fun a => foldVec bin v a k

/-- The node function of `fold_lr_meta`, src/raz.rs:248-257. -/
def accNode (bin : A → E → (A → AProg V W (LrKey A) A A) → AProg V W (LrKey A) A A)
    (mt : A → Nat → Option Name → (A → AProg V W (LrKey A) A A) → AProg V W (LrKey A) A A) : AccNode V W A (TreeData E M) :=
  fun a e l n k =>
    match e with
    | .leaf v => foldVec bin v a k
    | _ => mt a l n k

/-! ### src/archive_stack.rs -/

/-- `pop`, src/archive_stack.rs:90-94, with `retrieve`, :170-177; `peek` and `pull` (src/stack.rs:56-58, 69-71) both force the cell of the
head. -/
def popProg (s : ASt T) (k : Option T → ASt T → AProg V (Cell D (Nat × List T)) K R B) : AProg V (Cell D (Nat × List T)) K R B :=
  if s.isEmpty then k none s
  else if s.current.length = 0 then
    match s.archived with
    | none => .fail .unwrapNone
    | some h => .peek h.main fun c => .peek h.main fun c' =>
      match c, c' with
      | .body (_, v) _, .body _ a => k v.getLast? { current := v.dropLast, archived := a }
      | _, _ => .fail .unreachable
  else k s.current.getLast? { s with current := s.current.dropLast }

/-- `archive`, src/archive_stack.rs:156-166, with `push_onto`, src/stack.rs:117-138. -/
def archiveProg (s : ASt T) (n : Option Name) (m : Nat) (k : ASt T → AProg V (Cell D (Nat × List T)) K R B) : AProg V (Cell D (Nat × List T)) K R B :=
  if s.current.length = 0 then k s
  else .alloc n (.body (m, s.current) s.archived) fun l => k { current := [], archived := some ⟨n, l⟩ }

/-! ### eval/examples -/

/-- `to_list_step` and `to_list_meta`, eval/examples/tree_to_list.rs:94-101, with an `IAStack<T,u32>` (eval/src/interface.rs:59-75).
(The example has `IAStack<T,()>`, which stores no level, eval/src/interface.rs:78-83.) -/
def toListNode : AccNode V (Cell D (Nat × List E)) (ASt E) (TreeData E M) :=
  accNode (fun a x k => k (a.push x)) (fun a l n k => archiveProg a n l k)

open Eval.Adder (Token)

/-- `tokenize_step`, eval/examples/adder.rs:161-181. -/
def tokStepProg (st : ASt Token × Option Nat) (c : Char) (k : ASt Token × Option Nat → AProg V W K R B) : AProg V W K R B :=
  match Eval.Adder.toDigit c with
  | some num =>
    match Eval.Adder.growOpt st.2 num with
    | .error q => .fail q
    | .ok bigger => if bigger > 99999 then k (st.1.push (.num bigger), some num) else k (st.1, some bigger)
  | none =>
    let ts := match st.2 with
      | some num => st.1.push (.num num)
      | none => st.1
    if c = '+' then k (ts.push .opPlus, none)
    else if c = ',' then k (ts, none)
    else .fail .explicit

/-- `tokenize_step` and `tokenize_meta`, eval/examples/adder.rs:161-185. -/
def tokNode : AccNode V (Cell D (Nat × List Token)) (ASt Token × Option Nat) (TreeData Char M) :=
  accNode tokStepProg (fun st l n k => archiveProg st.1 n l fun ts => k (ts, st.2))

/-- `tokenize_final`, eval/examples/adder.rs:187-191. -/
def tokFinal (st : ASt Token × Option Nat) : ASt Token :=
  match st.2 with
  | some num => st.1.push (.num num)
  | none => st.1

/-- `parse_step`, eval/examples/adder.rs:193-208. -/
def parseStepProg (n : ASt Nat) (t : Token) (k : ASt Nat → AProg V (Cell D (Nat × List Nat)) K R B) : AProg V (Cell D (Nat × List Nat)) K R B :=
  match t with
  | .num a => k (n.push a)
  | .opPlus =>
    popProg n fun b n =>
      match b with
      | none => k n
      | some b =>
        popProg n fun a n =>
          match a with
          | none => k (n.push b)
          | some a =>
            match Eval.Adder.addU32 a b with
            | .error q => .fail q
            | .ok c => k (n.push c)

/-- `parse_step` and `parse_meta`, eval/examples/adder.rs:193-212. -/
def parseNode : AccNode V (Cell D (Nat × List Nat)) (ASt Nat) (TreeData Token M) :=
  accNode parseStepProg (fun a l n k => archiveProg a n l k)

/-- A namespace with a stack of `T` made by folding sequences of `E` (`ns`, eval/src/actions.rs:418). -/
abbrev LSpace (E M T N A : Type) := Space (Cell (TreeData E M) (Nat × List E)) (Cell (TreeData T N) (Nat × List T)) (LrKey A) A

/-- `comp_fold_meta`, eval/src/eval_iraz.rs:382-396, with `fold_lr_meta`, src/raz.rs:239-260, in the namespace `s`. The first call is not
memoised; the name "start" is from src/raz.rs:244. -/
def foldAccIn [DecidableEq E] [DecidableEq M] [DecidableEq T] [DecidableEq N] [DecidableEq A]
    (node : AccNode (Cell (TreeData E M) (Nat × List E)) (Cell (TreeData T N) (Nat × List T)) A (TreeData E M)) (init : A) (t : HTree M)
    (s : LSpace E M T N A) : Heap.HR E M (A × LSpace E M T N A) := fun fuel σ =>
  match t.tree with
  | none => .ok ((init, s), σ)
  | some h =>
    match amrun (lrAccBody node) σ fuel ⟨h, some (.str "start"), init⟩ s with
    | none => Heap.diverge fuel σ
    | some (.error q) => .error q
    | some (.ok o) => .ok ((o.val, o.space), σ)

/-- The namespaces of the adder: "tokenize", "to_tree" and "parse", eval/examples/adder.rs:225-255. The final functions run in further
ones (`name_fork`, eval/src/actions.rs:421), of which only "to_tree" within them holds anything. -/
structure AdderSpaces where
  tokenize : LSpace Char Count Token Count (ASt Token × Option Nat)
  toTree : FSpace Token Count
  parse : LSpace Token Count Nat Count (ASt Nat)

/-- The incremental adder, eval/examples/adder.rs:218-256: `Compute2` (eval/src/actions.rs:102-126) of the folds of `tokenize` and `parse`
(`MFolder`, eval/src/actions.rs:407-426); between them `tokenize_final` and `inc_from` (eval/src/eval_iraz.rs:88-97), which is
`memo_from`. -/
def adderIn (t : HTree Count) (S : AdderSpaces) : Heap.HR Char Count (ASt Nat × AdderSpaces) := fun fuel σ =>
  match foldAccIn tokNode (ASt.new, none) t S.tokenize fuel σ with
  | .error q => .error q
  | .ok ((st, tokenize), _) =>
    match memoFromIn .tail (tokFinal st) S.toTree fuel tokenize.mem with
    | .error q => .error q
    | .ok ((toks, toTree), _) =>
      match foldAccIn parseNode ASt.new toks S.parse fuel toTree.mem with
      | .error q => .error q
      | .ok ((r, parse), _) => .ok ((r, ⟨tokenize, toTree, parse⟩), σ)

end Iodyn.Incr
