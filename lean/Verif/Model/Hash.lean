import Verif.Model.Raz
import Verif.Model.Trie
/-
`PartialEq` and `Hash` of the data structures of /repo, functional engine (an `Art` is compared and hashed by its content).

A `hash` function in /repo only writes to the `Hasher` it is given, so it is modelled by the words that it writes. The hasher itself
(`DefaultHasher` of the standard library) is not modelled: it is a function `digest` from all words written to the result of `finish`.
-/
namespace Iodyn

/-- `PartialEq` and `Hash` for a type: `a == b`, and the words that `a.hash(h)` writes to `h`; e.g. src/trie.rs:72-86. -/
class EqHash (α : Type) where
  eq : α → α → Bool
  feed : α → List Word

/-- `PartialEq` and `Hash` of `bool`, `u32`, `usize`, `u64` (fields at src/level_tree.rs:22, src/tree_cursor.rs:31, src/trie.rs:25, 45): one
word. A `u32` or `usize` that does not fit the word cannot occur in Rust. -/
instance : EqHash Nat where
  eq a b := decide (a = b)
  feed a := [BitVec.ofNat 64 a]

/-- `bool`, the field at src/tree_cursor.rs:31. -/
instance : EqHash Bool where
  eq a b := a == b
  feed a := [if a then 1#64 else 0#64]

/-- `HashVal`, src/trie.rs:24-25, src/skiplist.rs:23-24. -/
instance : EqHash Word where
  eq a b := decide (a = b)
  feed a := [a]

/-- `()`, metadata at src/raz_meta.rs:81. -/
instance : EqHash Unit where
  eq _ _ := true
  feed _ := []

/-- `Option<T>` of the standard library, e.g. src/level_tree.rs:23, 29, 30: the variant and its content. -/
instance {α : Type} [EqHash α] : EqHash (Option α) where
  eq
    | none, none => true
    | some a, some b => EqHash.eq a b
    | _, _ => false
  feed
    | none => [0#64]
    | some a => 1#64 :: EqHash.feed a

/-- `(A, B)` of the standard library, e.g. src/tree_cursor.rs:33. -/
instance {α β : Type} [EqHash α] [EqHash β] : EqHash (α × β) where
  eq a b := EqHash.eq a.1 b.1 && EqHash.eq a.2 b.2
  feed a := EqHash.feed a.1 ++ EqHash.feed a.2

/-- Comparing vectors element by element; `Vec<E>` at src/raz.rs:60, src/archive_stack.rs:38. -/
def vecEq {α : Type} [EqHash α] : List α → List α → Bool
  | [], [] => true
  | a :: l, b :: r => EqHash.eq a b && vecEq l r
  | _, _ => false

/-- `Vec<T>` of the standard library, e.g. src/raz.rs:60, src/archive_stack.rs:38: the length, then the elements. -/
instance {α : Type} [EqHash α] : EqHash (List α) where
  eq := vecEq
  feed l := EqHash.feed l.length ++ l.flatMap EqHash.feed

section
variable [EqHash Name]

/-- `#[derive(PartialEq)]` of `Tree` and `TreeNode`, src/level_tree.rs:20-31. -/
def treeEq {D : Type} [EqHash D] : Tree D → Tree D → Bool
  | .nil, .nil => true
  | .node lv nm d l r, .node lv' nm' d' l' r' =>
    EqHash.eq lv lv' && EqHash.eq nm nm' && EqHash.eq d d' && treeEq l l' && treeEq r r'
  | _, _ => false

/-- `#[derive(Hash)]` of `Tree` and `TreeNode`, src/level_tree.rs:20-31, as the content of an `Option`. -/
def treeFeed {D : Type} [EqHash D] : Tree D → List Word
  | .nil => [0#64]
  | .node lv nm d l r => 1#64 :: (EqHash.feed lv ++ EqHash.feed nm ++ EqHash.feed d ++ treeFeed l ++ treeFeed r)

/-- `Option<Tree<E>>`, src/level_tree.rs:20-31. -/
instance {D : Type} [EqHash D] : EqHash (Tree D) where
  eq := treeEq
  feed := treeFeed

/-- `Tree<E>`, src/level_tree.rs:20-31. -/
instance {D : Type} [EqHash D] : EqHash (TNode D) where
  eq a b := EqHash.eq a.level b.level && EqHash.eq a.name b.name && EqHash.eq a.data b.data && EqHash.eq a.l b.l && EqHash.eq a.r b.r
  feed a := EqHash.feed a.level ++ EqHash.feed a.name ++ EqHash.feed a.data ++ EqHash.feed a.l ++ EqHash.feed a.r

/-- `#[derive]` of `Cursor`, src/tree_cursor.rs:29-36. -/
instance {D : Type} [EqHash D] : EqHash (Cursor D) where
  eq a b := EqHash.eq a.dirty b.dirty && EqHash.eq a.lForest b.lForest && EqHash.eq a.tree b.tree && EqHash.eq a.rForest b.rForest
  feed a := EqHash.feed a.dirty ++ EqHash.feed a.lForest ++ EqHash.feed a.tree ++ EqHash.feed a.rForest

/-- `#[derive]` of `TreeData`, src/raz.rs:56-61. -/
instance {E M : Type} [EqHash E] [EqHash M] : EqHash (TreeData E M) where
  eq
    | .dummy, .dummy => true
    | .branch a b, .branch a' b' => EqHash.eq a a' && EqHash.eq b b'
    | .leaf v, .leaf v' => EqHash.eq v v'
    | _, _ => false
  feed
    | .dummy => [0#64]
    | .branch a b => 1#64 :: (EqHash.feed a ++ EqHash.feed b)
    | .leaf v => 2#64 :: EqHash.feed v

/-- `#[derive]` of `RazTree`, src/raz.rs:87-91. -/
instance {E M : Type} [EqHash E] [EqHash M] : EqHash (RazTree E M) where
  eq a b := EqHash.eq a.info b.info && EqHash.eq a.tree b.tree
  feed a := EqHash.feed a.info ++ EqHash.feed a.tree

/-- Comparing stacks cell by cell (name, element, rest): `#[derive(PartialEq)]` of `Stack`, `Head` and `Body`, src/stack.rs:23-36. -/
def stackEq {X : Type} [EqHash X] : Stack X → Stack X → Bool
  | [], [] => true
  | (n, x) :: s, (n', x') :: s' => EqHash.eq n n' && EqHash.eq x x' && stackEq s s'
  | _, _ => false

/-- `#[derive(Hash)]` of `Stack`, `Head` and `Body`, src/stack.rs:23-36. -/
def stackFeed {X : Type} [EqHash X] : Stack X → List Word
  | [] => [0#64]
  | (n, x) :: s => 1#64 :: (EqHash.feed n ++ EqHash.feed x ++ stackFeed s)

/-- `#[derive]` of `AStack`, src/archive_stack.rs:34-40. -/
instance {E X : Type} [EqHash E] [EqHash X] : EqHash (AStack E X) where
  eq a b := EqHash.eq a.current b.current && stackEq a.archived b.archived
  feed a := EqHash.feed a.current ++ stackFeed a.archived

/-- `#[derive]` of `Raz`, src/raz.rs:45-51. -/
instance {E M : Type} [EqHash E] [EqHash M] : EqHash (Raz E M) where
  eq a b := EqHash.eq a.lForest b.lForest && EqHash.eq a.lStack b.lStack && EqHash.eq a.rStack b.rStack && EqHash.eq a.rForest b.rForest
  feed a := EqHash.feed a.lForest ++ EqHash.feed a.lStack ++ EqHash.feed a.rStack ++ EqHash.feed a.rForest

end

/-- `#[derive]` of `Count`, src/raz_meta.rs:108-109. -/
instance : EqHash Count where
  eq a b := EqHash.eq a.n b.n
  feed a := EqHash.feed a.n

/-- `Names`, src/raz_meta.rs:154-159: hash maps are equal if they have the same keys (all values are `()`); `hash` writes nothing. -/
instance : EqHash Names where
  eq a b := a.names.all (fun n => decide (n ∈ b.names)) && b.names.all (fun n => decide (n ∈ a.names))
  feed _ := []

/-- `struct Elm`, eval/src/types.rs:40-41. -/
structure Elm where
  n : Nat
  deriving DecidableEq, Repr

/-- The loop of eval/src/types.rs:46-48: `k` more times. -/
def elmLoop (a : Elm) : Nat → List Word
  | 0 => []
  | k+1 => EqHash.feed a.n ++ elmLoop a k

/-- `Elm`: derived `PartialEq`, eval/src/types.rs:40, and `Hash`, :43-50. -/
instance : EqHash Elm where
  eq a b := EqHash.eq a.n b.n
  feed a := elmLoop a 100

namespace TrieM
variable {K V : Type}

/-- `#[derive]` of `Bits`, src/trie.rs:44-45. -/
instance : EqHash Bits where
  eq a b := EqHash.eq a.bits b.bits && EqHash.eq a.len b.len
  feed a := EqHash.feed a.bits ++ EqHash.feed a.len

/-- `==` of tries: derived for `Trie` and `TrieBin` (src/trie.rs:47, 61), by hand for `TrieLeaf` (:78-86), where only the stored hash is
compared. -/
def trieEq [EqHash Name] : Trie K V → Trie K V → Bool
  | .empty, .empty => true
  | .leaf h _, .leaf h' _ => EqHash.eq h h'
  | .bin b n l r, .bin b' n' l' r' => EqHash.eq b b' && EqHash.eq n n' && trieEq l l' && trieEq r r'
  | _, _ => false

/-- `hash` of tries: derived for `Trie` and `TrieBin` (src/trie.rs:47, 61), by hand for `TrieLeaf` (:70-77), where only the stored hash is
written. -/
def trieFeed [EqHash Name] : Trie K V → List Word
  | .empty => [0#64]
  | .leaf h _ => 1#64 :: EqHash.feed h
  | .bin b n l r => 2#64 :: (EqHash.feed b ++ EqHash.feed n ++ trieFeed l ++ trieFeed r)

/-- `Trie`, src/trie.rs:47-86. -/
instance [EqHash Name] : EqHash (Trie K V) where
  eq := trieEq
  feed := trieFeed

/-- `hash_map`, src/trie.rs:104-111: the keys and values in iteration order. -/
def hashMap [EqHash K] [EqHash V] (digest : List Word → Word) (m : HMap K V) : Word :=
  digest (m.flatMap fun p => EqHash.feed p.1 ++ EqHash.feed p.2)

end TrieM
end Iodyn
