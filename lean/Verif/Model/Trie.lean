import Verif.Model.Skiplist
/-
Model of src/trie.rs. An `Art<Trie>` is the trie it refers to (the only place that allocates one is
`union_rec`).
-/
namespace Iodyn.TrieM
variable {K V : Type}

/-- `HashMap<K,V>` as used in src/trie.rs:59: its entries in iteration order, keys pairwise distinct. -/
abbrev HMap (K V : Type) := List (K × V)

/-- `HashMap::get`, used at src/trie.rs:93. -/
def HMap.get [DecidableEq K] (m : HMap K V) (k : K) : Option V :=
  match m with
  | [] => none
  | (k', v) :: m => if k' = k then some v else HMap.get m k

/-- `HashMap::insert`, used at src/trie.rs:123-125: replace the entry of the key or add one. Where a new entry
comes in the iteration order is not specified in Rust; here at the end. -/
def HMap.insert [DecidableEq K] (m : HMap K V) (k : K) (v : V) : HMap K V :=
  match m with
  | [] => [(k, v)]
  | (k', v') :: m => if k' = k then (k, v) :: m else (k', v') :: HMap.insert m k v

/-- `struct Bits`, src/trie.rs:44-45. The `u32` bits as a 64-bit word (`bits.bits as u64`, src/trie.rs:121). -/
structure Bits where
  bits : Word
  len : Nat
  deriving DecidableEq, Repr

/-- `enum Trie` with `TrieLeaf` and `TrieBin`, src/trie.rs:48-68. -/
inductive Trie (K V : Type) where
  | empty
  | leaf (hash : Word) (map : HMap K V)
  | bin (bits : Bits) (name : Name) (left right : Trie K V)

/-- `Trie::find`, src/trie.rs:90-102. -/
def find [DecidableEq K] : Trie K V → Word → K → Option V
  | .empty, _, _ => none
  | .leaf _ m, _, k => m.get k
  | .bin _ _ l r, h, k => if h &&& 1#64 = 0#64 then find l (h >>> 1) k else find r (h >>> 1) k

/-- `1 << n` for `u64` with overflow check; src/trie.rs:122. -/
def shl1 (n : Nat) : P Word :=
  if n < 64 then .ok (1#64 <<< n) else .error .overflow

/-- `1 << n` for `u32` (the type of `bits.bits`) with overflow check, widened; src/trie.rs:193. -/
def shl1u32 (n : Nat) : P Word :=
  if n < 32 then .ok (1#64 <<< n) else .error .overflow

/-- The loop of `split_map`, src/trie.rs:119-127. `hashK` is `my_hash`, src/trie.rs:15-21. -/
def splitLoop [DecidableEq K] (hashK : K → Word) (mask : Word) (bits : Bits) :
    HMap K V → HMap K V → HMap K V → P (HMap K V × HMap K V)
  | [], m0, m1 => .ok (m0, m1)
  | (k, v) :: m, m0, m1 => do
    assert (decide (mask &&& hashK k = bits.bits))
    let b ← shl1 (bits.len + 1)
    if 0#64 = hashK k &&& b then splitLoop hashK mask bits m (m0.insert k v) m1
    else splitLoop hashK mask bits m m0 (m1.insert k v)

/-- `split_map`, src/trie.rs:113-129; `make_mask` (src/trie.rs:34-42) is the function of src/skiplist.rs:51-59. -/
def splitMap [DecidableEq K] (hashK : K → Word) (m : HMap K V) (bits : Bits) (m0 m1 : HMap K V) :
    P (HMap K V × HMap K V) := do
  let mask ← makeMask bits.len
  splitLoop hashK mask bits m m0 m1

/-- `union_rec`, src/trie.rs:151-200. `hashM` is `hash_map`, src/trie.rs:104-111. The second recursion pattern
(`l.left` with `l.right`, then `r.left` with `r.right`) is as in the source, src/trie.rs:195-196. -/
def unionRec [DecidableEq K] (hashK : K → Word) (hashM : HMap K V → Word) :
    Trie K V → Trie K V → Bits → Name → P (Trie K V)
  | .empty, rt, _, _ => .ok rt
  | lt, .empty, _, _ => .ok lt
  | .leaf _ lm, .leaf _ rm, bits, n => do
    let (l0, l1) ← splitMap hashK lm bits [] []
    let (r0, r1) ← splitMap hashK rm bits l0 l1
    return .bin bits n (.leaf (hashM r0) r0) (.leaf (hashM r1) r1)
  | .leaf _ _, .bin _ _ _ _, _, _ => .error .explicit
  | .bin _ _ _ _, .leaf _ rm, bits, _ => do
    let _ ← splitMap hashK rm bits [] []
    .error .explicit
  | .bin lb ln ll lr, .bin rb rn rl rr, bits, n => do
    assert (decide (lb = bits))
    assert (decide (lb = rb))
    let one ← shl1u32 bits.len
    let l ← unionRec hashK hashM ll lr ⟨bits.bits, bits.len + 1⟩ ln
    let r ← unionRec hashK hashM rl rr ⟨one &&& bits.bits, bits.len + 1⟩ rn
    return .bin bits n l r
termination_by lt rt => sizeOf lt + sizeOf rt

/-- `Trie::empty`, src/trie.rs:131-133. -/
def empty : Trie K V := .empty

/-- `Trie::from_hashmap`, src/trie.rs:135-137. -/
def fromHashmap (hashM : HMap K V → Word) (m : HMap K V) : Trie K V := .leaf (hashM m) m

/-- `Trie::union`, src/trie.rs:139-141. -/
def union [DecidableEq K] (hashK : K → Word) (hashM : HMap K V → Word) (lt rt : Trie K V) (n : Name) :
    P (Trie K V) :=
  unionRec hashK hashM lt rt ⟨0#64, 0⟩ n

end Iodyn.TrieM
