import Verif.Model.Trie
/-
Trie properties (C39).
-/
namespace Iodyn.TrieM
variable {K V : Type} [DecidableEq K]

/-- What a client can build with the public functions of src/trie.rs (`empty`, `from_hashmap`, `union`): a program
that makes a trie. -/
inductive Build (K V : Type) where
  | empty
  | fromMap (m : List (K × V))
  | union (l r : Build K V) (n : Name)

/-- The trie that the program makes. -/
def Build.run (hashK : K → Word) (hashM : HMap K V → Word) : Build K V → P (Trie K V)
  | .empty => .ok TrieM.empty
  | .fromMap m => .ok (fromHashmap hashM m)
  | .union l r n => do
    let lt ← l.run hashK hashM
    let rt ← r.run hashK hashM
    TrieM.union hashK hashM lt rt n

/-- Number of maps in the program. -/
def Build.maps : Build K V → Nat
  | .empty => 0
  | .fromMap _ => 1
  | .union l r _ => l.maps + r.maps

/-- The map the program describes: union of maps, preferring the right one. -/
def Build.denote : Build K V → K → Option V
  | .empty, _ => none
  | .fromMap m, k => (m.find? (fun p => decide (p.1 = k))).map Prod.snd
  | .union l r _, k => (r.denote k).or (l.denote k)

theorem get_eq_find (m : HMap K V) (k : K) :
    m.get k = (m.find? (fun p => decide (p.1 = k))).map Prod.snd := by
  induction m with
  | nil => rfl
  | cons p m ih =>
    obtain ⟨k', v⟩ := p
    by_cases h : k' = k <;> simp [HMap.get, h, ih]

/-- C39, first half: `find` on `from_hashmap(m)` returns `m`'s value for each key, whatever hash is passed. -/
theorem C39_find (hashM : HMap K V → Word) (m : List (K × V)) (nd : (m.map Prod.fst).Nodup) (h : Word) (k : K) (v : V) :
    find (fromHashmap hashM m) h k = some v ↔ (k, v) ∈ m := by
  simp only [fromHashmap, find, get_eq_find]
  induction m with
  | nil => simp
  | cons p m ih =>
    obtain ⟨k', v'⟩ := p
    rw [List.map_cons, List.nodup_cons] at nd
    by_cases e : k' = k
    · subst e
      simp only [List.find?_cons, decide_true, Option.map_some, Option.some.injEq, List.mem_cons, Prod.mk.injEq,
        true_and]
      constructor
      · intro h; exact .inl h.symm
      · rintro (h | h)
        · exact h.symm
        · exact absurd (List.mem_map_of_mem h) nd.1
    · rw [List.find?_cons_of_neg (by simpa using e), ih nd.2]
      simp [Ne.symm e]

example : (([(1, 10), (2, 20)] : List (Nat × Nat)).map Prod.fst).Nodup := by decide

/-- C39, union: exactly what the public functions do. A program that unites at most one map finds what it
describes. Missing: programs that unite two maps, see `C39_union_panics`. -/
theorem C39_union_partial (hashK : K → Word) (hashM : HMap K V → Word) (b : Build K V) (hb : b.maps ≤ 1) :
    ∃ t, b.run hashK hashM = .ok t ∧ ∀ h k, find t h k = b.denote k := by
  suffices H : ∃ t, b.run hashK hashM = .ok t ∧ (∀ h k, find t h k = b.denote k) ∧ (b.maps = 0 → t = .empty) by
    obtain ⟨t, h1, h2, _⟩ := H; exact ⟨t, h1, h2⟩
  induction b with
  | empty => exact ⟨_, rfl, fun _ _ => rfl, fun _ => rfl⟩
  | fromMap m => exact ⟨_, rfl, fun _ k => get_eq_find m k, by simp [Build.maps]⟩
  | union l r n ihl ihr =>
    simp only [Build.maps] at hb
    obtain ⟨lt, l1, l2, l3⟩ := ihl (by omega)
    obtain ⟨rt, r1, r2, r3⟩ := ihr (by omega)
    rcases Nat.eq_zero_or_pos l.maps with h0 | h0
    · have := l3 h0
      subst this
      refine ⟨rt, by simp [Build.run, l1, r1, bind, Except.bind, TrieM.union, unionRec], ?_, ?_⟩
      · intro h k
        have := l2 h k
        simp only [find] at this
        simp [Build.denote, ← this, r2 h k]
      · intro h; simp only [Build.maps] at h; exact r3 (by omega)
    · have := r3 (by omega)
      subst this
      refine ⟨lt, ?_, ?_, ?_⟩
      · cases lt <;> simp [Build.run, l1, r1, bind, Except.bind, TrieM.union, unionRec]
      · intro h k
        have := r2 h k
        simp only [find] at this
        simp [Build.denote, ← this, l2 h k]
      · intro h; simp only [Build.maps] at h; omega

example : (Build.union (.union .empty (.fromMap [(1, 10), (2, 20)]) (.usize 1)) .empty (.usize 2) : Build Nat Nat).maps ≤ 1 := by
  decide

/-- C39, union: every program that unites two or more maps panics, also for empty maps (`make_mask(0)`). -/
theorem C39_union_panics (hashK : K → Word) (hashM : HMap K V → Word) (b : Build K V) (hb : 2 ≤ b.maps) :
    b.run hashK hashM = .error .assertion := by
  suffices H : (b.maps = 0 ∧ b.run hashK hashM = .ok .empty) ∨ (b.maps = 1 ∧ ∃ h m, b.run hashK hashM = .ok (.leaf h m)) ∨
      (2 ≤ b.maps ∧ b.run hashK hashM = .error .assertion) by
    rcases H with ⟨h, _⟩ | ⟨h, _⟩ | ⟨_, h⟩
    · omega
    · omega
    · exact h
  clear hb
  induction b with
  | empty => exact .inl ⟨rfl, rfl⟩
  | fromMap m => exact .inr (.inl ⟨rfl, _, _, rfl⟩)
  | union l r n ihl ihr =>
    simp only [Build.maps, Build.run]
    rcases ihl with ⟨a, b⟩ | ⟨a, h, m, b⟩ | ⟨a, b⟩
    · rcases ihr with ⟨c, d⟩ | ⟨c, h', m', d⟩ | ⟨c, d⟩
      · exact .inl ⟨by omega, by simp [b, d, bind, Except.bind, TrieM.union, unionRec]⟩
      · exact .inr (.inl ⟨by omega, _, _, by simp [b, d, bind, Except.bind, TrieM.union, unionRec]; exact ⟨rfl, rfl⟩⟩)
      · exact .inr (.inr ⟨by omega, by simp [b, d, bind, Except.bind]⟩)
    · rcases ihr with ⟨c, d⟩ | ⟨c, h', m', d⟩ | ⟨c, d⟩
      · exact .inr (.inl ⟨by omega, _, _, by simp [b, d, bind, Except.bind, TrieM.union, unionRec]; exact ⟨rfl, rfl⟩⟩)
      · exact .inr (.inr ⟨by omega, by
          simp [b, d, bind, Except.bind, TrieM.union, unionRec, splitMap, makeMask]⟩)
      · exact .inr (.inr ⟨by omega, by simp [b, d, bind, Except.bind]⟩)
    · exact .inr (.inr ⟨by omega, by simp [b, bind, Except.bind]⟩)

example : 2 ≤ (Build.union (.fromMap []) (.fromMap [(1, 10)]) .unit : Build Nat Nat).maps := by decide

/-- The hash function of the counterexample: key 3 has bits 11, key 1 has bits 01. -/
def cexHash (k : Nat) : Word := BitVec.ofNat 64 k

/-- C39, inside the module: `union_rec` also loses data where it does not panic (prefixes of at least one bit),
as `split_map` distributes by bit `len + 1` but `find` descends by bit `len`. -/
theorem C39_union_rec_loses : ∃ (t : Trie Nat Nat),
    unionRec cexHash (fun _ => 0#64) (.leaf 0#64 [(3, 30)]) (.leaf 0#64 [(1, 10)]) ⟨1#64, 1⟩ .unit = .ok t ∧
    find t (cexHash 3 >>> 1) 3 = none := by
  refine ⟨.bin ⟨1#64, 1⟩ .unit (.leaf 0#64 [(3, 30), (1, 10)]) (.leaf 0#64 []), ?_, by decide +kernel⟩
  simp [unionRec, splitMap, makeMask, splitLoop, cexHash, shl1, assert, maskLoop, bind, Except.bind, pure, Except.pure,
    HMap.insert]

/-- C39, inside the module: uniting two branch nodes pairs the left with the right branch of the same trie: the
result misses keys that the arguments find. -/
theorem C39_union_rec_pairs : ∃ (l r t : Trie Nat Nat), union cexHash (fun _ => 0#64) l r .unit = .ok t ∧
    find l (cexHash 3) 3 = some 30 ∧ find r (cexHash 2) 2 = some 20 ∧
    find t (cexHash 3) 3 = none ∧ find t (cexHash 2) 2 = none := by
  refine ⟨.bin ⟨0#64, 0⟩ .unit .empty (.leaf 0#64 [(3, 30)]), .bin ⟨0#64, 0⟩ .unit (.leaf 0#64 [(2, 20)]) .empty,
    .bin ⟨0#64, 0⟩ .unit (.leaf 0#64 [(3, 30)]) (.leaf 0#64 [(2, 20)]), ?_, by decide +kernel, by decide +kernel,
    by decide +kernel, by decide +kernel⟩
  simp [union, unionRec, shl1u32, assert, bind, Except.bind, pure, Except.pure]

/-- C39, inside the module: `1 << bits.len` is a `u32`, so that two branch nodes with the same prefix can be united, whatever is in them, exactly if the prefix has fewer
than 32 bits. Here the left branch of each is empty, so that nothing else can fail; the result has the right branch of each. -/
theorem C39_union_rec_deep (hashK : K → Word) (hashM : HMap K V → Word) (b : Bits) (ln rn n : Name) (l r : Trie K V) :
    unionRec hashK hashM (.bin b ln .empty l) (.bin b rn .empty r) b n = (if b.len < 32 then .ok (.bin b n l r) else .error .overflow) := by
  by_cases h : b.len < 32 <;> simp [unionRec, shl1u32, assert, bind, Except.bind, pure, Except.pure, h]

theorem and_bit (x : Word) {n : Nat} (h : n < 64) : (0#64 = x &&& (1#64 <<< n)) ↔ x.getLsbD n = false := by
  constructor
  · intro e
    have := congrArg (fun y : Word => y.getLsbD n) e
    simpa [h] using this.symm
  · intro e
    refine BitVec.eq_of_getLsbD_eq fun i hi => ?_
    by_cases hin : i = n
    · subst hin; simp [e]
    · by_cases h2 : i < n
      · simp [h2]
      · have : i - n ≠ 0 := by omega
        simp [this]

/-- C39, inside the module: `split_map` puts an entry whose hash starts with the prefix into the second map exactly if its bit `len + 1` is set, and panics if the hash has no
such bit. -/
theorem C39_split (hashK : K → Word) (k : K) (v : V) (b : Bits) (hb : 0 < b.len) (hm : ∀ i, i < 64 → b.bits.getLsbD i = (decide (i < b.len) && (hashK k).getLsbD i)) :
    splitMap hashK [(k, v)] b [] [] = (if b.len < 63 then .ok (if (hashK k).getLsbD (b.len + 1) then ([], [(k, v)]) else ([(k, v)], [])) else .error .overflow) := by
  have hmask : ∀ n (m : Word) i, i < 64 → (maskLoop n m).getLsbD i = (decide (i < n) || (decide (n ≤ i) && m.getLsbD (i - n))) := by
    intro n
    induction n with
    | zero => intro m i hi; simp [maskLoop]
    | succ n ih =>
      intro m i hi
      rw [maskLoop, ih _ _ hi]
      by_cases h1 : i < n
      · simp [h1, show i < n + 1 by omega]
      · by_cases h2 : i = n
        · subst h2; simp
        · have h3 : i - n ≠ 0 := by omega
          have h4 : i - n - 1 = i - (n + 1) := by omega
          simp [h1, show ¬ i < n + 1 by omega, show n ≤ i by omega, show n + 1 ≤ i by omega, show i - n < 64 by omega, h3, h4, ← BitVec.getLsbD_eq_getElem]
  have he : maskLoop b.len 0#64 &&& hashK k = b.bits := by
    refine BitVec.eq_of_getLsbD_eq fun i hi => ?_
    rw [BitVec.getLsbD_and, hmask _ _ _ hi, hm i hi]
    simp
  by_cases h : b.len < 63
  · by_cases hg : (hashK k).getLsbD (b.len + 1) = true
    · have h1 : ¬ (0#64 = hashK k &&& (1#64 <<< (b.len + 1))) := fun e => by
        rw [and_bit _ (by omega), hg] at e; cases e
      simp [splitMap, makeMask, hb, splitLoop, he, assert, shl1, show b.len + 1 < 64 by omega, bind, Except.bind, h, hg, h1, HMap.insert]
    · have h1 : (0#64 = hashK k &&& (1#64 <<< (b.len + 1))) := (and_bit _ (by omega)).2 (by simpa using hg)
      simp [splitMap, makeMask, hb, splitLoop, he, assert, shl1, show b.len + 1 < 64 by omega, bind, Except.bind, h, hg, ← h1, HMap.insert, ← BitVec.getLsbD_eq_getElem]
  · simp [splitMap, makeMask, hb, splitLoop, he, assert, shl1, show ¬ b.len + 1 < 64 by omega, bind, Except.bind, h]

/-- A prefix of two bits of the hash 1101. -/
example : ∀ i, i < 64 → (1#64).getLsbD i = (decide (i < 2) && (cexHash 13).getLsbD i) := by decide +kernel

/-- With prefixes of 31 and 32 bits. -/
example : unionRec cexHash (fun _ => 0#64) (.bin ⟨5#64, 31⟩ .unit .empty (.leaf 0#64 [(3, 30)])) (.bin ⟨5#64, 31⟩ .unit .empty .empty) ⟨5#64, 31⟩ .unit =
      .ok (.bin ⟨5#64, 31⟩ .unit (.leaf 0#64 [(3, 30)]) .empty) ∧
    unionRec cexHash (fun _ => 0#64) (.bin ⟨5#64, 32⟩ .unit .empty (.leaf 0#64 [(3, 30)])) (.bin ⟨5#64, 32⟩ .unit .empty .empty) ⟨5#64, 32⟩ .unit = .error .overflow :=
  ⟨C39_union_rec_deep .., C39_union_rec_deep ..⟩

end Iodyn.TrieM
