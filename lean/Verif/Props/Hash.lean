import Verif.Spec.Hash
import Mathlib.Data.Fintype.EquivFin
import Mathlib.SetTheory.Cardinal.Finite
/-
Equality and hashing (C72).
-/
namespace Iodyn
open EqHash

/-! ### Types where `==` is identity -/

theorem ExactEq.lawful {α : Type} [EqHash α] [ExactEq α] : LawfulHash α where
  refl a := (ExactEq.iff a a).mpr rfl
  symm a b h := (ExactEq.iff b a).mpr ((ExactEq.iff a b).mp h).symm
  trans a b c h g := (ExactEq.iff a c).mpr (((ExactEq.iff a b).mp h).trans ((ExactEq.iff b c).mp g))
  hash a b h := by rw [(ExactEq.iff a b).mp h]

/-- A type whose `==` goes through parts that determine the value is exact if the parts are. -/
theorem ExactEq.of_parts {α β : Type} [EqHash α] [EqHash β] [ExactEq β] (f : α → β)
    (he : ∀ a b : α, EqHash.eq a b = EqHash.eq (f a) (f b)) (hf : ∀ a b, f a = f b → a = b) : ExactEq α :=
  ⟨fun a b => by rw [he, ExactEq.iff]; exact ⟨hf a b, fun h => by rw [h]⟩⟩

/-- A type whose `==` and `hash` go through parts of its values is lawful if the parts are. -/
theorem LawfulHash.of_parts {α β : Type} [EqHash α] [EqHash β] [LawfulHash β] (f : α → β)
    (he : ∀ a b : α, EqHash.eq a b = EqHash.eq (f a) (f b))
    (hh : ∀ a b : α, EqHash.feed (f a) = EqHash.feed (f b) → EqHash.feed a = EqHash.feed b) : LawfulHash α where
  refl a := by rw [he]; exact LawfulHash.refl _
  symm a b h := by rw [he] at h ⊢; exact LawfulHash.symm _ _ h
  trans a b c h g := by rw [he] at h g ⊢; exact LawfulHash.trans _ _ _ h g
  hash a b h := hh a b (LawfulHash.hash _ _ (by rw [← he]; exact h))

instance : ExactEq Nat := ⟨fun _ _ => decide_eq_true_iff⟩
instance : ExactEq Bool := ⟨fun _ _ => beq_iff_eq⟩
instance : ExactEq Word := ⟨fun _ _ => decide_eq_true_iff⟩
instance : ExactEq Unit := ⟨fun _ _ => ⟨fun _ => rfl, fun _ => rfl⟩⟩
instance : ExactEq Count := ⟨fun a b => (ExactEq.iff a.n b.n).trans (by cases a; cases b; simp)⟩
instance : ExactEq Elm := ⟨fun a b => (ExactEq.iff a.n b.n).trans (by cases a; cases b; simp)⟩

section
variable {α β : Type} [EqHash α] [EqHash β]

instance [ExactEq α] : ExactEq (Option α) :=
  ⟨fun a b => by cases a <;> cases b <;> simp [EqHash.eq, ExactEq.iff]⟩

instance [ExactEq α] [ExactEq β] : ExactEq (α × β) :=
  ⟨fun a b => by cases a; cases b; simp [EqHash.eq, ExactEq.iff]⟩

theorem vecEq_iff [ExactEq α] (l r : List α) : vecEq l r = true ↔ l = r := by
  induction l generalizing r with
  | nil => cases r <;> simp [vecEq]
  | cons a l ih => cases r <;> simp [vecEq, ExactEq.iff, ih]

instance [ExactEq α] : ExactEq (List α) := ⟨vecEq_iff⟩

instance [LawfulHash α] : LawfulHash (Option α) where
  refl a := by cases a <;> simp [EqHash.eq, LawfulHash.refl]
  symm a b := by cases a <;> cases b <;> simp [EqHash.eq]; exact LawfulHash.symm _ _
  trans a b c := by cases a <;> cases b <;> cases c <;> simp [EqHash.eq]; exact LawfulHash.trans _ _ _
  hash a b := by cases a <;> cases b <;> simp [EqHash.eq, EqHash.feed]; exact LawfulHash.hash _ _

instance [LawfulHash α] [LawfulHash β] : LawfulHash (α × β) where
  refl a := by simp [EqHash.eq, LawfulHash.refl]
  symm a b := by
    simp only [EqHash.eq, Bool.and_eq_true]
    exact fun h => ⟨LawfulHash.symm _ _ h.1, LawfulHash.symm _ _ h.2⟩
  trans a b c := by
    simp only [EqHash.eq, Bool.and_eq_true]
    exact fun h g => ⟨LawfulHash.trans _ _ _ h.1 g.1, LawfulHash.trans _ _ _ h.2 g.2⟩
  hash a b := by
    simp only [EqHash.eq, EqHash.feed, Bool.and_eq_true]
    exact fun h => by rw [LawfulHash.hash _ _ h.1, LawfulHash.hash _ _ h.2]

theorem vecEq_refl [LawfulHash α] (l : List α) : vecEq l l = true := by
  induction l with
  | nil => rfl
  | cons a l ih => simp [vecEq, LawfulHash.refl, ih]

theorem vecEq_symm [LawfulHash α] (l r : List α) (h : vecEq l r = true) : vecEq r l = true := by
  induction l generalizing r with
  | nil => cases r <;> simp_all [vecEq]
  | cons a l ih =>
    cases r with
    | nil => simp [vecEq] at h
    | cons b r =>
      simp only [vecEq, Bool.and_eq_true] at h ⊢
      exact ⟨LawfulHash.symm _ _ h.1, ih _ h.2⟩

theorem vecEq_trans [LawfulHash α] (l m r : List α) (h : vecEq l m = true) (g : vecEq m r = true) : vecEq l r = true := by
  induction l generalizing m r with
  | nil => cases m <;> cases r <;> simp_all [vecEq]
  | cons a l ih =>
    cases m with
    | nil => simp [vecEq] at h
    | cons b m =>
      cases r with
      | nil => simp [vecEq] at g
      | cons c r =>
        simp only [vecEq, Bool.and_eq_true] at h g ⊢
        exact ⟨LawfulHash.trans _ _ _ h.1 g.1, ih _ _ h.2 g.2⟩

theorem vecEq_feed [LawfulHash α] (l r : List α) (h : vecEq l r = true) :
    l.length = r.length ∧ l.flatMap feed = r.flatMap feed := by
  induction l generalizing r with
  | nil => cases r <;> simp_all [vecEq]
  | cons a l ih =>
    cases r with
    | nil => simp [vecEq] at h
    | cons b r =>
      simp only [vecEq, Bool.and_eq_true] at h
      obtain ⟨hl, hf⟩ := ih _ h.2
      simp [hl, hf, LawfulHash.hash _ _ h.1]

instance [LawfulHash α] : LawfulHash (List α) where
  refl := vecEq_refl
  symm := vecEq_symm
  trans := vecEq_trans
  hash l r h := by
    obtain ⟨hl, hf⟩ := vecEq_feed l r h
    simp only [EqHash.feed, hl, hf]
end

instance : LawfulHash Nat := ExactEq.lawful
instance : LawfulHash Bool := ExactEq.lawful
instance : LawfulHash Word := ExactEq.lawful
instance : LawfulHash Unit := ExactEq.lawful
instance : LawfulHash Count := ExactEq.lawful
instance : LawfulHash Elm := ExactEq.lawful

/-- C72, name metadata: two `Names` are equal exactly if they hold the same names, and `Names` is lawful. -/
theorem C72_names (a b : Names) : EqHash.eq a b = true ↔ ∀ n, n ∈ a.names ↔ n ∈ b.names := by
  simp only [EqHash.eq, Bool.and_eq_true, List.all_eq_true, decide_eq_true_eq]
  exact ⟨fun h n => ⟨h.1 n, h.2 n⟩, fun h => ⟨fun n => (h n).mp, fun n => (h n).mpr⟩⟩

instance : LawfulHash Names where
  refl a := (C72_names a a).mpr fun _ => Iff.rfl
  symm a b h := (C72_names b a).mpr fun n => ((C72_names a b).mp h n).symm
  trans a b c h g := (C72_names a c).mpr fun n => ((C72_names a b).mp h n).trans ((C72_names b c).mp g n)
  hash _ _ _ := rfl

/-! ### Trees, stacks, cursors -/

section
variable [EqHash Name]

section
variable {D : Type} [EqHash D]

theorem treeEq_iff [ExactEq Name] [ExactEq D] (t u : Tree D) : treeEq t u = true ↔ t = u := by
  induction t generalizing u with
  | nil => cases u <;> simp [treeEq]
  | node lv nm d l r ihl ihr => cases u <;> simp [treeEq, ExactEq.iff, ihl, ihr, and_assoc]

instance [ExactEq Name] [ExactEq D] : ExactEq (Tree D) := ⟨treeEq_iff⟩

instance [ExactEq Name] [ExactEq D] : ExactEq (TNode D) :=
  .of_parts (fun t : TNode D => ((((t.level, t.name), t.data), t.l), t.r)) (fun _ _ => rfl)
    (fun a b h => by cases a; cases b; simp_all)

theorem treeEq_refl [LawfulHash Name] [LawfulHash D] (t : Tree D) : treeEq t t = true := by
  induction t with
  | nil => rfl
  | node lv nm d l r ihl ihr => simp [treeEq, LawfulHash.refl, ihl, ihr]

theorem treeEq_symm [LawfulHash Name] [LawfulHash D] (t u : Tree D) (h : treeEq t u = true) : treeEq u t = true := by
  induction t generalizing u with
  | nil => cases u <;> simp_all [treeEq]
  | node lv nm d l r ihl ihr =>
    cases u with
    | nil => simp [treeEq] at h
    | node lv' nm' d' l' r' =>
      simp only [treeEq, Bool.and_eq_true] at h ⊢
      obtain ⟨⟨⟨⟨h1, h2⟩, h3⟩, h4⟩, h5⟩ := h
      exact ⟨⟨⟨⟨LawfulHash.symm _ _ h1, LawfulHash.symm _ _ h2⟩, LawfulHash.symm _ _ h3⟩, ihl _ h4⟩, ihr _ h5⟩

theorem treeEq_trans [LawfulHash Name] [LawfulHash D] (t u v : Tree D) (h : treeEq t u = true) (g : treeEq u v = true) :
    treeEq t v = true := by
  induction t generalizing u v with
  | nil => cases u <;> cases v <;> simp_all [treeEq]
  | node lv nm d l r ihl ihr =>
    cases u with
    | nil => simp [treeEq] at h
    | node lv' nm' d' l' r' =>
      cases v with
      | nil => simp [treeEq] at g
      | node lv'' nm'' d'' l'' r'' =>
        simp only [treeEq, Bool.and_eq_true] at h g ⊢
        obtain ⟨⟨⟨⟨h1, h2⟩, h3⟩, h4⟩, h5⟩ := h
        obtain ⟨⟨⟨⟨g1, g2⟩, g3⟩, g4⟩, g5⟩ := g
        exact ⟨⟨⟨⟨LawfulHash.trans _ _ _ h1 g1, LawfulHash.trans _ _ _ h2 g2⟩, LawfulHash.trans _ _ _ h3 g3⟩, ihl _ _ h4 g4⟩, ihr _ _ h5 g5⟩

theorem treeEq_feed [LawfulHash Name] [LawfulHash D] (t u : Tree D) (h : treeEq t u = true) : treeFeed t = treeFeed u := by
  induction t generalizing u with
  | nil => cases u <;> simp_all [treeEq]
  | node lv nm d l r ihl ihr =>
    cases u with
    | nil => simp [treeEq] at h
    | node lv' nm' d' l' r' =>
      simp only [treeEq, Bool.and_eq_true] at h
      obtain ⟨⟨⟨⟨h1, h2⟩, h3⟩, h4⟩, h5⟩ := h
      simp only [treeFeed, LawfulHash.hash _ _ h1, LawfulHash.hash _ _ h2, LawfulHash.hash _ _ h3, ihl _ h4, ihr _ h5]

instance [LawfulHash Name] [LawfulHash D] : LawfulHash (Tree D) := ⟨treeEq_refl, treeEq_symm, treeEq_trans, treeEq_feed⟩

instance [LawfulHash Name] [LawfulHash D] : LawfulHash (TNode D) :=
  .of_parts (fun t : TNode D => ((((t.level, t.name), t.data), t.l), t.r)) (fun _ _ => rfl) (fun _ _ h => h)

instance [LawfulHash Name] [LawfulHash D] : LawfulHash (Cursor D) :=
  .of_parts (fun t : Cursor D => (((t.dirty, t.lForest), t.tree), t.rForest)) (fun _ _ => rfl) (fun _ _ h => h)

instance [ExactEq Name] [ExactEq D] : ExactEq (Cursor D) :=
  .of_parts (fun t : Cursor D => (((t.dirty, t.lForest), t.tree), t.rForest)) (fun _ _ => rfl)
    (fun a b h => by cases a; cases b; simp_all)
end

section
variable {E M X : Type} [EqHash E] [EqHash M] [EqHash X]

instance [ExactEq E] [ExactEq M] : ExactEq (TreeData E M) :=
  ⟨fun a b => by cases a <;> cases b <;> simp [EqHash.eq, ExactEq.iff, vecEq_iff]⟩

instance [LawfulHash E] [LawfulHash M] : LawfulHash (TreeData E M) where
  refl a := by cases a <;> simp [EqHash.eq, LawfulHash.refl, vecEq_refl]
  symm a b h := by
    cases a <;> cases b <;> simp_all only [EqHash.eq, Bool.and_eq_true, Bool.false_eq_true]
    · exact ⟨LawfulHash.symm _ _ h.1, LawfulHash.symm _ _ h.2⟩
    · exact vecEq_symm _ _ h
  trans a b c h g := by
    cases a <;> cases b <;> cases c <;> simp_all only [EqHash.eq, Bool.and_eq_true, Bool.false_eq_true]
    · exact ⟨LawfulHash.trans _ _ _ h.1 g.1, LawfulHash.trans _ _ _ h.2 g.2⟩
    · exact vecEq_trans _ _ _ h g
  hash a b h := by
    cases a <;> cases b <;> simp only [EqHash.eq, Bool.and_eq_true, Bool.false_eq_true] at h
    · rfl
    · simp only [EqHash.feed, LawfulHash.hash _ _ h.1, LawfulHash.hash _ _ h.2]
    · exact congrArg (2#64 :: ·) (LawfulHash.hash (α := List E) _ _ h)

/-- A stack as the vector of its cells, for `==` only. -/
theorem stackEq_vec (s s' : Stack X) : stackEq s s' = vecEq (α := Option Name × X) s s' := by
  induction s generalizing s' with
  | nil => cases s' <;> rfl
  | cons a s ih => cases s' <;> simp [stackEq, vecEq, EqHash.eq, ih]

theorem stackEq_feed [LawfulHash Name] [LawfulHash X] (s s' : Stack X) (h : stackEq s s' = true) : stackFeed s = stackFeed s' := by
  induction s generalizing s' with
  | nil => cases s' <;> simp_all [stackEq]
  | cons a s ih =>
    cases s' with
    | nil => simp [stackEq] at h
    | cons b s' =>
      simp only [stackEq, Bool.and_eq_true] at h
      simp only [stackFeed, LawfulHash.hash _ _ h.1.1, LawfulHash.hash _ _ h.1.2, ih _ h.2]

instance [LawfulHash Name] [LawfulHash E] [LawfulHash X] : LawfulHash (AStack E X) where
  refl a := by simp [EqHash.eq, stackEq_vec, vecEq_refl]
  symm a b h := by
    simp only [EqHash.eq, stackEq_vec, Bool.and_eq_true] at h ⊢
    exact ⟨vecEq_symm _ _ h.1, vecEq_symm _ _ h.2⟩
  trans a b c h g := by
    simp only [EqHash.eq, stackEq_vec, Bool.and_eq_true] at h g ⊢
    exact ⟨vecEq_trans _ _ _ h.1 g.1, vecEq_trans _ _ _ h.2 g.2⟩
  hash a b h := by
    simp only [EqHash.eq, Bool.and_eq_true] at h
    have h1 := LawfulHash.hash (α := List E) _ _ h.1
    have h2 := stackEq_feed _ _ h.2
    simp only [EqHash.feed] at h1 ⊢
    rw [h1, h2]

instance [ExactEq Name] [ExactEq E] [ExactEq X] : ExactEq (AStack E X) :=
  ⟨fun a b => by cases a; cases b; simp [EqHash.eq, stackEq_vec, vecEq_iff]⟩

/-- C72, sequences: if names, elements and metadata keep the promises of `Eq` and `Hash`, then so do sequences in tree form: `==` is an
equivalence, and equal sequences write the same to every hasher. -/
theorem C72_tree [LawfulHash Name] [LawfulHash E] [LawfulHash M] : LawfulHash (RazTree E M) :=
  .of_parts (fun t : RazTree E M => (t.info, t.tree)) (fun _ _ => rfl) (fun _ _ h => h)

/-- C72, the same for sequences with a cursor. -/
theorem C72_raz [LawfulHash Name] [LawfulHash E] [LawfulHash M] : LawfulHash (Raz E M) :=
  .of_parts (fun t : Raz E M => (((t.lForest, t.lStack), t.rStack), t.rForest)) (fun _ _ => rfl) (fun _ _ h => h)

/-- C72: with counts or no metadata two sequences are `==` only if they are the same tree. -/
theorem C72_tree_same [ExactEq Name] [ExactEq E] [ExactEq M] (t u : RazTree E M) : EqHash.eq t u = true ↔ t = u := by
  cases t; cases u; simp [EqHash.eq, treeEq_iff, ExactEq.iff]

/-- C72, the same for sequences with a cursor. -/
theorem C72_raz_same [ExactEq Name] [ExactEq E] [ExactEq M] (t u : Raz E M) : EqHash.eq t u = true ↔ t = u := by
  exact (ExactEq.of_parts (fun t : Raz E M => (((t.lForest, t.lStack), t.rStack), t.rForest)) (fun _ _ => rfl)
    (fun a b h => by cases a; cases b; simp_all)).iff t u
end

omit [EqHash Name] in
/-- C72: the words written for an element of the evaluation suite determine it: what costs a hundred times as much to hash is still the
number. -/
theorem C72_elm (a b : Elm) (ha : a.n ≤ usizeMax) (hb : b.n ≤ usizeMax) : EqHash.feed a = EqHash.feed b ↔ EqHash.eq a b = true := by
  refine ⟨fun h => (ExactEq.iff a b).mpr ?_, LawfulHash.hash a b⟩
  have h1 : BitVec.ofNat 64 a.n = BitVec.ofNat 64 b.n := by
    simp only [EqHash.feed, elmLoop, List.cons_append, List.nil_append] at h
    exact (List.cons.inj h).1
  have := congrArg BitVec.toNat h1
  simp only [BitVec.toNat_ofNat, usizeMax] at *
  rw [Nat.mod_eq_of_lt (by omega), Nat.mod_eq_of_lt (by omega)] at this
  cases a; cases b; simp_all

/-! ### Tries -/

namespace TrieM
variable {K V : Type}

omit [EqHash Name] in
instance : LawfulHash Bits := .of_parts (fun b : Bits => (b.bits, b.len)) (fun _ _ => rfl) (fun _ _ h => h)

theorem trieEq_refl [LawfulHash Name] (t : Trie K V) : trieEq t t = true := by
  induction t with
  | empty => rfl
  | leaf h m => simp [trieEq, LawfulHash.refl]
  | bin b n l r ihl ihr => simp [trieEq, LawfulHash.refl, ihl, ihr, EqHash.eq]

theorem trieEq_symm [LawfulHash Name] (t u : Trie K V) (h : trieEq t u = true) : trieEq u t = true := by
  induction t generalizing u with
  | empty => cases u <;> simp_all [trieEq]
  | leaf h m =>
    cases u <;> simp_all only [trieEq, Bool.false_eq_true]
    exact LawfulHash.symm _ _ h
  | bin b n l r ihl ihr =>
    cases u with
    | empty => simp [trieEq] at h
    | leaf => simp [trieEq] at h
    | bin b' n' l' r' =>
      simp only [trieEq, Bool.and_eq_true] at h ⊢
      exact ⟨⟨⟨LawfulHash.symm _ _ h.1.1.1, LawfulHash.symm _ _ h.1.1.2⟩, ihl _ h.1.2⟩, ihr _ h.2⟩

theorem trieEq_trans [LawfulHash Name] (t u v : Trie K V) (h : trieEq t u = true) (g : trieEq u v = true) : trieEq t v = true := by
  induction t generalizing u v with
  | empty => cases u <;> cases v <;> simp_all [trieEq]
  | leaf x m =>
    cases u <;> cases v <;> simp_all only [trieEq, Bool.false_eq_true]
    exact LawfulHash.trans _ _ _ h g
  | bin b n l r ihl ihr =>
    cases u with
    | empty => simp [trieEq] at h
    | leaf => simp [trieEq] at h
    | bin b' n' l' r' =>
      cases v with
      | empty => simp [trieEq] at g
      | leaf => simp [trieEq] at g
      | bin b'' n'' l'' r'' =>
        simp only [trieEq, Bool.and_eq_true] at h g ⊢
        exact ⟨⟨⟨LawfulHash.trans _ _ _ h.1.1.1 g.1.1.1, LawfulHash.trans _ _ _ h.1.1.2 g.1.1.2⟩, ihl _ _ h.1.2 g.1.2⟩, ihr _ _ h.2 g.2⟩

theorem trieEq_feed [LawfulHash Name] (t u : Trie K V) (h : trieEq t u = true) : trieFeed t = trieFeed u := by
  induction t generalizing u with
  | empty => cases u <;> simp_all [trieEq]
  | leaf x m =>
    cases u <;> simp only [trieEq, Bool.false_eq_true] at h
    simp only [trieFeed, LawfulHash.hash _ _ h]
  | bin b n l r ihl ihr =>
    cases u with
    | empty => simp [trieEq] at h
    | leaf => simp [trieEq] at h
    | bin b' n' l' r' =>
      simp only [trieEq, Bool.and_eq_true] at h
      simp only [trieFeed, LawfulHash.hash _ _ h.1.1.1, LawfulHash.hash _ _ h.1.1.2, ihl _ h.1.2, ihr _ h.2]

/-- C72, tries: whatever keys and values are, `==` of tries is an equivalence, and equal tries write the same to every hasher. -/
theorem C72_trie [LawfulHash Name] : LawfulHash (Trie K V) := ⟨trieEq_refl, trieEq_symm, trieEq_trans, trieEq_feed⟩
end TrieM
end

namespace TrieM
variable {K V : Type} [DecidableEq K] [EqHash K] [EqHash V]

/-- C72 fails for tries in the other direction: whatever the hasher does, if there are more pairs of a key and a value than hash values, then
there are two maps whose tries are `==` although a key has different values in them. -/
theorem C72_trie_equal_but_different [EqHash Name] (hc : ¬ ∃ f : K × V → Word, ∀ p q, f p = f q → p = q) (digest : List Word → Word) :
    ∃ m m' : HMap K V, EqHash.eq (fromHashmap (hashMap digest) m) (fromHashmap (hashMap digest) m') = true ∧
      ∃ k, ∀ h, find (fromHashmap (hashMap digest) m) h k ≠ find (fromHashmap (hashMap digest) m') h k := by
  have : ¬ ∀ p q : K × V, hashMap digest [p] = hashMap digest [q] → p = q := fun h => hc ⟨_, h⟩
  simp only [not_forall] at this
  obtain ⟨⟨k, v⟩, ⟨k', v'⟩, he, hne⟩ := this
  refine ⟨[(k, v)], [(k', v')], (ExactEq.iff (α := Word) _ _).mpr he, k, fun h => ?_⟩
  by_cases hk : k' = k
  · subst hk
    have : v ≠ v' := fun hv => hne (by rw [hv])
    simpa [fromHashmap, find, HMap.get] using this
  · simp [fromHashmap, find, HMap.get, hk]

/-- C72: numbers as keys and values: two different maps from numbers to numbers whose tries are `==`, for every hasher. -/
theorem C72_trie_counterexample [EqHash Name] (digest : List Word → Word) :
    ∃ m m' : HMap Word Word, EqHash.eq (fromHashmap (hashMap digest) m) (fromHashmap (hashMap digest) m') = true ∧
      ∃ k, ∀ h, find (fromHashmap (hashMap digest) m) h k ≠ find (fromHashmap (hashMap digest) m') h k := by
  refine C72_trie_equal_but_different ?_ digest
  rintro ⟨f, hf⟩
  have h1 : Nat.card Word = 2 ^ 64 := by
    rw [Nat.card_congr (⟨BitVec.toFin, BitVec.ofFin, fun _ => rfl, fun _ => rfl⟩ : Word ≃ Fin (2 ^ 64)), Nat.card_fin]
  have : Finite Word := Nat.finite_of_card_ne_zero (by rw [h1]; decide)
  have h2 := Nat.card_le_card_of_injective f (fun p q h => hf p q h)
  rw [Nat.card_prod, h1] at h2
  exact absurd h2 (by decide)

omit [DecidableEq K] in
/-- C72 fails for tries: the same map, once iterated in one order and once in another, gives tries that are `==` only if the hasher cannot
tell the two orders apart. (`HashMap` gives no guarantee about the order of iteration.) -/
theorem C72_trie_order [EqHash Name] (digest : List Word → Word) (m m' : HMap K V) :
    EqHash.eq (fromHashmap (hashMap digest) m) (fromHashmap (hashMap digest) m') = true ↔
      digest (m.flatMap fun p => EqHash.feed p.1 ++ EqHash.feed p.2) = digest (m'.flatMap fun p => EqHash.feed p.1 ++ EqHash.feed p.2) :=
  ExactEq.iff (α := Word) _ _

/-- C72 for tries, as far as it holds: among maps that the hasher tells apart, tries that are `==` have the same values for all keys. -/
theorem C72_trie_partial [EqHash Name] (digest : List Word → Word) (S : HMap K V → Prop)
    (hd : ∀ l, S l → ∀ l', S l' → hashMap digest l = hashMap digest l' → l = l') (m m' : HMap K V) (hm : S m) (hm' : S m')
    (he : EqHash.eq (fromHashmap (hashMap digest) m) (fromHashmap (hashMap digest) m') = true) (h : Word) (k : K) :
    find (fromHashmap (hashMap digest) m) h k = find (fromHashmap (hashMap digest) m') h k := by
  rw [hd m hm m' hm' ((C72_trie_order digest m m').mp he)]
end TrieM

/-! ### Examples -/

section
/-- Names hashed by a word that tells them apart, as far as the examples need it. -/
local instance exNameHash : EqHash Name where
  eq a b := decide (a = b)
  feed
    | .usize n => EqHash.feed n
    | _ => []

local instance exNameExact : ExactEq Name := ⟨fun _ _ => decide_eq_true_iff⟩
local instance exNameLawful : LawfulHash Name := ExactEq.lawful

/-- Two sequences with one archive point named 7, whose name sets were collected in different orders. -/
def exNamesTree (l : List Name) : RazTree Elm Names :=
  ⟨⟨l⟩, .node 3 (some (.usize 7)) (.branch ⟨l⟩ ⟨[.usize 7]⟩) (.node 0 none (.leaf [⟨1⟩, ⟨2⟩]) .nil .nil) (.node 0 none (.leaf [⟨5⟩]) .nil .nil)⟩

/-- They are `==` but not the same term, and they hash equally. -/
example : exNamesTree [.usize 7, .usize 8] ≠ exNamesTree [.usize 8, .usize 7] ∧
    EqHash.feed (exNamesTree [.usize 7, .usize 8]) = EqHash.feed (exNamesTree [.usize 8, .usize 7]) := by
  refine ⟨by decide, C72_tree.hash _ _ ?_⟩
  decide +kernel

example : EqHash.eq (Names.mk [.usize 7, .usize 8]) ⟨[.usize 8, .usize 7]⟩ = true :=
  (C72_names _ _).mpr fun n => by simp [or_comm]

example : LawfulHash (Raz Elm Names) := C72_raz

example : EqHash.eq (⟨⟨2⟩, .node 0 none (.leaf [⟨1⟩, ⟨2⟩]) .nil .nil⟩ : RazTree Elm Count) ⟨⟨2⟩, .node 0 none (.leaf [⟨1⟩, ⟨3⟩]) .nil .nil⟩ ≠ true :=
  fun h => absurd ((C72_tree_same _ _).mp h) (by decide)

example (t u : Raz Elm Count) (h : t ≠ u) : EqHash.eq t u ≠ true := fun e => h ((C72_raz_same t u).mp e)

example : EqHash.feed (Elm.mk 5) ≠ EqHash.feed (Elm.mk 6) :=
  fun h => absurd ((C72_elm _ _ (by decide) (by decide)).mp h) (by decide)

example : LawfulHash (TrieM.Trie Elm Elm) := TrieM.C72_trie

/-- A hasher that only looks at the first word: two different maps, `==` tries, found values 1 and 2. -/
example : EqHash.eq (TrieM.fromHashmap (TrieM.hashMap fun l => l.headD 0#64) [((5 : Nat), (1 : Nat))])
      (TrieM.fromHashmap (TrieM.hashMap fun l => l.headD 0#64) [((5 : Nat), (2 : Nat))]) = true ∧
    TrieM.find (TrieM.fromHashmap (TrieM.hashMap fun l => l.headD 0#64) [((5 : Nat), (1 : Nat))]) 0#64 5 = some 1 ∧
    TrieM.find (TrieM.fromHashmap (TrieM.hashMap fun l => l.headD 0#64) [((5 : Nat), (2 : Nat))]) 0#64 5 = some 2 := by
  decide +kernel

/-- A hasher that depends on the order (a polynomial in the words): the same map in two orders gives different tries. -/
example : EqHash.eq (TrieM.fromHashmap (TrieM.hashMap fun l => l.foldl (fun a w => a * 31#64 + w) 0#64) [((5 : Nat), (1 : Nat)), (6, 2)])
      (TrieM.fromHashmap (TrieM.hashMap fun l => l.foldl (fun a w => a * 31#64 + w) 0#64) [((6 : Nat), (2 : Nat)), (5, 1)]) ≠ true :=
  fun h => absurd ((TrieM.C72_trie_order _ _ _).mp h) (by decide +kernel)

/-- The same hasher tells the maps with one or two small entries below apart. -/
example (m m' : TrieM.HMap Nat Nat) (hm : m ∈ [[(5, 1)], [(6, 2)], [(5, 1), (6, 2)]]) (hm' : m' ∈ [[(5, 1)], [(6, 2)], [(5, 1), (6, 2)]])
    (he : EqHash.eq (TrieM.fromHashmap (TrieM.hashMap fun l => l.foldl (fun a w => a * 31#64 + w) 0#64) m)
      (TrieM.fromHashmap (TrieM.hashMap fun l => l.foldl (fun a w => a * 31#64 + w) 0#64) m') = true) :
    TrieM.find (TrieM.fromHashmap (TrieM.hashMap fun l => l.foldl (fun a w => a * 31#64 + w) 0#64) m) 0#64 5 =
      TrieM.find (TrieM.fromHashmap (TrieM.hashMap fun l => l.foldl (fun a w => a * 31#64 + w) 0#64) m') 0#64 5 :=
  TrieM.C72_trie_partial _ (fun m => m ∈ [[(5, 1)], [(6, 2)], [(5, 1), (6, 2)]]) (by decide +kernel) m m' hm hm' he _ _
end
end Iodyn
