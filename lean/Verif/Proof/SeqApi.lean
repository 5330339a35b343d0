import Verif.Spec.SeqApi
import Verif.Proof.Reach
import Mathlib.Data.List.Forall2
/-
Refinement of the sequence interface to plain stacks.
-/
namespace Iodyn.Eval
variable {T S X : Type}

/-- `R` relates a store and a value to a plain stack; `Inv` is an invariant of the store, `Free` says which names
can be used. -/
structure Refines (I : SeqImpl T S X) (Inv : T → Prop) (R : T → S → List X → Prop) (Free : T → Option Name → Prop) : Prop where
  new : ∀ σ, R σ I.new []
  push : ∀ {σ s xs}, R σ s xs → ∀ x, ∃ s', I.push s x = .ok s' ∧ R σ s' (x :: xs)
  pop : ∀ {σ s xs}, R σ s xs → ∃ f0 s', (∀ f, f0 ≤ f → I.pop f σ s = .ok (xs.head?, s')) ∧ R σ s' xs.tail
  archive : ∀ {σ s xs lev nm}, Inv σ → R σ s xs → 1 ≤ lev → Free σ nm →
    ∃ σ' s', I.archive σ s lev nm = .ok (σ', s') ∧ Inv σ' ∧ R σ' s' xs ∧ (∀ s2 ys, R σ s2 ys → R σ' s2 ys) ∧
      ∀ nm2, (∀ n, nm = some n → nm2 ≠ some n) → Free σ nm2 → Free σ' nm2

/-- The names of the program are usable: either every name always is, or they are pairwise distinct and free. -/
def NamesOK (Free : T → Option Name → Prop) (σ : T) (ops : List (SeqOp X)) : Prop :=
  (∀ σ nm, Free σ nm) ∨ (ops.filterMap SeqOp.name?).Nodup ∧ ∀ n, Free σ n ∨ n ∉ (ops.filterMap SeqOp.name?).map some ∧ n ≠ none

theorem Refines.run {I : SeqImpl T S X} {Inv : T → Prop} {R : T → S → List X → Prop} {Free : T → Option Name → Prop}
    (h : Refines I Inv R Free) (ops : List (SeqOp X)) {σ : T} {pool : List S} {lpool : List (List X)}
    (hi : Inv σ) (hp : List.Forall₂ (R σ) pool lpool) (hv : Valid pool.length ops)
    (hf : NamesOK Free σ ops) :
    ∃ f0, ∀ f, f0 ≤ f → I.run f σ pool ops = .ok (plainSeqRun lpool ops) := by
  induction ops generalizing σ pool lpool with
  | nil => exact ⟨0, fun _ _ => rfl⟩
  | cons op ops ih =>
    obtain ⟨hv1, hv2⟩ := hv
    have hlen := hp.length_eq
    have look : ∀ i, i < pool.length → ∃ s xs, pool[i]? = some s ∧ lpool[i]? = some xs ∧ R σ s xs := by
      intro i hi
      refine ⟨pool[i], lpool[i]'(hlen ▸ hi), List.getElem?_eq_getElem hi, List.getElem?_eq_getElem _, ?_⟩
      exact hp.get hi (hlen ▸ hi)
    have hset : ∀ {σ' : T} {i : Nat} {s' xs'}, List.Forall₂ (R σ') pool lpool → R σ' s' xs' →
        List.Forall₂ (R σ') (pool.set i s') (lpool.set i xs') := by
      intro σ' i s' xs' h1 h2
      clear look hv1 hv2 hp hf hlen ih
      induction h1 generalizing i with
      | nil => exact .nil
      | cons a b ih2 =>
        cases i with
        | zero => exact .cons h2 b
        | succ i => exact .cons a ih2
    have fin : ∀ {σ' pool' out} {f1 : Nat} {lpool' : List (List X)}, (∀ f, f1 ≤ f → I.step f σ pool op = .ok (σ', pool', out)) →
        plainSeqStep lpool op = (lpool', out) → Inv σ' → List.Forall₂ (R σ') pool' lpool' → pool'.length = op.count pool.length →
        NamesOK Free σ' ops →
        ∃ f0, ∀ f, f0 ≤ f → I.run f σ pool (op :: ops) = .ok (plainSeqRun lpool (op :: ops)) := by
      intro σ' pool' out f1 lpool' h1 h2 h3 h4 h5 h6
      obtain ⟨f2, g⟩ := ih h3 h4 (h5 ▸ hv2) h6
      refine ⟨max f1 f2, fun f hf => ?_⟩
      simp only [SeqImpl.run, plainSeqRun, h1 f (by omega), h2, bind, Except.bind, g f (by omega), pure, Except.pure]
    cases op with
    | new =>
      refine fin (f1 := 0) (fun _ _ => rfl) rfl hi (List.rel_append hp (.cons (h.new σ) .nil)) (by simp [SeqOp.count]) hf
    | clone i =>
      obtain ⟨s, xs, g1, g2, g3⟩ := look i hv1
      refine fin (f1 := 0) (fun _ _ => by simp only [SeqImpl.step, g1, unwrap, bind, Except.bind]; rfl)
        (by simp only [plainSeqStep, g2]; rfl) hi (List.rel_append hp (.cons g3 .nil)) (by simp [SeqOp.count]) hf
    | push i x =>
      obtain ⟨s, xs, g1, g2, g3⟩ := look i hv1
      obtain ⟨s', g4, g5⟩ := h.push g3 x
      refine fin (f1 := 0) (fun _ _ => by simp only [SeqImpl.step, g1, g4, unwrap, bind, Except.bind]; rfl)
        (by simp only [plainSeqStep, g2]; rfl) hi (hset hp g5) (by simp [SeqOp.count]) hf
    | pop i =>
      obtain ⟨s, xs, g1, g2, g3⟩ := look i hv1
      obtain ⟨f1, s', g4, g5⟩ := h.pop g3
      refine fin (f1 := f1) (fun f hf => by simp only [SeqImpl.step, g1, g4 f hf, unwrap, bind, Except.bind]; rfl)
        (by simp only [plainSeqStep, g2]; rfl) hi (hset hp g5) (by simp [SeqOp.count]) hf
    | archive i lev nm =>
      obtain ⟨s, xs, g1, g2, g3⟩ := look i hv1.1
      have hfr : Free σ nm := by
        rcases hf with h | ⟨-, hf⟩
        · exact h _ _
        rcases hf nm with h | ⟨h, h'⟩
        · exact h
        · cases nm with
          | none => exact absurd rfl h'
          | some n => exact absurd (by simp [SeqOp.name?]) h
      obtain ⟨σ', s', g4, g5, g6, g7, g8⟩ := h.archive hi g3 hv1.2 hfr
      have e : lpool = lpool.set i xs := by
        apply List.ext_getElem?
        intro j
        by_cases hj : i = j
        · subst hj; rw [List.getElem?_set_self (by rw [← hlen]; exact hv1.1), g2]
        · rw [List.getElem?_set_ne hj]
      refine fin (f1 := 0) (lpool' := lpool) (fun _ _ => by simp only [SeqImpl.step, g1, g4, unwrap, bind, Except.bind]; rfl) rfl g5
        (by rw [e]; exact hset (hp.imp (fun _ _ => g7 _ _)) g6) (by simp [SeqOp.count]) ?_
      rcases hf with h | ⟨hn, hf⟩
      · exact .inl h
      refine .inr ⟨?_, ?_⟩
      · cases nm with
        | none => exact hn
        | some n =>
          simp only [List.filterMap_cons, SeqOp.name?] at hn
          exact (List.nodup_cons.1 hn).2
      · intro n2
        by_cases hex : ∃ n, nm = some n ∧ n2 = some n
        · obtain ⟨n, rfl, rfl⟩ := hex
          right
          simp only [List.filterMap_cons, SeqOp.name?] at hn
          have := (List.nodup_cons.1 hn).1
          simpa using this
        · rcases hf n2 with h | ⟨h, h'⟩
          · exact .inl (g8 n2 (fun n h1 h2 => hex ⟨n, h1, h2⟩) h)
          · right
            refine ⟨?_, h'⟩
            intro hm
            apply h
            simp only [List.mem_map] at hm ⊢
            obtain ⟨q, hq, rfl⟩ := hm
            refine ⟨q, ?_, rfl⟩
            rw [List.filterMap_cons]
            split
            · exact hq
            · exact List.mem_cons_of_mem _ hq

/-! ### The store -/

/-- No anonymous reference is allocated twice. -/
def AnonFresh {V : Type} (σ : Store V) : Prop := ∀ k, σ.next ≤ k → σ.cells (.anon k) = none

/-- With the incremental engine, a name is free if its cell does not exist yet. -/
def FreeName {V : Type} (e : Engine) (σ : Store V) (nm : Option Name) : Prop :=
  e = .naive ∨ ∀ n, nm = some n → σ.cells (.named n σ.path) = none

theorem cell_fresh {V : Type} {e : Engine} {σ : Store V} (hi : AnonFresh σ) {n : Name} (hf : FreeName e σ (some n)) (v : V) :
    ∃ a, (σ.cell e n v).2 = a ∧ σ.cells a = none ∧ (σ.cell e n v).1.cells = (σ.set a v).cells ∧
      AnonFresh (σ.cell e n v).1 ∧
      ∀ nm2, nm2 ≠ some n → FreeName e σ nm2 → FreeName e (σ.cell e n v).1 nm2 := by
  cases e with
  | naive =>
    refine ⟨.anon σ.next, rfl, hi _ (Nat.le_refl _), rfl, ?_, fun _ _ _ => .inl rfl⟩
    intro k hk
    simp only [Store.cell, Store.put] at hk ⊢
    simp only [Store.set]
    rw [if_neg (by simp; omega)]
    exact hi k (by omega)
  | dcg =>
    refine ⟨.named n σ.path, rfl, (hf.resolve_left (by simp)) n rfl, rfl, ?_, ?_⟩
    · intro k hk
      simp only [Store.cell, Store.set, reduceCtorEq, if_false]
      exact hi k hk
    · intro nm2 h2 hf2
      right
      intro m hm
      have := (hf2.resolve_left (by simp)) m hm
      simp only [Store.cell, Store.set]
      rw [if_neg (by intro e; apply h2; rw [hm]; simpa using e)]
      exact this

/-! ### `List`, `RcList` -/

/-- The elements of a list, following the references. -/
inductive AList.Den (σ : Store (AList X)) : AList X → List X → Prop
  | nil : Den σ .nil []
  | cons {x l xs} : Den σ l xs → Den σ (.cons x l) (x :: xs)
  | name {n l xs} : Den σ l xs → Den σ (.name n l) xs
  | art {a l xs} : σ.cells a = some l → Den σ l xs → Den σ (.art a) xs

theorem AList.Den.mono {σ σ' : Store (AList X)} (h : ∀ a l, σ.cells a = some l → σ'.cells a = some l) {l : AList X} {xs}
    (d : Den σ l xs) : Den σ' l xs := by
  induction d with
  | nil => exact .nil
  | cons _ ih => exact .cons ih
  | name _ ih => exact .name ih
  | art h1 _ ih => exact .art (h _ _ h1) ih

theorem list_refines (e : Engine) : Refines (listImpl (X := X) e) AnonFresh AList.Den (FreeName e) where
  new _ := .nil
  push d x := ⟨_, rfl, .cons d⟩
  pop {σ s xs} d := by
    induction d with
    | nil => exact ⟨1, .nil, fun f hf => by obtain ⟨f, rfl⟩ := Nat.exists_eq_add_of_le' hf; rfl, .nil⟩
    | cons d _ => exact ⟨1, _, fun f hf => by obtain ⟨f, rfl⟩ := Nat.exists_eq_add_of_le' hf; rfl, d⟩
    | name _ ih =>
      obtain ⟨f0, s', h1, h2⟩ := ih
      refine ⟨f0 + 1, s', fun f hf => ?_, h2⟩
      obtain ⟨f, rfl⟩ := Nat.exists_eq_add_of_le' (Nat.le_trans (Nat.le_add_left 1 f0) hf)
      exact h1 f (by omega)
    | art ha _ ih =>
      obtain ⟨f0, s', h1, h2⟩ := ih
      refine ⟨f0 + 1, s', fun f hf => ?_, h2⟩
      obtain ⟨f, rfl⟩ := Nat.exists_eq_add_of_le' (Nat.le_trans (Nat.le_add_left 1 f0) hf)
      have := h1 f (by omega)
      simpa [listImpl, AList.pop, Store.force, ha, bind, Except.bind] using this
  archive {σ s xs lev nm} hi d _ hf := by
    cases nm with
    | none => exact ⟨σ, s, rfl, hi, d, fun _ _ h => h, fun _ _ h => h⟩
    | some n =>
      obtain ⟨a, h1, h2, h3, h4, h5⟩ := cell_fresh hi hf s
      have mono : ∀ b l, σ.cells b = some l → (σ.cell e n s).1.cells b = some l := by
        intro b l hb
        rw [h3]
        simp only [Store.set]
        rw [if_neg (by rintro rfl; rw [h2] at hb; cases hb)]
        exact hb
      refine ⟨_, _, rfl, h4, ?_, fun _ _ h => h.mono mono, fun nm2 h => h5 nm2 (h n rfl)⟩
      refine .name (.art (l := s) ?_ (d.mono mono))
      show (σ.cell e n s).1.cells (σ.cell e n s).2 = some s
      rw [h1, h3]; simp [Store.set]

/-! ### `VecList`, `RcVecList` -/

/-- The elements of a list of vectors; no vector is empty. -/
inductive VList.Den (σ : Store (VList X)) : VList X → List X → Prop
  | nil : Den σ .nil []
  | cons {v l xs} : v ≠ [] → Den σ l xs → Den σ (.cons v l) (v.reverse ++ xs)
  | name {n l xs} : Den σ l xs → Den σ (.name n l) xs
  | art {a l xs} : σ.cells a = some l → Den σ l xs → Den σ (.art a) xs

theorem VList.Den.mono {σ σ' : Store (VList X)} (h : ∀ a l, σ.cells a = some l → σ'.cells a = some l) {l : VList X} {xs}
    (d : Den σ l xs) : Den σ' l xs := by
  induction d with
  | nil => exact .nil
  | cons h _ ih => exact .cons h ih
  | name _ ih => exact .name ih
  | art h1 _ ih => exact .art (h _ _ h1) ih

theorem vecList_refines (e : Engine) : Refines (vecListImpl (X := X) e) AnonFresh VList.Den (FreeName e) where
  new _ := .nil
  push {σ s xs} d x := by
    cases d with
    | cons h d =>
      rename_i v l xs
      refine ⟨_, rfl, ?_⟩
      have := VList.Den.cons (σ := σ) (v := v ++ [x]) (by simp) d
      rw [List.reverse_append] at this
      exact this
    | nil => exact ⟨_, rfl, .cons (v := [x]) (by simp) .nil⟩
    | name d => exact ⟨_, rfl, .cons (v := [x]) (by simp) (.name d)⟩
    | art h d => exact ⟨_, rfl, .cons (v := [x]) (by simp) (.art h d)⟩
  pop {σ s xs} d := by
    induction d with
    | nil => exact ⟨1, .nil, fun f hf => by obtain ⟨f, rfl⟩ := Nat.exists_eq_add_of_le' hf; rfl, .nil⟩
    | cons h d ih =>
      clear ih
      rename_i v l xs
      obtain ⟨w, x, rfl⟩ := List.eq_nil_or_concat v |>.resolve_left h
      by_cases hw : w = []
      · subst hw
        refine ⟨1, l, fun f hf => ?_, by simpa using d⟩
        obtain ⟨f, rfl⟩ := Nat.exists_eq_add_of_le' hf
        simp [vecListImpl, VList.pop, unwrap, bind, Except.bind, pure, Except.pure]
      · refine ⟨1, .cons w l, fun f hf => ?_, by simpa using .cons hw d⟩
        obtain ⟨f, rfl⟩ := Nat.exists_eq_add_of_le' hf
        simp [vecListImpl, VList.pop, unwrap, bind, Except.bind, pure, Except.pure, hw]
    | name _ ih =>
      obtain ⟨f0, s', h1, h2⟩ := ih
      refine ⟨f0 + 1, s', fun f hf => ?_, h2⟩
      obtain ⟨f, rfl⟩ := Nat.exists_eq_add_of_le' (Nat.le_trans (Nat.le_add_left 1 f0) hf)
      exact h1 f (by omega)
    | art ha _ ih =>
      obtain ⟨f0, s', h1, h2⟩ := ih
      refine ⟨f0 + 1, s', fun f hf => ?_, h2⟩
      obtain ⟨f, rfl⟩ := Nat.exists_eq_add_of_le' (Nat.le_trans (Nat.le_add_left 1 f0) hf)
      have := h1 f (by omega)
      simpa [vecListImpl, VList.pop, Store.force, ha, bind, Except.bind] using this
  archive {σ s xs lev nm} hi d _ hf := by
    cases nm with
    | none => exact ⟨σ, s, rfl, hi, d, fun _ _ h => h, fun _ _ h => h⟩
    | some n =>
      obtain ⟨a, h1, h2, h3, h4, h5⟩ := cell_fresh hi hf s
      have mono : ∀ b l, σ.cells b = some l → (σ.cell e n s).1.cells b = some l := by
        intro b l hb
        rw [h3]
        simp only [Store.set]
        rw [if_neg (by rintro rfl; rw [h2] at hb; cases hb)]
        exact hb
      refine ⟨_, _, rfl, h4, ?_, fun _ _ h => h.mono mono, fun nm2 h => h5 nm2 (h n rfl)⟩
      refine .name (.art (l := s) ?_ (d.mono mono))
      show (σ.cell e n s).1.cells (σ.cell e n s).2 = some s
      rw [h1, h3]; simp [Store.set]

/-! ### `IRaz`, `IAStack`, `Vec` -/

theorem iraz_refines : Refines (irazImpl (X := X)) (fun _ => True)
    (fun _ z xs => z.Reachable .edit ∧ z.leftElems = xs) (fun _ _ => True) where
  new _ := ⟨.new, rfl⟩
  push {σ z xs} d x := ⟨_, rfl, .pushL x d.1, by
    obtain ⟨-, h2, -⟩ := pushLeft_ok (Reach.z d.1).inv x
    simp only [Raz.leftElems, h2, elemsOf_elem, ← d.2]⟩
  pop {σ z xs} d := by
    have hz := Reach.z d.1
    obtain ⟨z', h1, -, h3, -⟩ := popLeft_ok hz.inv
    obtain ⟨p1, p2⟩ := popSide_elems (hz.tidy rfl).1
    refine ⟨0, z', fun f _ => ?_, .popL d.1 h1, ?_⟩
    · simp only [irazImpl, h1, bind, Except.bind, pure, Except.pure, p1, ← d.2]; rfl
    · simp only [Raz.leftElems, h3, p2, ← d.2]
  archive {σ z xs lev nm} _ d hl _ := by
    obtain ⟨-, h2, -⟩ := archiveLeft_ok (Reach.z d.1).inv hl nm
    refine ⟨_, _, rfl, trivial, ⟨.archL nm hl d.1, ?_⟩, fun _ _ h => h, fun _ _ _ => trivial⟩
    simp only [Raz.leftElems, h2, archiveSide_elems, ← d.2]

/-- Popping a well-formed stack. -/
theorem stackPop_elems {M : Type} {s : AStack X M} (h : StackP (fun _ => True) s) :
    ∃ s', s.pop = .ok (s', s.elems.head?) ∧ s'.elems = s.elems.tail ∧ StackP (fun _ => True) s' := by
  obtain ⟨cur, arch⟩ := s
  rcases List.eq_nil_or_concat cur with rfl | ⟨w, x, rfl⟩
  · cases arch with
    | nil => exact ⟨_, rfl, rfl, h⟩
    | cons p arch =>
      obtain ⟨nm, m, v⟩ := p
      obtain ⟨w, x, rfl⟩ := List.eq_nil_or_concat v |>.resolve_left (h _ (List.mem_cons_self ..)).2
      refine ⟨⟨w, arch⟩, ?_, ?_, fun p hp => h p (List.mem_cons_of_mem _ hp)⟩
      · simp [AStack.pop, AStack.isEmpty, Stack.isEmpty, AStack.retrieve, Stack.peek, Stack.pull, unwrap, bind, Except.bind,
          pure, Except.pure, AStack.popCurrent, AStack.elems]
      · simp [AStack.elems]
  · refine ⟨⟨w, arch⟩, ?_, ?_, h⟩
    · simp [AStack.pop, AStack.isEmpty, AStack.retrieve, bind, Except.bind, pure, Except.pure, AStack.popCurrent, AStack.elems]
    · simp [AStack.elems]

theorem stackArchive_elems {M : Type} {s : AStack X M} (h : StackP (fun _ => True) s) (nm : Option Name) (m : M) :
    (s.archive nm m).1.elems = s.elems ∧ StackP (fun _ => True) (s.archive nm m).1 := by
  obtain ⟨cur, arch⟩ := s
  by_cases hc : cur = []
  · subst hc; exact ⟨rfl, h⟩
  · have : ¬ cur.length = 0 := by simpa using hc
    simp only [AStack.archive, this, if_false, Stack.push]
    refine ⟨by simp [AStack.elems], ?_⟩
    intro p hp
    rcases List.mem_cons.1 hp with rfl | hp
    · exact ⟨trivial, hc⟩
    · exact h p hp

theorem iastack_refines : Refines (iastackImpl (X := X)) (fun _ => True)
    (fun _ s xs => StackP (fun _ => True) s ∧ s.elems = xs) (fun _ _ => True) where
  new _ := ⟨(by intro p hp; cases hp), rfl⟩
  push {σ s xs} d x := ⟨_, rfl, d.1, by simp [AStack.elems, AStack.push, ← d.2]⟩
  pop {σ s xs} d := by
    obtain ⟨s', h1, h2, h3⟩ := stackPop_elems d.1
    refine ⟨0, s', fun f _ => ?_, h3, by rw [h2, d.2]⟩
    simp only [iastackImpl, h1, bind, Except.bind, pure, Except.pure, d.2]
  archive {σ s xs lev nm} _ d _ _ := by
    obtain ⟨h1, h2⟩ := stackArchive_elems d.1 nm lev
    exact ⟨_, _, rfl, trivial, ⟨h2, by rw [h1, d.2]⟩, fun _ _ h => h, fun _ _ _ => trivial⟩

theorem iastackUnit_refines : Refines (iastackUnitImpl (X := X)) (fun _ => True)
    (fun _ s xs => StackP (fun _ => True) s ∧ s.elems = xs) (fun _ _ => True) where
  new _ := ⟨(by intro p hp; cases hp), rfl⟩
  push {σ s xs} d x := ⟨_, rfl, d.1, by simp [AStack.elems, AStack.push, ← d.2]⟩
  pop {σ s xs} d := by
    obtain ⟨s', h1, h2, h3⟩ := stackPop_elems d.1
    refine ⟨0, s', fun f _ => ?_, h3, by rw [h2, d.2]⟩
    simp only [iastackUnitImpl, h1, bind, Except.bind, pure, Except.pure, d.2]
  archive {σ s xs lev nm} _ d _ _ := by
    obtain ⟨h1, h2⟩ := stackArchive_elems d.1 nm ()
    exact ⟨_, _, rfl, trivial, ⟨h2, by rw [h1, d.2]⟩, fun _ _ h => h, fun _ _ _ => trivial⟩

theorem vec_refines : Refines (vecImpl (X := X)) (fun _ => True) (fun _ v xs => v.reverse = xs) (fun _ _ => True) where
  new _ := rfl
  push {σ s xs} d x := ⟨_, rfl, by simp [← d]⟩
  pop {σ s xs} d := by
    subst d
    refine ⟨0, s.dropLast, fun f _ => ?_, by simp⟩
    simp [vecImpl]
  archive {σ s xs lev nm} _ d _ _ := ⟨_, _, rfl, trivial, d, fun _ _ h => h, fun _ _ _ => trivial⟩

end Iodyn.Eval
