import Verif.Spec.Session
import Verif.Proof.Skiplist
import Verif.Proof.SeqApi
import Verif.Proof.Fold
import Verif.Proof.MetaOf
/-
Programs that build a new structure in a store that already has content: the content does not matter.
-/
namespace Iodyn
open Iodyn.Skip

namespace Store
variable {V : Type}

/-- `σ0` is a part of `σ`, with the same number for the next anonymous reference. -/
structure Sub (σ0 σ : Store V) : Prop where
  next : σ0.next = σ.next
  path : σ0.path = σ.path
  cells : ∀ l v, σ0.cells l = some v → σ.cells l = some v

/-- Nothing of the content. -/
def blank (σ : Store V) : Store V := { cells := fun _ => none, next := σ.next, path := σ.path }

theorem sub_blank (σ : Store V) : Sub σ.blank σ := ⟨rfl, rfl, fun _ _ h => by cases h⟩

theorem Sub.set {σ0 σ : Store V} (h : Sub σ0 σ) (l : Loc) (v : V) : Sub (σ0.set l v) (σ.set l v) := by
  refine ⟨h.next, h.path, fun l' v' => ?_⟩
  simp only [Store.set]
  split
  · exact id
  · exact h.cells l' v'

theorem Sub.cell {σ0 σ : Store V} (h : Sub σ0 σ) (e : Engine) (n : Name) (v : V) :
    (σ.cell e n v).2 = (σ0.cell e n v).2 ∧ Sub (σ0.cell e n v).1 (σ.cell e n v).1 := by
  cases e with
  | dcg =>
    simp only [Store.cell, h.path]
    exact ⟨trivial, h.set _ _⟩
  | naive =>
    have := h.set (.anon σ.next) v
    refine ⟨by simp [Store.cell, Store.put, h.next], ?_⟩
    simp only [Store.cell, Store.put, h.next]
    exact ⟨rfl, h.path, this.cells⟩

theorem Sub.force {σ0 σ : Store V} (h : Sub σ0 σ) {l : Loc} {v : V} (hf : σ0.force l = .ok v) : σ.force l = .ok v := by
  unfold Store.force at hf ⊢
  split at hf
  · cases hf
  · rename_i w hw
    cases hf
    rw [h.cells _ _ hw]

end Store

/-! ### The skip list -/
namespace Skip
variable {K V : Type}

theorem buildPathRec_mono {σ0 σ : Store (Path K V)} (h : σ0.Sub σ) (L : Nat) (key : Word) (fuel : Nat) (a : Loc)
    (cur : List (Option Loc)) {r} (hr : buildPathRec σ0 L key fuel a cur = .ok r) : buildPathRec σ L key fuel a cur = .ok r := by
  induction fuel generalizing a cur with
  | zero => exact hr
  | succ fuel ih =>
    rw [buildPathRec] at hr ⊢
    cases hf : σ0.force a with
    | error => rw [hf] at hr; cases hr
    | ok p =>
      rw [hf] at hr
      rw [h.force hf]
      simp only [bind, Except.bind] at hr ⊢
      cases hs : buildPathStep a p L key cur.length with
      | error => rw [hs] at hr; cases hr
      | ok res =>
        rw [hs] at hr
        simp only at hr ⊢
        split
        · rename_i h1
          rw [h1] at hr
          exact hr
        · rename_i h1
          rw [h1] at hr
          simp only at hr
          split
          · rename_i h2
            rw [h2] at hr
            exact ih _ _ hr
          · rename_i h2
            rw [h2] at hr
            exact hr

theorem search_mono {σ0 σ : Store (Path K V)} (h : σ0.Sub σ) {s : Skiplist} {key : Word} {r} (hr : s.search σ0 key = .ok r) :
    s.search σ key = .ok r := by
  unfold Skiplist.search at hr ⊢
  split
  · rename_i hh; rw [hh] at hr; exact hr
  · rename_i hh; rw [hh] at hr; exact buildPathRec_mono h _ _ _ _ _ hr

theorem get_mono [DecidableEq K] {σ0 σ : Store (Path K V)} (h : σ0.Sub σ) {hash : K → Word} {s : Skiplist} {k : K} {r}
    (hr : s.get hash σ0 k = .ok r) : s.get hash σ k = .ok r := by
  unfold Skiplist.get at hr ⊢
  cases hm : makeMask s.pathLen with
  | error => rw [hm] at hr; cases hr
  | ok mask =>
    rw [hm] at hr
    simp only [bind, Except.bind] at hr ⊢
    cases hs : s.search σ0 (hash k &&& mask) with
    | error => rw [hs] at hr; cases hr
    | ok res =>
      rw [hs] at hr
      rw [search_mono h hs]
      exact hr

theorem ext_mono [DecidableEq K] {σ0 σ σ0' : Store (Path K V)} (h : σ0.Sub σ) {e : Engine} {hash : K → Word} {s s' : Skiplist} {k : K}
    {v o : Option V} (hr : s.ext e hash σ0 k v = .ok (σ0', s', o)) : ∃ σ', s.ext e hash σ k v = .ok (σ', s', o) ∧ σ0'.Sub σ' := by
  unfold Skiplist.ext at hr ⊢
  cases hm : makeMask s.pathLen with
  | error => rw [hm] at hr; cases hr
  | ok mask =>
    rw [hm] at hr
    simp only [bind, Except.bind] at hr ⊢
    cases hs : s.search σ0 (hash k &&& mask) with
    | error => rw [hs] at hr; cases hr
    | ok res =>
      rw [hs] at hr
      rw [search_mono h hs]
      simp only [pure, Except.pure, Except.ok.injEq, Prod.mk.injEq] at hr ⊢
      obtain ⟨h1, h2, h3⟩ := hr
      refine ⟨_, ⟨rfl, ?_, h3⟩, ?_⟩
      · rw [(h.cell e _ _).1]; exact h2
      · rw [← h1]; exact (h.cell e _ _).2

/-- What an update writes with the incremental engine. -/
theorem put_cell [DecidableEq K] {hash : K → Word} {σ σ' : Store (Path K V)} {s s' : Skiplist} {k : K} {v : V}
    (h : s.put .dcg hash σ k v = .ok (σ', s')) :
    ∃ p, σ' = σ.set (.named (.pair s.name (.usize s.cntr)) σ.path) p ∧ (k, some v) ∈ p.kvs ∧ s'.name = s.name ∧ s'.cntr = s.cntr + 1 := by
  unfold Skiplist.put Skiplist.ext at h
  cases hm : makeMask s.pathLen with
  | error => rw [hm] at h; cases h
  | ok mask =>
    rw [hm] at h
    simp only [bind, Except.bind] at h
    cases hs : s.search σ (hash k &&& mask) with
    | error => rw [hs] at h; cases h
    | ok res =>
      rw [hs] at h
      simp only [pure, Except.pure, Except.ok.injEq, Prod.mk.injEq] at h
      obtain ⟨rfl, rfl⟩ := h
      refine ⟨_, rfl, ?_, rfl, rfl⟩
      cases hr : res.2 with
      | none => simp
      | some kvs =>
        simp only [updateLoop_spec, List.nil_append, Bool.false_or]
        split
        · rename_i hf
          rw [List.any_eq_true] at hf
          obtain ⟨q, hq, hk⟩ := hf
          rw [List.mem_map]
          refine ⟨q, hq, ?_⟩
          simp only [decide_eq_true_eq] at hk
          rw [if_pos hk, hk]
        · simp

/-- In the store `σ`, `s` is a skip list with the content `f`; the names in `U` have been used for it. -/
def Holds [DecidableEq K] (e : Engine) (hash : K → Word) (σ : Store (Path K V)) (s : Skiplist) (f : FMap K V) (U : List Name) : Prop :=
  ∃ σ0 : Store (Path K V), σ0.Sub σ ∧ PoolInv e hash σ0 [s] [f] ⟨U, [true]⟩

section
variable [DecidableEq K] {e : Engine} {hash : K → Word} {σ : Store (Path K V)} {s : Skiplist} {f : FMap K V} {U : List Name}

theorem Holds.get (h : Holds e hash σ s f U) (k : K) : s.get hash σ k = .ok (f k) := by
  obtain ⟨σ0, h1, h2⟩ := h
  obtain ⟨m, pl, h3, h4⟩ := h2.maps
  exact get_mono h1 (get_spec h3 (h4 0 s f rfl rfl) k)

theorem Holds.put (h : Holds e hash σ s f U) (k : K) (v : V) :
    ∃ σ' s', s.put e hash σ k v = .ok (σ', s') ∧ Holds e hash σ' s' (f.update k (some v)) U := by
  obtain ⟨σ0, h1, h2⟩ := h
  obtain ⟨σ0', s', h3, h4⟩ := h2.ext (i := 0) rfl rfl (fun _ => rfl) k (some v)
  obtain ⟨σ', h5, h6⟩ := ext_mono h1 h3
  exact ⟨σ', s', by simp [Skiplist.put, h5, bind, Except.bind, pure, Except.pure], σ0', h6, h4⟩

theorem Holds.archive (h : Holds e hash σ s f U) {n : Name} (hn : e = .dcg → n ∉ U) : Holds e hash σ (s.archive n) f (n :: U) := by
  obtain ⟨σ0, h1, h2⟩ := h
  obtain ⟨σ', pool', h3, h4⟩ := h2.step (.archive 0 n) ⟨by simp, hn⟩
  simp only [mapStep, List.getElem?_cons_zero, unwrap, bind, Except.bind, pure, Except.pure, Except.ok.injEq, Prod.mk.injEq] at h3
  obtain ⟨rfl, rfl, -⟩ := h3
  exact ⟨σ0, h1, h4⟩

/-- A new skip list, whatever the store has. -/
theorem Holds.start (e : Engine) (hash : K → Word) (σ : Store (Path K V)) {L : Nat} (h1 : 1 ≤ L) (h2 : L ≤ 63) :
    Holds e hash σ (Eval.UniqueElms.start L) (fun _ => none) [.unit] := by
  refine ⟨σ.blank, Store.sub_blank σ, rfl, rfl, ⟨fun _ _ => none, fun _ => 0, ?_, ?_⟩, ?_⟩
  · intro a p h; simp [Store.blank] at h
  · intro i s f hs hf
    rcases i with _ | i
    · simp only [List.getElem?_cons_zero, Option.some.injEq] at hs hf
      subst hs; subst hf
      exact ⟨h1, h2, fun _ => none, fun _ => rfl, fun _ _ _ => rfl⟩
    · simp at hs
  · cases e with
    | naive => intro k h; simp [Store.blank] at h
    | dcg =>
      refine ⟨by intro n h; simp [Store.blank] at h, ?_, ?_⟩
      · intro i s hs _
        rcases i with _ | i
        · simp only [List.getElem?_cons_zero, Option.some.injEq] at hs
          subst hs; exact List.mem_cons_self
        · simp at hs
      · intro i j s s' hs hs' _ _ _
        rcases i with _ | i <;> rcases j with _ | j <;> simp at hs hs' ⊢

end
end Skip

namespace Eval
variable {E M G T S X : Type}

/-- The names of the archive points. -/
theorem chunks_names {l : List (Item E)} (h : l.map Item.settle = l) : (chunks l).2.filterMap (fun p => p.1.2) = namesOf l := by
  induction l with
  | nil => rfl
  | cons i l ih =>
    simp only [List.map_cons, List.cons.injEq] at h
    rcases i with e | ⟨lev, nm⟩ | ⟨lev, nm⟩
    · exact ih h.2
    · rcases nm with _ | n
      · exact ih h.2
      · simp only [chunks, List.filterMap_cons, namesOf_some, ih h.2]
    · simp [Item.settle] at h

section
variable [DecidableEq E] {e : Engine} {hash : E → Word}

theorem unique_elems (xs : List E) {σ : Store (Path E Unit)} {s : Skiplist} {l : List E} {U : List Name}
    (h : Holds e hash σ s (setOf l) U) :
    ∃ σ' s', xs.foldl (UniqueElms.step e hash) (.ok (σ, s)) = .ok (σ', s') ∧ Holds e hash σ' s' (setOf (l ++ xs)) U := by
  induction xs generalizing σ s l with
  | nil => exact ⟨σ, s, rfl, by simpa using h⟩
  | cons x xs ih =>
    obtain ⟨σ1, s1, h1, h2⟩ := h.put x ()
    have e1 : FMap.update (setOf l) x (some ()) = setOf (l ++ [x]) := by
      funext k
      by_cases hk : k = x <;> simp [FMap.update, setOf, hk]
    rw [e1] at h2
    obtain ⟨σ', s', h3, h4⟩ := ih h2
    refine ⟨σ', s', ?_, by simpa using h4⟩
    rw [List.foldl_cons]
    have : UniqueElms.step e hash (.ok (σ, s)) x = .ok (σ1, s1) := h1
    rw [this, h3]

theorem unique_fin {σ : Store (Path E Unit)} {s : Skiplist} {f : FMap E Unit} {U : List Name} (h : Holds e hash σ s f U)
    (nm : Option Name) (hn : e = .dcg → ∀ n, nm = some n → n ∉ U) :
    ∃ s', UniqueElms.fin (.ok (σ, s)) nm = .ok (σ, s') ∧ Holds e hash σ s' f (nm.toList ++ U) := by
  cases nm with
  | none => exact ⟨s, rfl, h⟩
  | some n => exact ⟨s.archive n, rfl, h.archive (fun he => hn he n rfl)⟩

theorem unique_chunks (ps : List ((Nat × Option Name) × List E)) {σ : Store (Path E Unit)} {s : Skiplist} {l : List E} {U : List Name}
    (h : Holds e hash σ s (setOf l) U)
    (hn : e = .dcg → (ps.filterMap (fun p => p.1.2)).Nodup ∧ ∀ n ∈ ps.filterMap (fun p => p.1.2), n ∉ U) :
    ∃ σ' s' U', ps.foldl (fun a p => UniqueElms.fin (p.2.foldl (UniqueElms.step e hash) a) p.1.2) (.ok (σ, s)) = .ok (σ', s') ∧
      Holds e hash σ' s' (setOf (l ++ ps.flatMap (fun p => p.2))) U' := by
  induction ps generalizing σ s l U with
  | nil => exact ⟨σ, s, U, rfl, by simpa using h⟩
  | cons p ps ih =>
    obtain ⟨σ1, s1, h1, h2⟩ := unique_elems p.2 h
    obtain ⟨s2, h3, h4⟩ := unique_fin h2 p.1.2 (by
      intro he n hp
      exact (hn he).2 n (by rw [List.filterMap_cons, hp]; exact List.mem_cons_self))
    obtain ⟨σ', s', U', h5, h6⟩ := ih h4 (by
      intro he
      obtain ⟨n1, n2⟩ := hn he
      rw [List.filterMap_cons] at n1 n2
      cases hp : p.1.2 with
      | none => rw [hp] at n1 n2; exact ⟨n1, by simpa using n2⟩
      | some q =>
        rw [hp] at n1 n2
        simp only [List.nodup_cons] at n1
        refine ⟨n1.2, fun n hm => ?_⟩
        simp only [Option.toList, List.cons_append, List.nil_append, List.mem_cons, not_or]
        exact ⟨fun hq => n1.1 (hq ▸ hm), n2 n (List.mem_cons_of_mem _ hm)⟩)
    refine ⟨σ', s', U', ?_, by simpa [List.append_assoc] using h6⟩
    rw [List.foldl_cons, h1, h3, h5]

end

/-- Under these names and numbers nothing else is stored later. -/
theorem stamps_mem {cur : Name} {c : Nat} {ps : List (Option Name × List E)} {x} (h : x ∈ stamps cur c ps) :
    (x.1 = cur ∧ c ≤ x.2.1) ∨ x.1 ∈ ps.filterMap (·.1) := by
  induction ps generalizing cur c with
  | nil => cases h
  | cons p ps ih =>
    obtain ⟨nm, es⟩ := p
    simp only [stamps, List.mem_append, List.mem_map] at h
    rcases h with ⟨q, hq, rfl⟩ | h
    · exact .inl ⟨rfl, (List.mem_zipIdx hq).1⟩
    · cases nm with
      | none =>
        rcases ih h with ⟨h1, h2⟩ | h1
        · exact .inl ⟨h1, by omega⟩
        · exact .inr (by simpa using h1)
      | some n =>
        rcases ih h with ⟨h1, -⟩ | h1
        · exact .inr (by simp [h1])
        · exact .inr (by simp only [List.filterMap_cons]; exact List.mem_cons_of_mem _ h1)

section
variable [DecidableEq E] {hash : E → Word}

theorem step_error (xs : List E) (err : Panic) (e : Engine) :
    xs.foldl (UniqueElms.step e hash) (.error err) = .error err := by
  induction xs with
  | nil => rfl
  | cons x xs ih => exact ih

theorem unique_cells_elems (xs : List E) {σ σ' : Store (Path E Unit)} {s s' : Skiplist}
    (h : xs.foldl (UniqueElms.step .dcg hash) (.ok (σ, s)) = .ok (σ', s')) :
    s'.name = s.name ∧ s'.cntr = s.cntr + xs.length ∧ StoredAt ((xs.zipIdx s.cntr).map (fun p => (s.name, p.2, p.1))) σ σ' := by
  induction xs generalizing σ s with
  | nil =>
    simp only [List.foldl_nil, Except.ok.injEq, Prod.mk.injEq] at h
    obtain ⟨rfl, rfl⟩ := h
    exact ⟨rfl, rfl, ⟨by simp, fun _ _ => rfl, rfl⟩⟩
  | cons x xs ih =>
    rw [List.foldl_cons] at h
    have e1 : UniqueElms.step .dcg hash (.ok (σ, s)) x = s.put .dcg hash σ x () := rfl
    rw [e1] at h
    cases hp : s.put .dcg hash σ x () with
    | error => rw [hp, step_error] at h; cases h
    | ok r =>
      obtain ⟨σ1, s1⟩ := r
      rw [hp] at h
      obtain ⟨p, rfl, h2, h3, h4⟩ := put_cell hp
      obtain ⟨i1, i2, i3⟩ := ih h
      refine ⟨i1.trans h3, by simp only [List.length_cons]; omega, ⟨?_, ?_, i3.path⟩⟩
      · intro y hy
        simp only [List.zipIdx_cons, List.map_cons, List.mem_cons] at hy
        rcases hy with rfl | hy
        · refine ⟨p, ?_, h2⟩
          rw [i3.other]
          · simp [Store.set]
          · intro y hy
            simp only [List.mem_map] at hy
            obtain ⟨q, hq, rfl⟩ := hy
            have := List.mem_zipIdx hq
            simp only [h4] at this
            simp
            omega
        · exact i3.named y (by rw [h3, h4]; exact hy)
      · intro a ha
        rw [i3.other a (fun y hy => ha y (by
          rw [h3, h4] at hy
          simp only [List.zipIdx_cons, List.map_cons]
          exact List.mem_cons_of_mem _ hy))]
        simp only [Store.set]
        rw [if_neg (ha (s.name, s.cntr, x) (by simp))]

theorem unique_cells (ps : List (Option Name × List E)) {σ σ' : Store (Path E Unit)} {s s' : Skiplist}
    (hn : (ps.filterMap (·.1)).Nodup) (hc : s.name ∉ ps.filterMap (·.1))
    (h : ps.foldl (fun a p => UniqueElms.fin (p.2.foldl (UniqueElms.step .dcg hash) a) p.1) (.ok (σ, s)) = .ok (σ', s')) :
    StoredAt (stamps s.name s.cntr ps) σ σ' := by
  induction ps generalizing σ s with
  | nil =>
    simp only [List.foldl_nil, Except.ok.injEq, Prod.mk.injEq] at h
    obtain ⟨rfl, rfl⟩ := h
    exact ⟨by simp [stamps], fun _ _ => rfl, rfl⟩
  | cons p ps ih =>
    obtain ⟨nm, es⟩ := p
    rw [List.foldl_cons] at h
    have err : ∀ (l : List (Option Name × List E)) (e : Panic),
        l.foldl (fun a p => UniqueElms.fin (p.2.foldl (UniqueElms.step .dcg hash) a) p.1) (.error e) = .error e := by
      intro l e
      induction l with
      | nil => rfl
      | cons p l ih => rw [List.foldl_cons, step_error]; exact ih
    cases hp : es.foldl (UniqueElms.step .dcg hash) (.ok (σ, s)) with
    | error => rw [hp] at h; rw [show UniqueElms.fin _ nm = Except.error _ from rfl, err] at h; cases h
    | ok r =>
      obtain ⟨σ1, s1⟩ := r
      rw [hp] at h
      obtain ⟨i1, i2, i3⟩ := unique_cells_elems es hp
      have rest : ∃ nm' c', stamps s.name s.cntr ((nm, es) :: ps) =
            (es.zipIdx s.cntr).map (fun p => (s.name, p.2, p.1)) ++ stamps nm' c' ps ∧ StoredAt (stamps nm' c' ps) σ1 σ' ∧
          ∀ x ∈ stamps nm' c' ps, ∀ y ∈ (es.zipIdx s.cntr).map (fun p => (s.name, p.2, p.1)), ¬ (x.1 = y.1 ∧ x.2.1 = y.2.1) := by
        cases nm with
        | none =>
          refine ⟨_, _, rfl, ?_, ?_⟩
          · have := ih (σ := σ1) (s := s1) (by simpa using hn) (by rw [i1]; simpa using hc) h
            rw [i1, i2] at this
            exact this
          · rintro x hx y hy ⟨e1, e2⟩
            simp only [List.mem_map] at hy
            obtain ⟨q, hq, rfl⟩ := hy
            have := List.mem_zipIdx hq
            rcases stamps_mem hx with ⟨-, h2⟩ | h2
            · simp only at e2; omega
            · exact hc (by simp only at e1; rw [← e1]; simpa using h2)
        | some n =>
          simp only [List.filterMap_cons, List.nodup_cons, List.mem_cons, not_or] at hn hc
          refine ⟨_, _, rfl, ih (σ := σ1) (s := s1.archive n) hn.2 hn.1 h, ?_⟩
          rintro x hx y hy ⟨e1, e2⟩
          simp only [List.mem_map] at hy
          obtain ⟨q, hq, rfl⟩ := hy
          simp only at e1
          rcases stamps_mem hx with ⟨h2, -⟩ | h2
          · exact hc.1 (e1.symm.trans h2)
          · exact hc.2 (e1 ▸ h2)
      obtain ⟨nm', c', j1, j2, j3⟩ := rest
      rw [j1]
      refine ⟨?_, ?_, j2.path.trans i3.path⟩
      · intro x hx
        rw [List.mem_append] at hx
        rcases hx with hx | hx
        · obtain ⟨p, h1, h2⟩ := i3.named x hx
          refine ⟨p, ?_, h2⟩
          rw [j2.other _ (fun y hy he => j3 y hy x hx (by simp at he; exact ⟨he.1.1.symm, he.1.2.symm⟩)), h1]
        · rw [← i3.path]; exact j2.named x hx
      · intro a ha
        rw [j2.other a (fun y hy => i3.path ▸ ha y (List.mem_append_right _ hy)), i3.other a (fun y hy => ha y (List.mem_append_left _ hy))]

end

/-! ### Sequences -/

/-- More content in the store does not matter to the implementation. -/
structure Grows (I : SeqImpl T S X) (Sub : T → T → Prop) : Prop where
  pop : ∀ {f σ0 σ s r}, Sub σ0 σ → I.pop f σ0 s = .ok r → I.pop f σ s = .ok r
  archive : ∀ {σ0 σ σ0' s s' lev nm}, Sub σ0 σ → I.archive σ0 s lev nm = .ok (σ0', s') →
    ∃ σ', I.archive σ s lev nm = .ok (σ', s') ∧ Sub σ0' σ'

theorem list_grows (e : Engine) : Grows (listImpl (X := X) e) Store.Sub where
  pop {f σ0 σ s r} h hr := by
    revert hr
    show AList.pop σ0 f s = _ → AList.pop σ f s = _
    induction f generalizing s with
    | zero => exact id
    | succ f ih =>
      cases s with
      | nil => exact id
      | cons x l => exact id
      | name n l => exact ih
      | art a =>
        intro hr
        rw [AList.pop] at hr ⊢
        cases hf : σ0.force a with
        | error => rw [hf] at hr; cases hr
        | ok l =>
          rw [hf] at hr
          rw [h.force hf]
          exact ih hr
  archive {σ0 σ σ0' s s' lev nm} h hr := by
    cases nm with
    | none =>
      simp only [listImpl, AList.archive, Except.ok.injEq, Prod.mk.injEq] at hr ⊢
      obtain ⟨rfl, rfl⟩ := hr
      exact ⟨σ, ⟨rfl, rfl⟩, h⟩
    | some n =>
      simp only [listImpl, AList.archive, Except.ok.injEq, Prod.mk.injEq] at hr ⊢
      obtain ⟨rfl, rfl⟩ := hr
      exact ⟨_, ⟨rfl, by rw [(h.cell e n s).1]⟩, (h.cell e n s).2⟩

theorem vecList_grows (e : Engine) : Grows (vecListImpl (X := X) e) Store.Sub where
  pop {f σ0 σ s r} h hr := by
    revert hr
    show VList.pop σ0 f s = _ → VList.pop σ f s = _
    induction f generalizing s with
    | zero => exact id
    | succ f ih =>
      cases s with
      | nil => exact id
      | cons x l => exact id
      | name n l => exact ih
      | art a =>
        intro hr
        rw [VList.pop] at hr ⊢
        cases hf : σ0.force a with
        | error => rw [hf] at hr; cases hr
        | ok l =>
          rw [hf] at hr
          rw [h.force hf]
          exact ih hr
  archive {σ0 σ σ0' s s' lev nm} h hr := by
    cases nm with
    | none =>
      simp only [vecListImpl, VList.archive, Except.ok.injEq, Prod.mk.injEq] at hr ⊢
      obtain ⟨rfl, rfl⟩ := hr
      exact ⟨σ, ⟨rfl, rfl⟩, h⟩
    | some n =>
      simp only [vecListImpl, VList.archive, Except.ok.injEq, Prod.mk.injEq] at hr ⊢
      obtain ⟨rfl, rfl⟩ := hr
      exact ⟨_, ⟨rfl, by rw [(h.cell e n s).1]⟩, (h.cell e n s).2⟩

theorem unit_grows (I : SeqImpl Unit S X) : Grows I (fun _ _ => True) where
  pop _ h := h
  archive _ h := ⟨_, h, trivial⟩

/-- In the store `σ`, `s` is a stack with the elements `xs` (top first) that can still be archived under the names `N`. -/
def Held (Sub : T → T → Prop) (Inv : T → Prop) (R : T → S → List X → Prop) (Free : T → Option Name → Prop)
    (σ : T) (s : S) (xs : List X) (N : List Name) : Prop :=
  ∃ σ0, Sub σ0 σ ∧ Inv σ0 ∧ R σ0 s xs ∧ ((∀ σ nm, Free σ nm) ∨ N.Nodup ∧ (∀ n ∈ N, Free σ0 (some n)) ∧ ∀ σ, Free σ none)

section
variable {I : SeqImpl T S E} {Sub : T → T → Prop} {Inv : T → Prop} {R : T → S → List E → Prop} {Free : T → Option Name → Prop}

theorem toList_items (hg : Grows I Sub) (hr : Refines I Inv R Free) (l : List (Item E)) (hl : ∀ i ∈ l, (∃ e, i = .elem e) ∨
      ∃ lev nm, 1 ≤ lev ∧ i = .mark lev nm) {σ : T} {s : S} {xs : List E} (h : Held Sub Inv R Free σ s xs (namesOf l)) :
    ∃ σ' s', foldItems (TreeToList.step I) (TreeToList.meta' I) (.ok (σ, s)) l = .ok (σ', s') ∧
      Held Sub Inv R Free σ' s' ((elemsOf l).reverse ++ xs) [] := by
  induction l generalizing σ s xs with
  | nil => exact ⟨σ, s, rfl, by simpa [namesOf] using h⟩
  | cons i l ih =>
    have hl' := fun j hj => hl j (List.mem_cons_of_mem _ hj)
    rcases hl i List.mem_cons_self with ⟨e, rfl⟩ | ⟨lev, nm, h1, rfl⟩
    · obtain ⟨σ0, a1, a2, a3, a4⟩ := h
      obtain ⟨s1, b1, b2⟩ := hr.push a3 e
      obtain ⟨σ', s', c1, c2⟩ := ih hl' (σ := σ) (s := s1) (xs := e :: xs) ⟨σ0, a1, a2, b2, a4⟩
      refine ⟨σ', s', ?_, by simpa [elemsOf_elem] using c2⟩
      rw [foldItems, List.foldl_cons]
      have : TreeToList.step I (.ok (σ, s)) e = .ok (σ, s1) := by
        simp [TreeToList.step, bind, Except.bind, b1, pure, Except.pure]
      simp only [this]
      exact c1
    · obtain ⟨σ0, a1, a2, a3, a4⟩ := h
      have free : Free σ0 nm := by
        rcases a4 with a4 | ⟨-, a4, a5⟩
        · exact a4 _ _
        · cases nm with
          | none => exact a5 _
          | some n => exact a4 n (by rw [namesOf_some]; exact List.mem_cons_self)
      obtain ⟨σ1, s1, b1, b2, b3, -, b4⟩ := hr.archive a2 a3 h1 free
      obtain ⟨σ2, b5, b6⟩ := hg.archive a1 b1
      obtain ⟨σ', s', c1, c2⟩ := ih hl' (σ := σ2) (s := s1) (xs := xs) ⟨σ1, b6, b2, b3, by
        rcases a4 with a4 | ⟨n1, a4, a5⟩
        · exact .inl a4
        · right
          cases nm with
          | none => exact ⟨n1, fun n hn => b4 _ (by simp) (a4 n hn), a5⟩
          | some m =>
            rw [namesOf_some, List.nodup_cons] at n1
            refine ⟨n1.2, fun n hn => b4 _ ?_ (a4 n (by rw [namesOf_some]; exact List.mem_cons_of_mem _ hn)), a5⟩
            rintro q hq h
            cases hq; cases h
            exact n1.1 hn⟩
      refine ⟨σ', s', ?_, by rw [elemsOf_cons_mark rfl]; exact c2⟩
      rw [foldItems, List.foldl_cons]
      have : TreeToList.meta' I (.ok (σ, s)) (lev, nm) = .ok (σ2, s1) := b5
      simp only [this]
      exact c1

end

theorem Held.drain {I : SeqImpl T S X} {Sub : T → T → Prop} {Inv : T → Prop} {R : T → S → List X → Prop}
    {Free : T → Option Name → Prop} (hg : Grows I Sub) (hr : Refines I Inv R Free) {σ : T} {s : S} {xs : List X} {N : List Name}
    (h : Held Sub Inv R Free σ s xs N) (n : Nat) : ∃ f0, ∀ f, f0 ≤ f → drain I f σ n s = .ok (popped n xs) := by
  obtain ⟨σ0, h1, -, h2, -⟩ := h
  induction n generalizing s xs with
  | zero => exact ⟨0, fun _ _ => rfl⟩
  | succ n ih =>
    obtain ⟨f1, s', h3, h4⟩ := hr.pop h2
    obtain ⟨f2, h5⟩ := ih h4
    refine ⟨max f1 f2, fun f hf => ?_⟩
    rw [Eval.drain, hg.pop h1 (h3 f (by omega))]
    simp only [bind, Except.bind, h5 f (by omega), pure, Except.pure]
    cases xs <;> simp [popped, List.range_succ_eq_map, Function.comp_def, List.map_const']

theorem items_elem_or_mark [RazMeta E M] {t : Tree (TreeData E M)} (h : WF t) :
    ∀ i ∈ t.items, (∃ e, i = .elem e) ∨ ∃ lev nm, 1 ≤ lev ∧ i = .mark lev nm := by
  induction h with
  | leaf v =>
    intro i hi
    rw [items_leaf, List.mem_map] at hi
    obtain ⟨e, -, rfl⟩ := hi
    exact .inl ⟨e, rfl⟩
  | branch h1 _ _ ih1 ih2 =>
    intro i hi
    rw [items_branch, List.mem_append, List.mem_cons] at hi
    rcases hi with hi | rfl | hi
    · exact ih1 i hi
    · exact .inr ⟨_, _, h1, rfl⟩
    · exact ih2 i hi

/-! ### The cells of the lists -/

theorem snoc_cases {α : Type} {a b x : List α} {m i : α} (h : x ++ [i] = a ++ m :: b) :
    (b = [] ∧ a = x ∧ m = i) ∨ ∃ b', b = b' ++ [i] ∧ x = a ++ m :: b' := by
  rcases List.eq_nil_or_concat b with rfl | ⟨b', j, rfl⟩
  · have := List.append_inj' h rfl
    simp only [List.cons.injEq, and_true] at this
    exact .inl ⟨rfl, this.1.symm, this.2.symm⟩
  · rw [List.concat_eq_append, ← List.cons_append, ← List.append_assoc] at h
    have := List.append_inj' h rfl
    simp only [List.cons.injEq, and_true] at this
    exact .inr ⟨b', by rw [List.concat_eq_append, this.2], this.1⟩

theorem stored_items {V : Type} {I : SeqImpl (Store V) V E} {f : List (Item E) → V} (σ : Store V) (h0 : f [] = I.new)
    (h1 : ∀ x e, I.push (f x) e = .ok (f (x ++ [.elem e])))
    (h2 : ∀ σ x lev, I.archive σ (f x) lev none = .ok (σ, f (x ++ [.mark lev none])))
    (h3 : ∀ τ x lev n, τ.path = σ.path →
      I.archive τ (f x) lev (some n) = .ok (τ.set (.named n σ.path) (f x), f (x ++ [.mark lev (some n)])))
    (r : List (Item E)) (hl : ∀ i ∈ r.reverse, (∃ e, i = .elem e) ∨ ∃ lev nm, 1 ≤ lev ∧ i = .mark lev nm)
    (hn : (namesOf r.reverse).Nodup) :
    ∃ σ', foldItems (TreeToList.step I) (TreeToList.meta' I) (.ok (σ, I.new)) r.reverse = .ok (σ', f r.reverse) ∧
      Stored f r.reverse σ σ' := by
  induction r with
  | nil => exact ⟨σ, by rw [List.reverse_nil, h0]; rfl, ⟨by simp, fun _ _ => rfl, rfl⟩⟩
  | cons i r ih =>
    rw [List.reverse_cons] at hl hn ⊢
    obtain ⟨x, hx⟩ : ∃ x, r.reverse = x := ⟨_, rfl⟩
    rw [hx] at hl hn ih ⊢
    rw [namesOf, List.filterMap_append, ← namesOf, ← namesOf] at hn
    have hn' := List.nodup_append.1 hn
    obtain ⟨σ', g1, g2⟩ := ih (fun j hj => hl j (List.mem_append_left _ hj)) hn'.1
    simp only [foldItems] at g1 ⊢
    rw [List.foldl_append, g1]
    rcases hl i (by simp) with ⟨e, rfl⟩ | ⟨lev, nm, -, rfl⟩
    · refine ⟨σ', by simp [TreeToList.step, bind, Except.bind, h1, pure, Except.pure], ⟨?_, fun a ha => g2.other a (fun n hm => ha n ?_), g2.path⟩⟩
      · intro a lev n b hab
        rcases snoc_cases hab with ⟨-, -, h⟩ | ⟨b', -, h⟩
        · cases h
        · exact g2.named _ _ _ _ h
      · rw [namesOf, List.filterMap_append, ← namesOf]
        exact List.mem_append_left _ hm
    · cases nm with
      | none =>
        refine ⟨σ', by simp [TreeToList.meta', bind, Except.bind, h2], ⟨?_, fun a ha => g2.other a (fun n hm => ha n ?_), g2.path⟩⟩
        · intro a lev n b hab
          rcases snoc_cases hab with ⟨-, -, h⟩ | ⟨b', -, h⟩
          · cases h
          · exact g2.named _ _ _ _ h
        · rw [namesOf, List.filterMap_append, ← namesOf]
          exact List.mem_append_left _ hm
      | some m =>
        refine ⟨σ'.set (.named m σ.path) (f x), by simp [TreeToList.meta', bind, Except.bind, h3 σ' _ _ _ g2.path], ⟨?_, fun a ha => ?_, g2.path⟩⟩
        · intro a lev' n b hab
          rcases snoc_cases hab with ⟨-, rfl, h⟩ | ⟨b', -, h⟩
          · cases h
            simp [Store.set]
          · have hne : n ≠ m := by
              rintro rfl
              refine hn'.2.2 n ?_ n ?_ rfl
              · rw [h, namesOf, List.filterMap_append, ← namesOf, ← namesOf, namesOf_some]
                simp
              · simp [namesOf]
            have := g2.named _ _ _ _ h
            simp only [Store.set]
            rw [if_neg (by simpa using hne)]
            exact this
        · simp only [Store.set]
          rw [if_neg (ha m (by rw [namesOf, List.filterMap_append]; simp)), g2.other a (fun n hm => ha n ?_)]
          rw [namesOf, List.filterMap_append, ← namesOf]
          exact List.mem_append_left _ hm

/-! ### The driver -/

theorem store_before {O : Type} {as : List (T × O)} {i : Nat} {a : T × O} (h : as[i]? = some a) (σ : T) :
    ∃ τ, (σ :: as.map (·.1))[i]? = some τ := by
  have := (List.getElem?_eq_some_iff.1 h).1
  exact ⟨_, List.getElem?_eq_getElem (by simp; omega)⟩

theorem drop_store {R O : Type} {A : List (T × O) → R → Prop} {n : Nat} {σ : T} {Q : Nat → T × O → Prop}
    (h : ∃ as rng, A as rng ∧ as.length = n ∧ ∀ (i : Nat) τ a, (σ :: as.map (·.1))[i]? = some τ → as[i]? = some a → Q i a) :
    ∃ as rng, A as rng ∧ as.length = n ∧ ∀ (i : Nat) a, as[i]? = some a → Q i a := by
  obtain ⟨as, rng, h1, h2, h3⟩ := h
  exact ⟨as, rng, h1, h2, fun i a ha => by obtain ⟨τ, ht⟩ := store_before ha σ; exact h3 i τ a ht ha⟩

/-- The driver: `Inv n d x` says that `d` is a state with the sequence and generator `x` that can be edited `n` more times. -/
theorem testLoop_spec {R D O Y : Type} {edit : D → R → P (D × R)} {compute : T → D → P (T × O)} (Inv : Nat → D → Y → Prop) (f : Y → Y)
    (Ans : T → T × O → Y → Prop) (he : ∀ n d x rng, Inv (n + 1) d x → ∃ d' rng', edit d rng = .ok (d', rng') ∧ Inv n d' (f x))
    (hp : ∀ n σ d x, Inv n d x → ∃ a, compute σ d = .ok a ∧ Ans σ a x) (n : Nat) {d : D} {x : Y} (σ : T) (rng : R) (h : Inv n d x) :
    ∃ as rng', testLoop edit compute n d σ rng = .ok (as, rng') ∧ as.length = n ∧
      ∀ (i : Nat) τ a, (σ :: as.map (·.1))[i]? = some τ → as[i]? = some a → Ans τ a (times f (i + 1) x) := by
  induction n generalizing d x σ rng with
  | zero => exact ⟨[], rng, rfl, rfl, fun i τ a _ h => by simp at h⟩
  | succ n ih =>
    obtain ⟨d', rng1, h1, h2⟩ := he n d x rng h
    obtain ⟨a, h3, h4⟩ := hp n σ d' (f x) h2
    obtain ⟨as, rng', h5, h6, h7⟩ := ih a.1 rng1 h2
    refine ⟨a :: as, rng', ?_, by simp [h6], ?_⟩
    · simp only [testLoop, h1, bind, Except.bind, h3, h5, pure, Except.pure]
    · intro i τ b ht hb
      rcases i with _ | i
      · simp only [List.getElem?_cons_zero, Option.some.injEq] at hb ht
        subst hb; subst ht
        exact h4
      · exact h7 i τ b (by simpa using ht) (by simpa using hb)

theorem test_spec {R D O Y : Type} {create : R → P (D × R)} {edit : D → R → P (D × R)} {compute : T → D → P (T × O)}
    (Inv : Nat → D → Y → Prop) (f : Y → Y) (Ans : T → T × O → Y → Prop)
    (he : ∀ n d x rng, Inv (n + 1) d x → ∃ d' rng', edit d rng = .ok (d', rng') ∧ Inv n d' (f x))
    (hp : ∀ n σ d x, Inv n d x → ∃ a, compute σ d = .ok a ∧ Ans σ a x) (n : Nat) {x : Y} (σ : T) (rng : R)
    (hc : ∃ d rng', create rng = .ok (d, rng') ∧ Inv n d x) :
    ∃ as rng', test create edit compute n σ rng = .ok (as, rng') ∧ as.length = n + 1 ∧
      ∀ (i : Nat) τ a, (σ :: as.map (·.1))[i]? = some τ → as[i]? = some a → Ans τ a (times f i x) := by
  obtain ⟨d, rng1, h1, h2⟩ := hc
  obtain ⟨a, h3, h4⟩ := hp n σ d x h2
  obtain ⟨as, rng', h5, h6, h7⟩ := testLoop_spec Inv f Ans he hp n a.1 rng1 h2
  refine ⟨a :: as, rng', ?_, by simp [h6], ?_⟩
  · simp only [test, h1, bind, Except.bind, h3, h5, pure, Except.pure]
  · intro i τ b ht hb
    rcases i with _ | i
    · simp only [List.getElem?_cons_zero, Option.some.injEq] at hb ht
      subst hb; subst ht
      exact h4
    · exact h7 i τ b (by simpa using ht) (by simpa using hb)

end Eval
end Iodyn
