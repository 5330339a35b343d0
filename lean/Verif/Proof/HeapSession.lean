import Verif.Spec.HeapSession
import Verif.Proof.Eval
import Verif.Proof.IncrMap
import Verif.Proof.HeapFocus
import Verif.Proof.IncrLrProg
import Verif.Proof.IncrRebuild
/-
The harness and the driver over the store give what they give on values.
-/
namespace Iodyn.Heap
open Iodyn.Eval
section
variable [Spaces] {E M G R S A : Type} {e : Engine}

/-- The handles of the harness stand for its values. -/
structure RepE (e : Engine) (σ : RMem E M) (hs : HEval M G) (s : EvalRaz E M G) : Prop where
  names : hs.names = s.names
  coord : hs.coord = s.coord
  counter : hs.counter = s.counter
  datagauge : hs.datagauge = s.datagauge
  namegauge : hs.namegauge = s.namegauge
  tree : (hs.raztree = none ∧ s.raztree = none) ∨ ∃ ht t, hs.raztree = some ht ∧ s.raztree = some t ∧ RepRT e σ ht t

/-- The names under which the cells of the first `k` numbers are. -/
def Numbered (k : Nat) (N : List Name) : Prop := ∀ x ∈ N, ∃ j, j < k ∧ (x = .usize j ∨ x = .pair (.usize j) (.str "tree"))

/-- The names that the entries of a name vector bring in. -/
def vecN (e : Engine) (ns : List (Option Name)) : List Name := ns.flatMap (archN e)

/-- The names of the numbers from `a` on. -/
def numN (e : Engine) (a k : Nat) : List Name := (List.range' a k).flatMap (fun j => archN e (some (.usize j)))

theorem archN_none : archN e none = [] := by cases e <;> rfl

theorem vecN_replicate (g : Nat) (ns : List (Option Name)) : vecN e (List.replicate g none ++ ns) = vecN e ns := by
  unfold vecN
  rw [List.flatMap_append]
  induction g with
  | zero => rfl
  | succ g ih => rw [List.replicate_succ, List.flatMap_cons, archN_none]; exact ih

theorem numN_mem {a k : Nat} {x : Name} (h : x ∈ numN e a k) : ∃ j, a ≤ j ∧ j < a + k ∧ (x = .usize j ∨ x = .pair (.usize j) (.str "tree")) := by
  obtain ⟨j, hj, hx⟩ := List.mem_flatMap.1 h
  rw [List.mem_range'_1] at hj
  refine ⟨j, hj.1, hj.2, ?_⟩
  cases e with
  | naive => simp [archN, nm] at hx
  | dcg => simpa [archN, nm, tnm] using hx

theorem numN_nodup (a k : Nat) : (numN e a k).Nodup := by
  induction k generalizing a with
  | zero => exact List.nodup_nil
  | succ k ih =>
    have : numN e a (k+1) = archN e (some (.usize a)) ++ numN e (a+1) k := rfl
    rw [this, List.nodup_append]
    refine ⟨?_, ih _, ?_⟩
    · cases e <;> simp [archN, nm, tnm]
    · intro x hx y hy hxy
      subst hxy
      obtain ⟨j, h1, -, h3⟩ := numN_mem hy
      have hx : x = .usize a ∨ x = .pair (.usize a) (.str "tree") := by
        cases e with
        | naive => simp [archN, nm] at hx
        | dcg => simpa [archN, nm, tnm] using hx
      rcases hx with rfl | rfl <;> rcases h3 with h3 | h3 <;> cases h3 <;> omega

/-- New numbers are not among those in use. -/
theorem nodup_num {k n : Nat} {N : List Name} (hk : Numbered k N) (hn : N.Nodup) : (N ++ numN e k n).Nodup := by
  rw [List.nodup_append]
  refine ⟨hn, numN_nodup _ _, ?_⟩
  intro x hx y hy hxy
  subst hxy
  obtain ⟨j, h1, h2⟩ := hk x hx
  obtain ⟨i, h3, -, h4⟩ := numN_mem hy
  rcases h2 with rfl | rfl <;> rcases h4 with h4 | h4 <;> cases h4 <;> omega

theorem numbered_num {k n : Nat} {N N' : List Name} (hk : Numbered k N) (hs : Sub N' (N ++ numN e k n)) : Numbered (k + n) N' := by
  intro x hx
  rcases List.mem_append.1 (hs.subset hx) with h | h
  · obtain ⟨j, h1, h2⟩ := hk x h
    exact ⟨j, by omega, h2⟩
  · obtain ⟨j, -, h1, h2⟩ := numN_mem h
    exact ⟨j, h1, h2⟩

theorem nextName_sim {σ : RMem E M} {hs : HEval M G} {s : EvalRaz E M G} (h : RepE e σ hs s) :
    Sim (liftP hs.nextName : HR E M _) σ s.nextName (fun b a σ' => a.2 = b.2 ∧ RepE e σ a.1 b.1 ∧ σ' = σ ∧ b.2 = .usize s.names ∧ b.1.names = s.names + 1 ∧
      a.1.raztree = hs.raztree ∧ b.1.raztree = s.raztree) := by
  unfold HEval.nextName EvalRaz.nextName
  rw [h.names]
  unfold addU
  split
  · exact ⟨_, _, ⟨0, fun _ _ => rfl⟩, rfl, ⟨rfl, h.coord, h.counter, h.datagauge, h.namegauge, h.tree⟩, rfl, rfl, rfl, rfl, rfl⟩
  · exact Sim.error

theorem liftP_bind {D X B : Type} (x : P A) (f : A → P B) : (liftP (x >>= f) : H D X B) = liftP x >>= fun a => liftP (f a) := by
  funext n σ
  cases x <;> rfl

theorem liftP_pure {D X : Type} (a : A) : (liftP (pure a) : H D X A) = pure a := rfl

theorem initNames_sim [RazMeta E M] : ∀ (k : Nat) {σ : RMem E M} {hs : HEval M G} {s : EvalRaz E M G}, RepE e σ hs s →
    Sim (liftP (hs.initNames k) : HR E M _) σ (s.initNames k) (fun b a σ' => a.2 = b.2 ∧ RepE e σ a.1 b.1 ∧ σ' = σ ∧
      vecN e b.2 = numN e s.names k ∧ b.1.names = s.names + k) := by
  intro k
  induction k with
  | zero => intro σ hs s h; exact Sim.pure ⟨rfl, h, rfl, rfl, rfl⟩
  | succ k ih =>
    intro σ hs s h
    unfold HEval.initNames EvalRaz.initNames
    simp only [liftP_bind]
    rw [h.namegauge]
    refine Sim.liftBind (fun g hg => ?_)
    refine (nextName_sim h).bind ?_
    rintro ⟨s1, n⟩ ⟨hs1, n'⟩ σ1 - ⟨rfl, k1, rfl, k2, k3, -, -⟩
    simp only at k1 k2 k3 ⊢
    refine (ih k1).bind ?_
    rintro ⟨s2, ns⟩ ⟨hs2, ns'⟩ σ2 - ⟨rfl, k4, rfl, k5, k6⟩
    simp only at k4 k5 k6 ⊢
    refine Sim.pure ⟨rfl, k4, rfl, ?_, by simp only; omega⟩
    show vecN e (List.replicate g none ++ some n' :: ns') = _
    rw [vecN_replicate]
    show archN e (some n') ++ vecN e ns' = archN e (some (.usize s.names)) ++ numN e (s.names + 1) k
    rw [k5, k3, k2]

theorem editNames_sim [RazMeta E M] : ∀ (k : Nat) {σ : RMem E M} {hs : HEval M G} {s : EvalRaz E M G}, RepE e σ hs s →
    Sim (liftP (hs.editNames k) : HR E M _) σ (s.editNames k) (fun b a σ' => a.2 = b.2 ∧ RepE e σ a.1 b.1 ∧ σ' = σ ∧
      vecN e b.2 = numN e s.names k ∧ b.1.names = s.names + k) := by
  intro k
  induction k with
  | zero => intro σ hs s h; exact Sim.pure ⟨rfl, h, rfl, rfl, rfl⟩
  | succ k ih =>
    intro σ hs s h
    unfold HEval.editNames EvalRaz.editNames
    simp only [liftP_bind]
    refine (nextName_sim h).bind ?_
    rintro ⟨s1, n⟩ ⟨hs1, n'⟩ σ1 - ⟨rfl, k1, rfl, k2, k3, -, -⟩
    simp only at k1 k2 k3 ⊢
    refine (ih k1).bind ?_
    rintro ⟨s2, ns⟩ ⟨hs2, ns'⟩ σ2 - ⟨rfl, k4, rfl, k5, k6⟩
    simp only at k4 k5 k6 ⊢
    refine Sim.pure ⟨rfl, k4, rfl, ?_, by simp only; omega⟩
    show archN e (some n') ++ vecN e ns' = archN e (some (.usize s.names)) ++ numN e (s.names + 1) k
    rw [k5, k3, k2]

/-! ### Building -/

/-- The cursors and iterators of the building loops; `T` are the names that may still come up. -/
structure RepI [RazMeta E M] (e : Engine) (T : List Name) (σ : RMem E M) (hs : HIters E) (s : Iters E M) : Prop where
  raz : RepZ e σ hs.raz s.raz
  data : hs.data = s.data
  names : hs.names = s.names
  levels : hs.levels = s.levels
  sub : Sub (zN e s.raz ++ vecN e s.names) T

theorem pushNext_sim [RazMeta E M] {T : List Name} {σ : RMem E M} {hs : HIters E} {s : Iters E M} (h : RepI e T σ hs s) :
    Sim (HEval.pushNext hs) σ (EvalRaz.pushNext s) (fun b a σ' => RepI e T σ' a b) := by
  unfold HEval.pushNext EvalRaz.pushNext
  rw [h.data]
  rcases s.data with _ | ⟨x, xs⟩
  · exact Sim.error
  · obtain ⟨h1, -, h3⟩ := pushLeft_rep h.raz x
    exact Sim.pure ⟨h1, rfl, h.names, h.levels, by rw [h3]; exact h.sub⟩

theorem archiveNext_sim [RazMeta E M] {T : List Name} (hT : T.Nodup) {σ : RMem E M} {hs : HIters E} {s : Iters E M} (h : RepI e T σ hs s) :
    Sim (HEval.archiveNext e hs) σ (EvalRaz.archiveNext s) (fun b a σ' => RepI e T σ' a b) := by
  obtain ⟨hraz, hdata, hnames, hlevels⟩ := hs
  obtain ⟨raz, data, names, levels⟩ := s
  obtain ⟨k1, k2, k3, k4, k5⟩ := h
  simp only at k1 k2 k3 k4 k5
  subst k2 k3 k4
  unfold HEval.archiveNext EvalRaz.archiveNext
  rcases hlevels with _ | ⟨l, ls⟩
  · exact Sim.error
  · rcases hnames with _ | ⟨n, ns⟩
    · exact Sim.error
    · have e1 : zN e raz ++ vecN e (n :: ns) = (zN e raz ++ archN e n) ++ vecN e ns := by simp [vecN]
      rw [e1] at k5
      obtain ⟨hz', σ', h1, h2, h3, -⟩ := archiveLeft_run k1 l n (List.nodup_append.1 (k5.nodup hT)).1
      refine Sim.step h1 (Sim.pure ⟨h2, rfl, rfl, rfl, ?_⟩)
      exact (h3.app (Sub.refl _)).trans k5

theorem archiveNone_sim [RazMeta E M] {T : List Name} (hT : T.Nodup) {σ : RMem E M} {hs : HIters E} {s : Iters E M} (h : RepI e T σ hs s) :
    Sim (HEval.archiveNone e hs) σ (EvalRaz.archiveNone s) (fun b a σ' => RepI e T σ' a b) := by
  obtain ⟨hraz, hdata, hnames, hlevels⟩ := hs
  obtain ⟨raz, data, names, levels⟩ := s
  obtain ⟨k1, k2, k3, k4, k5⟩ := h
  simp only at k1 k2 k3 k4 k5
  subst k2 k3 k4
  unfold HEval.archiveNone EvalRaz.archiveNone
  rcases hlevels with _ | ⟨l, ls⟩
  · exact Sim.error
  · have e1 : zN e raz = zN e raz ++ archN e none := by rw [archN_none, List.append_nil]
    obtain ⟨hz', σ', h1, h2, h3, -⟩ := archiveLeft_run k1 l none (by rw [← e1]; exact (List.nodup_append.1 (k5.nodup hT)).1)
    rw [← e1] at h3
    refine Sim.step h1 (Sim.pure ⟨h2, rfl, rfl, rfl, ?_⟩)
    exact (h3.app (Sub.refl _)).trans k5

theorem forN_sim {S' : Type} {body : S → HR E M S} {body' : S' → P S'} {Q : RMem E M → S → S' → Prop}
    (hb : ∀ σ a b, Q σ a b → Sim (body a) σ (body' b) (fun b a σ' => Q σ' a b)) :
    ∀ (n : Nat) {σ : RMem E M} {a : S} {b : S'}, Q σ a b → Sim (forH n body a) σ (forN n body' b) (fun b a σ' => Q σ' a b) := by
  intro n
  induction n with
  | zero => intro σ a b h; exact Sim.pure h
  | succ n ih =>
    intro σ a b h
    unfold forH forN
    exact (hb σ a b h).bind (fun b' a' σ' _ h' => ih h')

/-- Building a sequence over the store. -/
theorem incInit_sim [RazMeta E M] (C : Coord G E) (word : R → BitVec 64 × R) (size dg ng : Nat) (coord : G) (rng : R) (σ : RMem E M) :
    Sim (HEval.incInit e C word size dg ng coord rng) σ (EvalRaz.incInit C word size dg ng coord rng)
      (fun b a σ' => RepE e σ' a.1 b.1 ∧ a.2 = b.2 ∧ ∃ t, b.1.raztree = some t ∧ Numbered b.1.names (tN e t.tree) ∧ (tN e t.tree).Nodup) := by
  unfold HEval.incInit EvalRaz.incInit
  have h0 : RepE e σ (HEval.new dg ng coord : HEval M G) (EvalRaz.new dg ng coord : EvalRaz E M G) := ⟨rfl, rfl, rfl, rfl, rfl, .inl ⟨rfl, rfl⟩⟩
  refine Sim.liftBind (fun _ _ => Sim.liftBind (fun k hk => Sim.liftBind (fun _ _ => Sim.liftBind (fun _ _ => Sim.liftBind (fun _ _ =>
    Sim.liftBind (fun _ _ => Sim.liftBind (fun _ _ => Sim.liftBind (fun _ _ => Sim.liftBind (fun _ _ => ?_)))))))))
  refine (initNames_sim k h0).bind ?_
  rintro ⟨s1, ns⟩ ⟨hs1, ns'⟩ σ1 - ⟨rfl, k1, rfl, k2, k3⟩
  simp only at k1 k2 k3 ⊢
  rw [k1.coord, k1.namegauge, k1.datagauge]
  have hT : (numN e 0 k).Nodup := numN_nodup _ _
  have hempty : zN e (Raz.new : Raz E M) = [] := by
    cases e <;> simp [Raz.new, zN, RazTree.emptyRaz, cN, Cursor.new, lN, rN, tN, aN, AStack.new, sN, pN]
  refine (forN_sim (Q := fun σ a b => RepI e (numN e 0 k) σ a b) (fun σ a b h => forN_sim (Q := fun σ a b => RepI e (numN e 0 k) σ a b)
    (fun σ a b h => (forN_sim (Q := fun σ a b => RepI e (numN e 0 k) σ a b) (fun σ a b h => pushNext_sim h) _ h).bind
      (fun b a σ' _ h => archiveNext_sim hT h)) _ h) _ ⟨RepZ.empty, rfl, rfl, rfl, by rw [hempty, k2]; exact Sub.refl _⟩).bind ?_
  rintro b a σ' - h1
  refine (forN_sim (Q := fun σ a b => RepI e (numN e 0 k) σ a b) (fun σ a b h => (forN_sim (Q := fun σ a b => RepI e (numN e 0 k) σ a b)
    (fun σ a b h => pushNext_sim h) _ h).bind (fun b a σ' _ h => archiveNone_sim hT h)) _ h1).bind ?_
  rintro b a σ' - h2
  refine (forN_sim (Q := fun σ a b => RepI e (numN e 0 k) σ a b) (fun σ a b h => pushNext_sim h) _ h2).bind ?_
  rintro b a σ' - h3
  have hz : Sub (zN e b.raz) (numN e 0 k) := Sub.trans (fun x => by rw [List.count_append]; omega) h3.sub
  refine (unfocus_sim h3.raz (hz.nodup hT)).bind ?_
  rintro t ht σ2 - ⟨g1, g2, -⟩
  refine Sim.pure ⟨⟨k1.names, rfl, k1.counter, rfl, rfl, .inr ⟨ht, t, rfl, rfl, g1⟩⟩, rfl, t, rfl, ?_, (g2.trans hz).nodup hT⟩
  simp only [k3]
  have : Numbered 0 [] := fun x hx => by cases hx
  exact numbered_num (N := []) this (g2.trans hz)

/-! ### Editing -/

theorem editLoop_sim [RazMeta E M] (dg ng : Nat) : ∀ (xs : List E) {σ : RMem E M} {hz : HRaz E} {z : Raz E M} (c : Nat) (ls : List Nat) (ns : List (Option Name)),
    RepZ e σ hz z → (zN e z ++ vecN e ns).Nodup → Sim (HEval.editLoop e dg ng xs hz c ls ns) σ (EvalRaz.editLoop dg ng xs z c ls ns)
      (fun b a σ' => RepZ e σ' a.1 b.1 ∧ a.2 = b.2 ∧ Sub (zN e b.1) (zN e z ++ vecN e ns)) := by
  intro xs
  induction xs with
  | nil => intro σ hz z c ls ns h _; exact Sim.pure ⟨h, rfl, fun x => by simp only [List.count_append]; omega⟩
  | cons x xs ih =>
    intro σ hz z c ls ns h hn
    unfold HEval.editLoop EvalRaz.editLoop
    obtain ⟨p1, -, p3⟩ := pushLeft_rep h x
    rw [← p3] at hn ⊢
    generalize (z.pushLeft x).1 = z at *
    generalize (hz.pushLeft x).1 = hz at *
    refine Sim.liftBind (fun c' _ => Sim.liftBind (fun m _ => Sim.liftBind (fun r _ => ?_)))
    split
    · rcases ls with _ | ⟨l, ls⟩
      · exact Sim.error
      · rcases ns with _ | ⟨n, ns⟩
        · exact Sim.error
        · have e1 : zN e z ++ vecN e (n :: ns) = (zN e z ++ archN e n) ++ vecN e ns := by simp [vecN]
          rw [e1] at hn ⊢
          obtain ⟨hz', σ', h1, h2, h3, -⟩ := archiveLeft_run p1 l n (List.nodup_append.1 hn).1
          refine Sim.step h1 ((ih c' ls ns h2 ((h3.app (Sub.refl _)).nodup hn)).mono ?_)
          rintro b a σ'' - ⟨g1, g2, g3⟩
          exact ⟨g1, g2, g3.trans (h3.app (Sub.refl _))⟩
    · refine Sim.liftBind (fun r' _ => ?_)
      split
      · rcases ls with _ | ⟨l, ls⟩
        · exact Sim.error
        · have e1 : zN e z = zN e z ++ archN e none := by rw [archN_none, List.append_nil]
          obtain ⟨hz', σ', h1, h2, h3, -⟩ := archiveLeft_run p1 l none (by rw [← e1]; exact (List.nodup_append.1 hn).1)
          rw [← e1] at h3
          refine Sim.step h1 ((ih c' ls ns h2 ((h3.app (Sub.refl _)).nodup hn)).mono ?_)
          rintro b a σ'' - ⟨g1, g2, g3⟩
          exact ⟨g1, g2, g3.trans (h3.app (Sub.refl _))⟩
      · exact ih c' ls ns p1 hn

theorem editAt_sim [RazMeta E M] (C : Coord G E) (word : R → BitVec 64 × R) {σ : RMem E M} {hs : HEval M G} {s : EvalRaz E M G} (h : RepE e σ hs s)
    {hz : HRaz E} {z : Raz E M} (hz' : RepZ e σ hz z) (hk : Numbered s.names (zN e z)) (hn : (zN e z).Nodup) (batch : Nat) (rng : R) :
    Sim (HEval.editAt e C word hs hz batch rng) σ (EvalRaz.editAt C word s z batch rng)
      (fun b a σ' => RepE e σ' a.1 b.1 ∧ a.2 = b.2 ∧ ∃ t, b.1.raztree = some t ∧ Numbered b.1.names (tN e t.tree) ∧ (tN e t.tree).Nodup) := by
  unfold HEval.editAt EvalRaz.editAt
  rw [h.datagauge, h.namegauge]
  refine Sim.liftBind (fun l _ => Sim.liftBind (fun l' _ => Sim.liftBind (fun q _ => Sim.liftBind (fun m _ => Sim.liftBind (fun k _ => ?_)))))
  refine (editNames_sim k h).bind ?_
  rintro ⟨s1, ns⟩ ⟨hs1, ns'⟩ σ1 - ⟨rfl, k1, rfl, k2, k3⟩
  simp only at k1 k2 k3 ⊢
  rw [k1.coord, k1.namegauge, k1.datagauge, k1.counter]
  have hd := nodup_num (e := e) (n := k) hk hn
  refine (editLoop_sim _ _ _ _ _ _ hz' (by rw [k2]; exact hd)).bind ?_
  rintro ⟨z2, c2⟩ ⟨hz2, c2'⟩ σ2 - ⟨g1, rfl, g3⟩
  simp only at g1 g3 ⊢
  rw [k2] at g3
  refine (unfocus_sim g1 (g3.nodup hd)).bind ?_
  rintro t ht σ3 - ⟨g4, g5, -⟩
  refine Sim.pure ⟨⟨k1.names, rfl, rfl, rfl, rfl, .inr ⟨ht, t, rfl, rfl, g4⟩⟩, rfl, t, rfl, ?_, (g5.trans g3).nodup hd⟩
  simp only [k3]
  exact numbered_num hk (g5.trans g3)

/-- The harness between two edits: the handles stand for the values, and the names of the cells of the sequence have been handed out once. -/
def Holding [RazMeta E M] (e : Engine) (σ : RMem E M) (hs : HEval M G) (s : EvalRaz E M G) : Prop :=
  RepE e σ hs s ∧ ∃ t, s.raztree = some t ∧ Numbered s.names (tN e t.tree) ∧ (tN e t.tree).Nodup

theorem focusEdit_sim [RazMeta E M] (C : Coord G E) (word : R → BitVec 64 × R) {σ : RMem E M} {hs : HEval M G} {s : EvalRaz E M G} {ht : HTree M} {t : RazTree E M}
    (h : RepRT e σ ht t) (hr : RepE e σ hs s) (hk : Numbered s.names (tN e t.tree)) (hn : (tN e t.tree).Nodup) (i : RazMeta.Index E M) (batch : Nat) (rng : R)
    {k : Option (HRaz E) → HR E M (HEval M G × R)} {kx : Option (Raz E M) → P (EvalRaz E M G × R)} (k0 : k none = liftP (.error .explicit))
    (k1 : ∀ z, k (some z) = HEval.editAt e C word hs z batch rng) (x0 : kx none = .error .explicit) (x1 : ∀ z, kx (some z) = EvalRaz.editAt C word s z batch rng) :
    Sim (ht.focus i >>= k) σ (t.focus i >>= kx) (fun b a σ' => Holding e σ' a.1 b.1 ∧ a.2 = b.2) := by
  refine (focus_sim h i).bind ?_
  rintro b a σ' - ⟨⟨rfl, rfl⟩ | ⟨z, hz, rfl, rfl, h1, h2⟩, rfl⟩
  · rw [k0, x0]; exact Sim.error
  · rw [k1, x1]
    refine (editAt_sim C word hr h1 (fun x hx => hk x (h2.subset hx)) (h2.nodup hn) batch rng).mono ?_
    rintro b a σ' - ⟨g1, g2, g3⟩
    exact ⟨⟨g1, g3⟩, g2⟩

theorem insert_sim (C : Coord G E) (word : R → BitVec 64 × R) {σ : RMem E Count} {hs : HEval Count G} {s : EvalRaz E Count G}
    (h : Holding e σ hs s) (batch : Nat) (rng : R) :
    Sim (HEval.insert e C word batch hs rng) σ (EvalIRaz.insert C word s batch rng) (fun b a σ' => Holding e σ' a.1 b.1 ∧ a.2 = b.2) := by
  obtain ⟨hr, t, ht, hk, hn⟩ := h
  rcases hr.tree with ⟨-, h2⟩ | ⟨hT, t', h1, h2, h3⟩
  · rw [h2] at ht; cases ht
  · rw [h2] at ht; cases ht
    unfold HEval.insert EvalIRaz.insert
    simp only [h1, h2]
    rw [hr.coord, h3.info]
    refine Sim.liftBind (fun i _ => ?_)
    refine focusEdit_sim C word h3 (s := { s with coord := (C.pos s.coord).2, raztree := none }) ?_ hk hn _ batch rng rfl (fun _ => rfl) rfl (fun _ => rfl)
    exact ⟨hr.names, rfl, hr.counter, hr.datagauge, hr.namegauge, .inl ⟨rfl, rfl⟩⟩

theorem append_sim (C : Coord G E) (word : R → BitVec 64 × R) {σ : RMem E Count} {hs : HEval Count G} {s : EvalRaz E Count G}
    (h : Holding e σ hs s) (batch : Nat) (rng : R) :
    Sim (HEval.append e C word batch hs rng) σ (EvalIRaz.append C word s batch rng) (fun b a σ' => Holding e σ' a.1 b.1 ∧ a.2 = b.2) := by
  obtain ⟨hr, t, ht, hk, hn⟩ := h
  rcases hr.tree with ⟨-, h2⟩ | ⟨hT, t', h1, h2, h3⟩
  · rw [h2] at ht; cases ht
  · rw [h2] at ht; cases ht
    unfold HEval.append EvalIRaz.append
    simp only [h1, h2]
    rw [h3.info]
    refine focusEdit_sim C word h3 (s := { s with raztree := none }) ?_ hk hn _ batch rng rfl (fun _ => rfl) rfl (fun _ => rfl)
    exact ⟨hr.names, hr.coord, hr.counter, hr.datagauge, hr.namegauge, .inl ⟨rfl, rfl⟩⟩

theorem insertAtName_sim (C : Coord G E) (word : R → BitVec 64 × R) (order : List Name → List Name) {σ : RMem E Names} {hs : HEval Names G}
    {s : EvalRaz E Names G} (h : Holding e σ hs s) (batch : Nat) (rng : R) :
    Sim (HEval.insertAtName e C word order batch hs rng) σ (EvalRazNameIndex.insert C word order s batch rng)
      (fun b a σ' => Holding e σ' a.1 b.1 ∧ a.2 = b.2) := by
  obtain ⟨hr, t, ht, hk, hn⟩ := h
  rcases hr.tree with ⟨-, h2⟩ | ⟨hT, t', h1, h2, h3⟩
  · rw [h2] at ht; cases ht
  · rw [h2] at ht; cases ht
    unfold HEval.insertAtName EvalRazNameIndex.insert
    simp only [h1, h2]
    rw [hr.coord, h3.info]
    refine Sim.liftBind (fun i _ => Sim.liftBind (fun i _ => ?_))
    refine focusEdit_sim C word h3 (s := { s with coord := (C.pos s.coord).2, raztree := none }) ?_ hk hn _ batch rng rfl (fun _ => rfl) rfl (fun _ => rfl)
    exact ⟨hr.names, rfl, hr.counter, hr.datagauge, hr.namegauge, .inl ⟨rfl, rfl⟩⟩

theorem appendLast_sim (C : Coord G E) (word : R → BitVec 64 × R) {σ : RMem E Names} {hs : HEval Names G} {s : EvalRaz E Names G}
    (h : Holding e σ hs s) (batch : Nat) (rng : R) :
    Sim (HEval.appendLast e C word batch hs rng) σ (EvalRazNameIndex.append C word s batch rng) (fun b a σ' => Holding e σ' a.1 b.1 ∧ a.2 = b.2) := by
  obtain ⟨hr, t, ht, hk, hn⟩ := h
  rcases hr.tree with ⟨-, h2⟩ | ⟨hT, t', h1, h2, h3⟩
  · rw [h2] at ht; cases ht
  · rw [h2] at ht; cases ht
    unfold HEval.appendLast EvalRazNameIndex.append
    simp only [h1, h2]
    refine focusEdit_sim C word h3 (s := { s with raztree := none }) ?_ hk hn _ batch rng rfl (fun _ => rfl) rfl (fun _ => rfl)
    exact ⟨hr.names, hr.coord, hr.counter, hr.datagauge, hr.namegauge, .inl ⟨rfl, rfl⟩⟩

end

/-! ### Sequences of the harness are such as clients can have -/
section
variable {E M G R S : Type} {u : Usage}

theorem forN_inv {Q : S → Prop} {body : S → P S} (hb : ∀ s s', Q s → body s = .ok s' → Q s') :
    ∀ (n : Nat) {s s' : S}, Q s → forN n body s = .ok s' → Q s' := by
  intro n
  induction n with
  | zero => intro s s' h hs; cases hs; exact h
  | succ n ih =>
    intro s s' h hs
    unfold forN at hs
    obtain ⟨s1, h1, h2⟩ := bind_ok.1 hs
    exact ih (hb _ _ h h1) h2

/-- The cursor of the building loops, and levels from 1 on. -/
def IReach [RazMeta E M] (u : Usage) (s : Iters E M) : Prop := s.raz.Reachable u ∧ ∀ l ∈ s.levels, 1 ≤ l

theorem pushNext_reach [RazMeta E M] {s s' : Iters E M} (h : IReach u s) (hs : EvalRaz.pushNext s = .ok s') : IReach u s' := by
  unfold EvalRaz.pushNext at hs
  split at hs
  · cases hs
  · cases hs
    exact ⟨.pushL _ h.1, h.2⟩

theorem archiveNext_reach [RazMeta E M] {s s' : Iters E M} (h : IReach u s) (hs : EvalRaz.archiveNext s = .ok s') : IReach u s' := by
  unfold EvalRaz.archiveNext at hs
  split at hs
  · rename_i l ls n ns hl hn
    cases hs
    have h2 := h.2
    rw [hl] at h2
    exact ⟨.archL _ (h2 l List.mem_cons_self) h.1, fun x hx => h2 x (List.mem_cons_of_mem _ hx)⟩
  · cases hs

theorem archiveNone_reach [RazMeta E M] {s s' : Iters E M} (h : IReach u s) (hs : EvalRaz.archiveNone s = .ok s') : IReach u s' := by
  unfold EvalRaz.archiveNone at hs
  split at hs
  · rename_i l ls hl
    cases hs
    have h2 := h.2
    rw [hl] at h2
    exact ⟨.archL _ (h2 l List.mem_cons_self) h.1, fun x hx => h2 x (List.mem_cons_of_mem _ hx)⟩
  · cases hs

theorem genLevels_pos (word : R → BitVec 64 × R) (n : Nat) (r : R) : ∀ l ∈ (genLevels word n r).1, 1 ≤ l := by
  rw [genLevels_eq]
  intro l hl
  obtain ⟨w, -, rfl⟩ := List.mem_map.1 hl
  exact genBranchLevel_pos w

theorem incInit_reach [RazMeta E M] {C : Coord G E} {word : R → BitVec 64 × R} {size dg ng : Nat} {coord : G} {rng : R} {s : EvalRaz E M G} {rng' : R}
    (h : EvalRaz.incInit C word size dg ng coord rng = .ok (s, rng')) : ∃ t, s.raztree = some t ∧ t.Reachable u := by
  unfold EvalRaz.incInit at h
  obtain ⟨_, -, h⟩ := bind_ok.1 h
  obtain ⟨_, -, h⟩ := bind_ok.1 h
  obtain ⟨levels, -, h⟩ := bind_ok.1 h
  obtain ⟨_, -, h⟩ := bind_ok.1 h
  obtain ⟨_, -, h⟩ := bind_ok.1 h
  obtain ⟨_, -, h⟩ := bind_ok.1 h
  obtain ⟨_, -, h⟩ := bind_ok.1 h
  obtain ⟨_, -, h⟩ := bind_ok.1 h
  obtain ⟨_, -, h⟩ := bind_ok.1 h
  obtain ⟨⟨s0, ns⟩, -, h⟩ := bind_ok.1 h
  obtain ⟨s1, h1, h⟩ := bind_ok.1 h
  obtain ⟨s2, h2, h⟩ := bind_ok.1 h
  obtain ⟨s3, h3, h⟩ := bind_ok.1 h
  obtain ⟨t, h4, h⟩ := bind_ok.1 h
  cases h
  have q0 : ∀ (d : List E) (n : List (Option Name)), IReach u (⟨Raz.new, d, n, (genLevels word levels rng).1⟩ : Iters E M) :=
    fun d n => ⟨.new, genLevels_pos _ _ _⟩
  have q1 := forN_inv (Q := IReach u) (fun a b ha hb => forN_inv (Q := IReach u) (fun a b ha hb => by
    obtain ⟨c, hc, hb⟩ := bind_ok.1 hb
    exact archiveNext_reach (forN_inv (Q := IReach u) (fun a b ha hb => pushNext_reach ha hb) _ ha hc) hb) _ ha hb) _ (q0 _ _) h1
  have q2 := forN_inv (Q := IReach u) (fun a b ha hb => by
    obtain ⟨c, hc, hb⟩ := bind_ok.1 hb
    exact archiveNone_reach (forN_inv (Q := IReach u) (fun a b ha hb => pushNext_reach ha hb) _ ha hc) hb) _ q1 h2
  have q3 := forN_inv (Q := IReach u) (fun a b ha hb => pushNext_reach ha hb) _ q2 h3
  exact ⟨t, rfl, .unfocus q3.1 h4⟩

theorem editLoop_reach [RazMeta E M] {dg ng : Nat} : ∀ {xs : List E} {z z' : Raz E M} {c c' : Nat} {ls : List Nat} {ns : List (Option Name)},
    z.Reachable u → (∀ l ∈ ls, 1 ≤ l) → EvalRaz.editLoop dg ng xs z c ls ns = .ok (z', c') → z'.Reachable u := by
  intro xs
  induction xs with
  | nil => intro z z' c c' ls ns h _ he; cases he; exact h
  | cons x xs ih =>
    intro z z' c c' ls ns h hl he
    unfold EvalRaz.editLoop at he
    have hp : (z.pushLeft x).1.Reachable u := .pushL _ h
    generalize (z.pushLeft x).1 = z1 at *
    obtain ⟨c1, -, he⟩ := bind_ok.1 he
    obtain ⟨m, -, he⟩ := bind_ok.1 he
    obtain ⟨r, -, he⟩ := bind_ok.1 he
    split at he
    · rcases ls with _ | ⟨l, ls⟩
      · cases he
      · rcases ns with _ | ⟨n, ns⟩
        · cases he
        · exact ih (.archL _ (hl l List.mem_cons_self) hp) (fun x hx => hl x (List.mem_cons_of_mem _ hx)) he
    · obtain ⟨r', -, he⟩ := bind_ok.1 he
      split at he
      · rcases ls with _ | ⟨l, ls⟩
        · cases he
        · exact ih (.archL _ (hl l List.mem_cons_self) hp) (fun x hx => hl x (List.mem_cons_of_mem _ hx)) he
      · exact ih hp hl he

theorem editAt_reach [RazMeta E M] {C : Coord G E} {word : R → BitVec 64 × R} {s s' : EvalRaz E M G} {z : Raz E M} (hz : z.Reachable u) {batch : Nat} {rng rng' : R}
    (h : EvalRaz.editAt C word s z batch rng = .ok (s', rng')) : ∃ t, s'.raztree = some t ∧ t.Reachable u := by
  unfold EvalRaz.editAt at h
  obtain ⟨_, -, h⟩ := bind_ok.1 h
  obtain ⟨_, -, h⟩ := bind_ok.1 h
  obtain ⟨_, -, h⟩ := bind_ok.1 h
  obtain ⟨_, -, h⟩ := bind_ok.1 h
  obtain ⟨_, -, h⟩ := bind_ok.1 h
  obtain ⟨⟨s1, ns⟩, -, h⟩ := bind_ok.1 h
  obtain ⟨⟨z1, c⟩, h1, h⟩ := bind_ok.1 h
  obtain ⟨t, h2, h⟩ := bind_ok.1 h
  cases h
  exact ⟨t, rfl, .unfocus (editLoop_reach hz (genLevels_pos _ _ _) h1) h2⟩

/-- Every edit leads from sequences that clients can have to such sequences. -/
def KeepsReach [RazMeta E M] (u : Usage) (edit : EvalRaz E M G → R → P (EvalRaz E M G × R)) : Prop :=
  ∀ s t rng s' rng', s.raztree = some t → t.Reachable u → edit s rng = .ok (s', rng') → ∃ t', s'.raztree = some t' ∧ t'.Reachable u

theorem insert_reach (C : Coord G E) (word : R → BitVec 64 × R) (b : Nat) : KeepsReach u (fun s rng => EvalIRaz.insert C word s b rng) := by
  intro s t rng s' rng' ht hr h
  simp only [EvalIRaz.insert, ht] at h
  obtain ⟨_, -, h⟩ := bind_ok.1 h
  obtain ⟨z, h1, h⟩ := bind_ok.1 h
  rcases z with _ | z
  · cases h
  · exact editAt_reach (.focus hr h1) h

theorem append_reach (C : Coord G E) (word : R → BitVec 64 × R) (b : Nat) : KeepsReach u (fun s rng => EvalIRaz.append C word s b rng) := by
  intro s t rng s' rng' ht hr h
  simp only [EvalIRaz.append, ht] at h
  obtain ⟨z, h1, h⟩ := bind_ok.1 h
  rcases z with _ | z
  · cases h
  · exact editAt_reach (.focus hr h1) h

theorem insertAtName_reach (C : Coord G E) (word : R → BitVec 64 × R) (order : List Name → List Name) (b : Nat) :
    KeepsReach u (fun s rng => EvalRazNameIndex.insert C word order s b rng) := by
  intro s t rng s' rng' ht hr h
  simp only [EvalRazNameIndex.insert, ht] at h
  obtain ⟨_, -, h⟩ := bind_ok.1 h
  obtain ⟨_, -, h⟩ := bind_ok.1 h
  obtain ⟨z, h1, h⟩ := bind_ok.1 h
  rcases z with _ | z
  · cases h
  · exact editAt_reach (.focus hr h1) h

theorem appendLast_reach (C : Coord G E) (word : R → BitVec 64 × R) (b : Nat) :
    KeepsReach u (fun s rng => EvalRazNameIndex.append C word s b rng) := by
  intro s t rng s' rng' ht hr h
  simp only [EvalRazNameIndex.append, ht] at h
  obtain ⟨z, h1, h⟩ := bind_ok.1 h
  rcases z with _ | z
  · cases h
  · exact editAt_reach (.focus hr h1) h

end

/-! ### The computations -/
section
open Iodyn.Incr
variable {E M F N B : Type} [RazMeta E M] [DecidableEq E] [DecidableEq M]

theorem upRun_computes [DecidableEq B] (up : Option B → TreeData E M → Nat → Option Name → Option B → P B) (p : Name) :
    Lr.Computes (upRun up p) (fun t => t.tree.foldUpMeta up) (Valid (bodies (fun _ : Unit => ⟨up, fun b _ _ _ => b⟩) (fun _ => ()))) := by
  intro σ ht t T hr _ _ hT
  have h6 := runUp_spec ⟨up, fun b _ _ _ => b⟩ hr
  obtain ⟨mt, tr⟩ := ht
  cases tr with
  | none =>
    have := h6 t.tree.size (Nat.le_refl _)
    simp only [runUp, Option.some.injEq] at this
    show Sim _ σ (t.tree.foldUpMeta up) _
    rw [← this]
    exact Sim.pure ⟨rfl, rfl, hT⟩
  | some tr =>
    simp only [runUp] at h6
    have h7 := h6 t.tree.size (Nat.le_refl _)
    simp only [Option.map_eq_some_iff] at h7
    obtain ⟨y, h7, h8⟩ := h7
    have h9 : t.tree.foldUpMeta up = y >>= fun r => Pure.pure (some r) := by
      rw [← h8]; cases y <;> rfl
    show Sim _ σ (t.tree.foldUpMeta up) _
    rw [h9]
    refine (memoFold_sim (F := fun _ : Unit => ⟨up, fun b _ _ _ => b⟩) (g := fun _ => ()) (p := p) hT (fun n hn => run_mono hn h7)).bind ?_
    rintro b ⟨a, T'⟩ σ' - ⟨q1, q2, rfl⟩
    simp only at q1 q2; subst q1
    exact Sim.pure ⟨rfl, rfl, q2⟩

theorem mapRun_computes [RazMeta F N] [DecidableEq F] [DecidableEq N] (fn : E → F) :
    Lr.Computes (mapRun (E := E) (M := M) (N := N) fn) (fun t => (t.map fn).map some) (SInv (razMapFn fn)) := by
  intro σ ht t s hr hn _ hs
  have h := razMap_sim (fn := fun _ : Unit => fn) (g := fun _ => ()) (S := fun _ => s) (fun _ => hs) .unit hr hn
  show Sim _ σ ((t.map fn).map some) _
  cases hx : (t.map fn : P (RazTree F N)) with
  | error q =>
    rw [hx] at h
    obtain ⟨f0, h⟩ := h
    exact ⟨f0, fun f hf => by unfold mapRun; rw [h f hf]⟩
  | ok b =>
    rw [hx] at h
    obtain ⟨⟨a, s'⟩, σ', ⟨f0, h⟩, rfl, h2, h3, w, h4, h5⟩ := h
    refine ⟨(some b, s'), σ', ⟨max f0 w.size, fun f hf => ?_⟩, rfl, rfl, h2⟩
    unfold mapRun
    rw [h f (by omega)]
    simp only [readTree_view h4 f (by omega)]
    simp only at h3
    rw [h3, h5]
    rfl

theorem rebuildRun_computes [RazMeta E N] [DecidableEq N] (c : Rebuild E) :
    Lr.Computes (rebuildRun (N := N) c) (fun t : RazTree E M => (c.scratch t).map RAns.rebuilt) (Up.SInv (Up.sem c)) := by
  intro σ ht t s hr hn _ hs
  have h := Up.rebuildIn_sim (g := fun _ => c) (S := fun _ => s) (fun _ => hs) .unit hr hn
  show Sim _ σ ((c.scratch t).map RAns.rebuilt) _
  cases hx : (c.scratch t : P (Option (RazTree E N))) with
  | error q =>
    rw [hx] at h
    obtain ⟨f0, h⟩ := h
    exact ⟨f0, fun f hf => by unfold rebuildRun; rw [h f hf]⟩
  | ok b =>
    rw [hx] at h
    obtain ⟨⟨a, s'⟩, σ', ⟨f0, h⟩, rfl, h2, n, h3⟩ := h
    refine ⟨(.rebuilt b, s'), σ', ⟨max f0 n, fun f hf => ?_⟩, rfl, rfl, h2⟩
    unfold rebuildRun
    rw [h f (by omega)]
    simp only [h3 f (by omega)]

end

/-! ### Sessions -/
section
open Iodyn.Incr
variable {E M G R B Sp : Type} [RazMeta E M]

/-- Every edit over the store follows the edit on values. -/
def Follows (edit : HEval M G → R → HR E M (HEval M G × R)) (edit' : EvalRaz E M G → R → P (EvalRaz E M G × R)) : Prop :=
  ∀ σ hs s rng, Holding .dcg σ hs s → Sim (edit hs rng) σ (edit' s rng) (fun b a σ' => Holding .dcg σ' a.1 b.1 ∧ a.2 = b.2)

variable {run : HTree M → Sp → HR E M (B × Sp)} {scratch : RazTree E M → P B} {Inv : Sp → Prop}

/-- The computation gives in namespaces of this kind, for trees as sessions have them, what it gives from scratch. -/
def ComputesN (run : HTree M → Sp → HR E M (B × Sp)) (scratch : RazTree E M → P B) (Inv : Sp → Prop) : Prop :=
  ∀ (σ : RMem E M) (ht : HTree M) (t : RazTree E M) (s : Sp), RepT .dcg σ ht.tree t.tree → (tN .dcg t.tree).Nodup →
    (∃ k, Numbered k (tN .dcg t.tree)) → t.Reachable .full → Inv s → Sim (run ht s) σ (scratch t) (fun b a σ' => σ' = σ ∧ a.1 = b ∧ Inv a.2)

theorem comp_sim (hc : ComputesN run scratch Inv) {σ : RMem E M} {hs : HEval M G} {s : EvalRaz E M G} (h : Holding .dcg σ hs s)
    (hr : ∃ t, s.raztree = some t ∧ t.Reachable .full) {S : Sp} (hS : Inv S) :
    Sim (HEval.comp run S hs) σ (plainly (T := Unit) (fun s => unwrap s.raztree >>= scratch) () s)
      (fun b a σ' => σ' = σ ∧ Inv a.1 ∧ a.2 = b.2) := by
  obtain ⟨h1, t, ht, hk, hn⟩ := h
  obtain ⟨t', ht', hr⟩ := hr
  rw [ht] at ht'; cases ht'
  rcases h1.tree with ⟨-, h2⟩ | ⟨hT, t', h3, h2, h4⟩
  · rw [h2] at ht; cases ht
  · rw [h2] at ht; cases ht
    unfold HEval.comp plainly
    beta_reduce
    rw [h3, h2]
    show Sim (run hT S >>= fun x => Pure.pure (x.2, x.1)) σ (scratch t >>= fun o => Pure.pure ((), o)) _
    refine (hc σ hT t S h4.tree hn ⟨_, hk⟩ hr hS).bind ?_
    rintro b ⟨a, S'⟩ σ' - ⟨rfl, rfl, g⟩
    exact Sim.pure ⟨rfl, g, rfl⟩

theorem testLoop_sim (hc : ComputesN run scratch Inv) {edit : HEval M G → R → HR E M (HEval M G × R)}
    {edit' : EvalRaz E M G → R → P (EvalRaz E M G × R)} (he : Follows edit edit') (hk : KeepsReach .full edit') :
    ∀ (n : Nat) {σ : RMem E M} {hs : HEval M G} {s : EvalRaz E M G} (_ : Holding .dcg σ hs s)
      (_ : ∃ t, s.raztree = some t ∧ t.Reachable .full) {S : Sp} (_ : Inv S) (rng : R),
      Sim (testLoop edit (HEval.comp run) n hs S rng) σ
        (Eval.testLoop edit' (plainly (T := Unit) (fun s => unwrap s.raztree >>= scratch)) n s () rng)
        (fun b a _ => a = (b.1.map Prod.snd, b.2)) := by
  intro n
  induction n with
  | zero => intro σ hs s h hr S hS rng; exact Sim.pure rfl
  | succ n ih =>
    intro σ hs s h hr S hS rng
    unfold testLoop Eval.testLoop
    refine (he σ hs s rng h).bind ?_
    rintro ⟨s1, r1⟩ ⟨hs1, r1'⟩ σ1 hx ⟨h1, rfl⟩
    obtain ⟨t, ht, hr⟩ := hr
    have hr1 := hk _ _ _ _ _ ht hr hx
    refine (comp_sim hc h1 hr1 hS).bind ?_
    rintro ⟨u, b⟩ ⟨S1, b'⟩ σ2 - ⟨rfl, h2, h3⟩
    simp only at h2 h3 ⊢
    subst h3
    refine (ih h1 hr1 h2 r1').bind ?_
    rintro ⟨bs, r2⟩ ⟨bs', r2'⟩ σ3 - h4
    cases h4
    exact Sim.pure rfl

theorem session_simN (hc : ComputesN run scratch Inv) {edit : HEval M G → R → HR E M (HEval M G × R)}
    {edit' : EvalRaz E M G → R → P (EvalRaz E M G × R)} (he : Follows edit edit') (hk : KeepsReach .full edit')
    (C : Coord G E) (word : R → BitVec 64 × R) (p : Params) (coord : G) (rng : R) {new : Sp} (hS : Inv new) :
    Ends (sessionH C word p coord rng edit run new) (sessionV C word p coord rng edit' scratch) := by
  have key : Sim (sessionH C word p coord rng edit run new) Store.empty
      (Eval.test (createRaz C word p coord) edit' (plainly (T := Unit) (fun s => unwrap s.raztree >>= scratch)) p.changes () rng)
      (fun b a _ => a = (b.1.map Prod.snd, b.2)) := by
    unfold sessionH test Eval.test createRaz
    refine (incInit_sim C word _ _ _ coord rng _).bind ?_
    rintro ⟨s1, r1⟩ ⟨hs1, r1'⟩ σ1 hx ⟨h1, h2, h3⟩
    simp only at h1 h2 h3 ⊢
    subst h2
    have hr1 := incInit_reach (u := .full) hx
    refine (comp_sim hc ⟨h1, h3⟩ hr1 hS).bind ?_
    rintro ⟨u, b⟩ ⟨S1, b'⟩ σ2 - ⟨rfl, g2, g3⟩
    simp only at g2 g3 ⊢
    subst g3
    refine (testLoop_sim hc he hk _ ⟨h1, h3⟩ hr1 g2 r1').bind ?_
    rintro ⟨bs, r2⟩ ⟨bs', r2'⟩ σ3 - h4
    cases h4
    exact Sim.pure rfl
  unfold sessionV
  cases hx : Eval.test (createRaz C word p coord) edit' (plainly (T := Unit) (fun s => unwrap s.raztree >>= scratch)) p.changes () rng with
  | error q =>
    rw [hx] at key
    obtain ⟨f0, h⟩ := key
    exact ⟨f0, fun f hf => by rw [h f hf]; rfl⟩
  | ok x =>
    rw [hx] at key
    obtain ⟨a, σ', ⟨f0, h⟩, rfl⟩ := key
    exact ⟨f0, fun f hf => by rw [h f hf]; rfl⟩

theorem session_sim (hc : Lr.Computes run scratch Inv) {edit : HEval M G → R → HR E M (HEval M G × R)}
    {edit' : EvalRaz E M G → R → P (EvalRaz E M G × R)} (he : Follows edit edit') (hk : KeepsReach .full edit')
    (C : Coord G E) (word : R → BitVec 64 × R) (p : Params) (coord : G) (rng : R) {new : Sp} (hS : Inv new) :
    Ends (sessionH C word p coord rng edit run new) (sessionV C word p coord rng edit' scratch) :=
  session_simN (fun σ ht t s h1 h2 _ h3 h4 => hc σ ht t s h1 h2 h3 h4) he hk C word p coord rng hS

theorem editH_follows (C : Coord G E) (word : R → BitVec 64 × R) (o : Edit) :
    Follows (editH C word o) (fun s rng => o.run C word s rng) := by
  intro σ hs s rng h
  cases o with
  | insert b => exact insert_sim C word h b rng
  | append b => exact append_sim C word h b rng

theorem editH_reach (C : Coord G E) (word : R → BitVec 64 × R) (o : Edit) : KeepsReach .full (fun s (rng : R) => o.run C word s rng) := by
  cases o with
  | insert b => exact insert_reach C word b
  | append b => exact append_reach C word b

theorem editHN_follows (C : Coord G E) (word : R → BitVec 64 × R) (order : R → List Name → List Name) (o : Edit) :
    Follows (editHN C word order o) (fun s rng => o.runN C word (order rng) s rng) := by
  intro σ hs s rng h
  cases o with
  | insert b => exact insertAtName_sim C word (order rng) h b rng
  | append b => exact appendLast_sim C word h b rng

theorem editHN_reach (C : Coord G E) (word : R → BitVec 64 × R) (order : R → List Name → List Name) (o : Edit) :
    KeepsReach .full (fun s (rng : R) => o.runN C word (order rng) s rng) := by
  cases o with
  | insert b =>
    intro s t rng s' rng' ht hr h
    exact insertAtName_reach C word (order rng) b s t rng s' rng' ht hr h
  | append b => exact appendLast_reach C word b

end

end Iodyn.Heap
