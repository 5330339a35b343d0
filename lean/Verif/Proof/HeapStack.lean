import Verif.Proof.HeapCursor
import Mathlib.Data.List.Nodup
/-
The stacks of the store model simulate those of the functional model.
-/
namespace Iodyn.Heap
variable [Spaces] {D X E M A B C : Type}

/-- Multiset inclusion of names. -/
def Sub (a b : List Name) : Prop := ∀ x, a.count x ≤ b.count x

theorem Sub.refl (a : List Name) : Sub a a := fun _ => Nat.le_refl _
theorem Sub.trans {a b c : List Name} (h : Sub a b) (h' : Sub b c) : Sub a c := fun x => Nat.le_trans (h x) (h' x)
theorem Sub.nodup {a b : List Name} (h : Sub a b) (hb : b.Nodup) : a.Nodup :=
  List.nodup_iff_count_le_one.2 (fun x => Nat.le_trans (h x) (List.nodup_iff_count_le_one.1 hb x))
theorem Sub.subset {a b : List Name} (h : Sub a b) : a ⊆ b := by
  intro x hx
  have := List.count_pos_iff.2 hx
  exact List.count_pos_iff.1 (Nat.lt_of_lt_of_le this (h x))
theorem Sub.app {a b c d : List Name} (h : Sub a c) (h' : Sub b d) : Sub (a ++ b) (c ++ d) := by
  intro x; have := h x; have := h' x; simp only [List.count_append]; omega

/-- The handle `h` stands for the stack `s`. -/
def RepS (e : Engine) (σ : Mem D X) : Option Head → Stack X → Prop
  | h, [] => h = none
  | h, (n, x) :: s => ∃ k h', h = some ⟨n, k⟩ ∧ LinkOK e σ n k ∧ σ.cells k = some (.body x h') ∧ RepS e σ h' s

/-- Named cells of a stack. -/
def sN (e : Engine) : Stack X → List Name
  | [] => []
  | (n, _) :: s => nm e n ++ sN e s

/-- The name of the tree node made from a stack entry (src/raz.rs:482). -/
def tnm (n : Option Name) : Option Name := n.map (fun n => .pair n (.str "tree"))

/-- Named tree cells that `unfocus` will make for the entries of a stack. -/
def pN (e : Engine) : Stack X → List Name
  | [] => []
  | (n, _) :: s => nm e (tnm n) ++ pN e s

theorem RepS.keep {e : Engine} {σ σ' : Mem D X} {N : List Name} (hk : Keeps N σ σ') :
    ∀ {s : Stack X} {h : Option Head}, RepS e σ h s → Dis (sN e s) N → RepS e σ' h s := by
  intro s
  induction s with
  | nil => intro h hr _; exact hr
  | cons p s ih =>
    obtain ⟨n, x⟩ := p
    rintro h ⟨k, h', rfl, h1, h2, h3⟩ hd
    refine ⟨k, h', rfl, h1.keep hk, ?_, ih h3 (hd.mono (by simp [sN]) (List.Subset.refl _))⟩
    rw [h1.cell hk (hd.mono (by simp [sN]) (List.Subset.refl _)), h2]

theorem pushOnto_run (e : Engine) (tail : Option Head) (n : Option Name) (x : X) (σ : Mem D X) :
    ∃ k σ', (∀ f, pushOnto e tail n x f σ = .ok (⟨n, k⟩, σ')) ∧ LinkOK e σ' n k ∧
      σ'.cells k = some (.body x tail) ∧ Keeps (nm e n) σ σ' := by
  cases n with
  | none =>
    refine ⟨.anon σ.next, _, fun f => rfl, ?_, by simp [Store.set], ?_⟩
    · cases e <;> exact ⟨σ.next, rfl, Nat.lt_succ_self _⟩
    · refine ⟨Nat.le_succ _, rfl, fun k hk => ?_, fun m _ => ?_, fun m q _ => ?_⟩
      · have : k ≠ σ.next := by omega
        simp [Store.set, this]
      · simp [Store.set]
      · simp [Store.set]
  | some m =>
    cases e with
    | naive =>
      refine ⟨.anon σ.next, _, fun f => rfl, ?_, by simp [Store.set], ?_⟩
      · exact ⟨σ.next, rfl, Nat.lt_succ_self _⟩
      · refine ⟨Nat.le_succ _, rfl, fun k hk => ?_, fun m _ => ?_, fun m q _ => ?_⟩
        · have : k ≠ σ.next := by omega
          simp [Store.set, this]
        · simp [Store.set]
        · simp [Store.set]
    | dcg =>
      refine ⟨.named m σ.path, _, fun f => rfl, ⟨_, .inl rfl, rfl⟩, by simp [Store.set], ?_⟩
      refine ⟨Nat.le_refl _, rfl, fun k hk => by simp [Store.set], fun x hx => ?_, fun x q hq => by simp [Store.set, hq]⟩
      have : x ≠ m := by simpa [nm] using hx
      simp [Store.set, this]

theorem forceBody_run {k : Loc} {σ : Mem D X} {x : X} {h : Option Head} (hc : σ.cells k = some (.body x h)) :
    ∀ f, forceBody k f σ = .ok ((x, h), σ) := by
  intro f; simp [forceBody, hc]

theorem stackPeek_run {e : Engine} {σ : Mem D X} {h : Option Head} {s : Stack X} (hr : RepS e σ h s) :
    ∀ f, stackPeek h f σ = .ok (s.peek, σ) := by
  intro f
  rcases s with _ | ⟨⟨n, x⟩, s⟩
  · cases hr; rfl
  · obtain ⟨k, h', rfl, h1, h2, h3⟩ := hr
    exact run_ok (forceBody_run h2 f)

theorem stackPull_run {e : Engine} {σ : Mem D X} {h : Option Head} {s : Stack X} (hr : RepS e σ h s) :
    ∃ o, (∀ f, stackPull h f σ = .ok (o, σ)) ∧ ((o = none ∧ s.pull = none) ∨ ∃ h' s', o = some h' ∧ s.pull = some s' ∧ RepS e σ h' s') := by
  rcases s with _ | ⟨⟨n, x⟩, s⟩
  · cases hr; exact ⟨none, fun f => rfl, .inl ⟨rfl, rfl⟩⟩
  · obtain ⟨k, h', rfl, h1, h2, h3⟩ := hr
    exact ⟨some h', fun f => run_ok (forceBody_run h2 f), .inr ⟨h', s, rfl, rfl, h3⟩⟩

/-- Archive stacks. -/
structure RepA (e : Engine) (σ : Mem D (Nat × List E)) (hs : ASt E) (s : AStack E Nat) : Prop where
  cur : hs.current = s.current
  arch : RepS e σ hs.archived s.archived

theorem RepA.keep {e : Engine} {σ σ' : Mem D (Nat × List E)} {N : List Name} (hk : Keeps N σ σ') {hs : ASt E} {s : AStack E Nat}
    (h : RepA e σ hs s) (hd : Dis (sN e s.archived) N) : RepA e σ' hs s := ⟨h.cur, h.arch.keep hk hd⟩

section
variable {e : Engine} {σ : Mem D (Nat × List E)} {hs : ASt E} {s : AStack E Nat}

theorem RepS.isNone {h : Option Head} {t : Stack X} {σ : Mem D X} (hr : RepS e σ h t) : h.isNone = t.isEmpty := by
  rcases t with _ | ⟨⟨n, x⟩, t⟩
  · cases hr; rfl
  · obtain ⟨k, h', rfl, _⟩ := hr; rfl

theorem RepA.isEmpty (h : RepA e σ hs s) : hs.isEmpty = s.isEmpty := by
  simp only [ASt.isEmpty, AStack.isEmpty, h.cur, h.arch.isNone]

theorem RepA.name (h : RepA e σ hs s) : hs.name = s.name := by
  obtain ⟨cur, arch⟩ := s
  obtain ⟨hcur, harch⟩ := hs
  have h2 := h.arch
  simp only at h2
  rcases arch with _ | ⟨⟨n, x⟩, t⟩
  · cases h2; rfl
  · obtain ⟨k, h', rfl, _⟩ := h2; rfl

theorem RepA.treeName (h : RepA e σ hs s) : HRaz.treeName hs = Raz.treeName s := by
  simp only [HRaz.treeName, Raz.treeName, h.name]

theorem nextArchive_run (h : RepA e σ hs s) : ∃ hs', (∀ f, hs.nextArchive f σ = .ok ((hs', s.nextArchive.2), σ)) ∧
    RepA e σ hs' s.nextArchive.1 := by
  have hem := h.isEmpty
  obtain ⟨cur, arch⟩ := s
  obtain ⟨hcur, harch⟩ := hs
  obtain ⟨h1, h2⟩ := h
  simp only at h1 h2
  subst h1
  unfold ASt.nextArchive AStack.nextArchive
  rw [hem]
  cases he : (AStack.isEmpty ⟨hcur, arch⟩ : Bool) with
  | true => exact ⟨⟨hcur, harch⟩, fun f => rfl, rfl, h2⟩
  | false =>
    rcases arch with _ | ⟨⟨n, m, v⟩, t⟩
    · cases h2
      exact ⟨⟨[], none⟩, fun f => rfl, rfl, rfl⟩
    · obtain ⟨k, h', rfl, h3, h4, h5⟩ := h2
      refine ⟨⟨v, h'⟩, fun f => ?_, rfl, h5⟩
      simp only [Bool.false_eq_true, if_false, Option.isNone]
      refine (run_ok (run_ok (forceBody_run h4 f))).trans ?_
      refine (run_ok (a := (m, v)) (σ' := σ) rfl).trans ?_
      refine (run_ok (run_ok (forceBody_run h4 f))).trans ?_
      rfl

theorem pop_sim (h : RepA e σ hs s) : Sim hs.pop σ s.pop (fun b a σ' => RepA e σ a.1 b.1 ∧ a.2 = b.2 ∧ σ' = σ) := by
  have hem := h.isEmpty
  obtain ⟨cur, arch⟩ := s
  obtain ⟨hcur, harch⟩ := hs
  obtain ⟨h1, h2⟩ := h
  simp only at h1 h2
  subst h1
  unfold ASt.pop AStack.pop
  rw [hem]
  split
  · exact Sim.pure ⟨⟨rfl, h2⟩, rfl, rfl⟩
  · refine Sim.bind (R := fun b a σ' => RepA e σ a b.1 ∧ σ' = σ) ?_ ?_
    · unfold ASt.retrieve AStack.retrieve
      simp only
      split
      · refine Sim.step (stackPeek_run h2) (Sim.liftBind ?_)
        rintro ⟨m, v⟩ -
        obtain ⟨o, ho, hcase⟩ := stackPull_run h2
        refine Sim.step ho ?_
        rcases hcase with ⟨rfl, hp⟩ | ⟨h', s', rfl, hp, hr⟩
        · rw [hp]; exact Sim.error
        · rw [hp]; exact Sim.pure ⟨⟨rfl, hr⟩, rfl⟩
      · exact Sim.pure ⟨⟨rfl, h2⟩, rfl⟩
    · rintro ⟨b, m⟩ a σ' - ⟨h3, rfl⟩
      refine Sim.pure ⟨⟨?_, h3.arch⟩, ?_, rfl⟩
      · simp only [AStack.popCurrent, h3.cur]
      · simp only [AStack.popCurrent, h3.cur]

theorem peek_sim (h : RepA e σ hs s) : Sim hs.peek σ s.peek (fun b a σ' => a = b ∧ σ' = σ) := by
  have hem := h.isEmpty
  obtain ⟨cur, arch⟩ := s
  obtain ⟨hcur, harch⟩ := hs
  obtain ⟨h1, h2⟩ := h
  simp only at h1 h2
  subst h1
  unfold ASt.peek AStack.peek
  rw [hem]
  split
  · exact Sim.pure ⟨rfl, rfl⟩
  · simp only
    split
    · refine Sim.step (stackPeek_run h2) (Sim.liftBind ?_)
      rintro ⟨m, v⟩ -
      refine Sim.liftBind ?_
      rintro x -
      exact Sim.pure ⟨rfl, rfl⟩
    · refine Sim.liftBind ?_
      rintro x -
      exact Sim.pure ⟨rfl, rfl⟩

theorem archive_run (h : RepA e σ hs s) (name : Option Name) (m : Nat) (hd : Dis (sN e s.archived) (nm e name)) :
    ∃ hs' σ', (∀ f, hs.archive e name m f σ = .ok (hs', σ')) ∧ RepA e σ' hs' (s.archive name m).1 ∧ Keeps (nm e name) σ σ' := by
  obtain ⟨cur, arch⟩ := s
  obtain ⟨hcur, harch⟩ := hs
  obtain ⟨h1, h2⟩ := h
  simp only at h1 h2 hd
  subst h1
  unfold ASt.archive AStack.archive
  simp only
  split
  · exact ⟨_, σ, fun f => rfl, ⟨rfl, h2⟩, Keeps.refl _ _⟩
  · obtain ⟨k, σ', hrun, g1, g2, g3⟩ := pushOnto_run e harch name (m, hcur) σ
    refine ⟨_, σ', fun f => run_ok (hrun f), ⟨rfl, ?_⟩, g3⟩
    exact ⟨k, harch, rfl, g1, g2, h2.keep g3 hd⟩

end

/-! ### Names of stacks -/

/-- All names of an archive stack: its cells and the tree cells made from them. -/
def aN (e : Engine) (s : AStack E Nat) : List Name := sN e s.archived ++ pN e s.archived

/-- What is left after `next_archive`. -/
theorem aN_nextArchive (e : Engine) (s : AStack E Nat) :
    ∀ x, (sN e s.nextArchive.1.archived).count x ≤ (sN e s.archived).count x ∧
      (nm e (Raz.treeName s)).count x + (pN e s.nextArchive.1.archived).count x = (pN e s.archived).count x := by
  obtain ⟨cur, arch⟩ := s
  intro x
  unfold AStack.nextArchive
  split
  · rename_i he
    simp only [AStack.isEmpty, Bool.and_eq_true] at he
    have : arch = [] := by simpa [Stack.isEmpty] using he.2
    subst this
    cases e <;> simp [sN, pN, Raz.treeName, AStack.name, Stack.name, nm]
  · rcases arch with _ | ⟨⟨n, m, v⟩, t⟩
    · cases e <;> simp [sN, pN, Raz.treeName, AStack.name, Stack.name, nm]
    · simp [sN, pN, Raz.treeName, AStack.name, Stack.name, tnm]

theorem aN_pop {e : Engine} {s s' : AStack E Nat} {o} (h : s.pop = .ok (s', o)) : Sub (aN e s') (aN e s) := by
  obtain ⟨cur, arch⟩ := s
  unfold AStack.pop at h
  split at h
  · cases h; exact Sub.refl _
  · unfold AStack.retrieve at h
    split at h
    · rcases arch with _ | ⟨⟨n, m, v⟩, t⟩
      · cases h
      · simp only [Stack.peek, Stack.pull, unwrap, bind, Except.bind, pure, Except.pure, AStack.popCurrent] at h
        cases h
        intro x
        simp only [aN, sN, pN, List.count_append]
        omega
    · simp only [bind, Except.bind, pure, Except.pure, AStack.popCurrent] at h
      cases h; exact Sub.refl _

theorem aN_archive (e : Engine) (s : AStack E Nat) (n : Option Name) (m : Nat) :
    Sub (aN e (s.archive n m).1) (aN e s ++ (nm e n ++ nm e (tnm n))) := by
  unfold AStack.archive
  intro x
  split
  · simp only [List.count_append]; omega
  · simp only [aN, sN, pN, Stack.push, List.count_append]; omega

end Iodyn.Heap
