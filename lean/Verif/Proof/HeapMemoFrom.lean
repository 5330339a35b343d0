import Verif.Model.HeapMemoFrom
import Verif.Model.MemoFrom
import Verif.Proof.HeapRaz
/-
`memo_from` over the store makes the tree of the functional model.
-/
namespace Iodyn.Heap
variable {D X A B C : Type} {E M : Type} [RazMeta E M] {e : Engine}

/-- A loop, then another computation with the same bound. -/
theorem SimL.bindL {m : Nat → H D X A} {k : A → Nat → H D X C} {σ : Mem D X} {x : P B} {B' : Type} {kx : B → P B'}
    {R : B → A → Mem D X → Prop} {S : B' → C → Mem D X → Prop} (h : SimL m σ x R)
    (hk : ∀ b a σ', x = .ok b → R b a σ' → SimL (k a) σ' (kx b) S) :
    SimL (fun n => m n >>= fun a => k a n) σ (x >>= kx) S := by
  cases x with
  | error p =>
    obtain ⟨f0, hf⟩ := h
    exact ⟨f0, fun n f hn hle => run_err (hf n f hn hle)⟩
  | ok b =>
    obtain ⟨a, σ', ⟨f0, hf⟩, hr⟩ := h
    have h2 := hk b a σ' rfl hr
    have e1 : ∀ n f, f0 ≤ n → f0 ≤ f → (m n >>= fun a => k a n) f σ = k a n f σ' := fun n f hn hle => run_ok (hf n f hn hle)
    show SimL _ σ (kx b) S
    cases hx : kx b with
    | error p =>
      rw [hx] at h2
      obtain ⟨f1, hf1⟩ := h2
      exact ⟨max f0 f1, fun n f hn hle => (e1 n f (by omega) (by omega)).trans (hf1 n f (by omega) (by omega))⟩
    | ok c =>
      rw [hx] at h2
      obtain ⟨c', σ2, ⟨f1, hf1⟩, hs⟩ := h2
      exact ⟨c', σ2, ⟨max f0 f1, fun n f hn hle => (e1 n f (by omega) (by omega)).trans (hf1 n f (by omega) (by omega))⟩, hs⟩

theorem bin_sim {σ : RMem E M} {h1 h2 : Tr} {t1 t2 : Tree (TreeData E M)} (r1 : RepT e σ (some h1) t1) (r2 : RepT e σ (some h2) t2)
    (lv : Nat) (n : Option Name) (hn : (tN e t1 ++ (nm e n ++ tN e t2)).Nodup) :
    Sim (bin e h1 lv n h2) σ (Iodyn.bin t1 lv n t2) (fun b a σ' => RepT e σ' (some a) b ∧ tN e b = tN e t1 ++ (nm e n ++ tN e t2) ∧
      Keeps (nm e n) σ σ' ∧ levelOr0 b = lv) := by
  have cnt := nodup_count hn
  simp only [List.count_append] at cnt
  have d1 : Dis (tN e t1) (nm e n) := dis_count fun x => by have := cnt x; omega
  have d2 : Dis (tN e t2) (nm e n) := dis_count fun x => by have := cnt x; omega
  cases t1 with
  | nil => cases r1
  | node lv1 n1 a1 l1 rr1 =>
  cases t2 with
  | nil => cases r2
  | node lv2 n2 a2 l2 rr2 =>
  have p1 := r1
  have p2 := r2
  obtain ⟨k1, hl1, hr1, q1, -, c1, -⟩ := p1
  obtain ⟨k2, hl2, hr2, q2, -, c2, -⟩ := p2
  unfold bin Iodyn.bin
  refine Sim.step (peek_run (h := h1) (by cases q1; exact c1)) ?_
  refine Sim.step (peek_run (h := h2) (by cases q2; exact c2)) ?_
  refine Sim.liftBind ?_
  intro td _
  obtain ⟨k, σ', hrun, g1, g2, g3⟩ := newTree_run e lv n td (some h1) (some h2) σ
  exact ⟨_, σ', ⟨0, fun f _ => hrun f⟩, RepT.new g1 g2 g3 r1 r2 d1 d2, rfl, g3, rfl⟩

/-- The result of `from_stack`, from the accumulated tree `accum`, the pending name `fn` and the stack `s`; `N` bounds
what is left of the stack. The cells of the stack may be in the namespaces `Q` too, those of the tree are in the current one. -/
structure FromOK (Q : NsPath → Prop) (e : Engine) (σ : RMem E M) (accum : Tree (TreeData E M)) (fn : Option Name) (s : AStack E Nat) (N : Nat)
    (b : FromStackRes E M) (a : FromRes E) (σ' : RMem E M) : Prop where
  stack : @RepA ⟨Q⟩ _ E e σ' a.1 b.1
  level : a.2.1 = b.2.1
  name : a.2.2.1 = b.2.2.1
  tree : RepT e σ' (some a.2.2.2) b.2.2.2
  names : Sub (tN e b.2.2.2 ++ (nm e b.2.2.1 ++ sN e b.1.archived)) (tN e accum ++ (nm e fn ++ sN e s.archived))
  keeps : Keeps (nm e fn ++ sN e s.archived) σ σ'
  less : ∀ l, b.2.1 = some l → b.1.archived.length < N

omit [RazMeta E M] in
theorem RepT.levelOr0 {σ : RMem E M} {h : Tr} {t : Tree (TreeData E M)} (r : RepT e σ (some h) t) : h.level = Iodyn.levelOr0 t := by
  have := r.level
  simp only [Option.map_some] at this
  simp only [Iodyn.levelOr0, ← this, Option.getD]

omit [RazMeta E M] in
/-- What `next_archive` leaves of the names. -/
theorem nextArchive_names (e : Engine) (s : AStack E Nat) (x : Name) :
    (nm e s.name).count x + (sN e s.nextArchive.1.archived).count x = (sN e s.archived).count x := by
  obtain ⟨cur, arch⟩ := s
  rcases arch with _ | ⟨⟨n, m, v⟩, rest⟩
  · unfold AStack.nextArchive
    split
    · cases e <;> simp [AStack.name, nm, sN, Stack.name]
    · cases e <;> simp [AStack.name, nm, sN, Stack.name]
  · simp [AStack.nextArchive, AStack.isEmpty, AStack.name, sN, Stack.name, Stack.isEmpty]

omit [RazMeta E M] in
theorem nextArchive_less {s s' : AStack E Nat} {v : List E} {l : Nat} (h : s.nextArchive = (s', some (v, some l))) :
    s'.archived.length + 1 = s.archived.length := by
  obtain ⟨cur, arch⟩ := s
  rcases arch with _ | ⟨⟨n, m, w⟩, rest⟩
  · unfold AStack.nextArchive at h
    split at h <;> simp at h
  · simp [AStack.nextArchive, AStack.isEmpty, Stack.isEmpty] at h
    simp [← h.1]

theorem fromStackTail_sim {Q : NsPath → Prop} : ∀ (k : Nat) {s : AStack E Nat} {σ : RMem E M} {hs : ASt E} {first : Nat} {fn : Option Name} {ht : Tr}
    {accum : Tree (TreeData E M)} {max : Nat}, s.archived.length + 1 ≤ k → @RepA ⟨Q⟩ _ E e σ hs s → RepT e σ (some ht) accum →
    (tN e accum ++ (nm e fn ++ sN e s.archived)).Nodup →
    SimL (fun n => fromStackTailN e n hs first fn ht max) σ (fromStackTail k s first fn accum max) (FromOK Q e σ accum fn s s.archived.length) := by
  intro k
  induction k with
  | zero => intro s σ hs first fn ht accum max h; omega
  | succ k ih =>
    intro s σ hs first fn ht accum max hk hA hT hn
    have cnt := nodup_count hn
    simp only [List.count_append] at cnt
    have hna := nextArchive_names e s
    obtain ⟨hs', hrun, hA'⟩ := @nextArchive_run ⟨Q⟩ _ _ _ _ _ _ hA
    refine SimL.shift ?_
    unfold fromStackTail fromStackTailN
    rw [hT.levelOr0, @RepA.name ⟨Q⟩ _ _ _ _ _ _ hA]
    refine SimL.liftBind' ?_
    intro _ _
    refine SimL.liftBind' ?_
    intro _ _
    refine SimL.step' hrun ?_
    rcases hs' : s.nextArchive with ⟨s', _ | ⟨vec, nl⟩⟩
    · exact SimL.const Sim.error
    · rw [hs'] at hA' hna
      simp only at hA' hna ⊢
      obtain ⟨hl, σ1, hrun1, hT1, hk1⟩ := leaf_run (e := e) (M := M) vec σ
      refine SimL.step' hrun1 ?_
      have hA1 := @RepA.keep ⟨Q⟩ _ _ _ _ _ _ hk1 _ _ hA' (by simp [Dis])
      have hT' := hT.keep hk1 (by simp [Dis])
      refine SimL.bindL (R := FromOK Q e σ1 (Iodyn.leaf vec none) s.name s' s.archived.length) ?_ ?_
      · rcases nl with _ | lev
        · refine SimL.const (Sim.pure ⟨@RepA.mk ⟨Q⟩ _ _ _ _ _ _ rfl rfl, rfl, rfl, hT1, ?_, Keeps.refl _ _, by simp⟩)
          intro x
          cases e <;> simp [nm, sN, AStack.new]
        · simp only
          have hless := nextArchive_less hs'
          split
          · refine (ih (by omega) hA1 hT1 ?_).mono ?_
            · rw [tN_leaf]
              refine count_nodup fun x => ?_
              have := cnt x; have := hna x
              simp only [List.nil_append, List.count_append]; omega
            · rintro b a σ' - h
              exact ⟨h.stack, h.level, h.name, h.tree, h.names, h.keeps, fun l hl => by have := h.less l hl; omega⟩
          · refine SimL.const (Sim.pure ⟨hA1, rfl, rfl, hT1, Sub.refl _, Keeps.refl _ _, ?_⟩)
            intro l _
            simp only; omega
      · rintro ⟨b1, b2, b3, b4⟩ ⟨a1, a2, a3, a4⟩ σ2 - ⟨g1, g2, g3, g4, g5, g6, g7⟩
        simp only at g1 g2 g3 g4 g5 g7 ⊢
        subst g2 g3
        rw [tN_leaf] at g5
        have hT2 := hT'.keep g6 (dis_count fun x => by
          have := cnt x; have := hna x; simp only [List.count_append]; omega)
        have cnt2 : ∀ x, (tN e b4).count x + ((nm e a3).count x + (sN e b1.archived).count x) ≤ (sN e s.archived).count x := fun x => by
          have h5 := g5 x; have := hna x
          simp only [List.nil_append, List.count_append] at h5; omega
        have keep1 : Keeps (nm e fn ++ sN e s.archived) σ σ2 := (hk1.mono (by simp)).trans (g6.mono (Sub.subset fun x => by
          have := hna x; simp only [List.count_append]; omega))
        refine SimL.bind' (bin_sim g4 hT2 first fn ?_) ?_
        · refine count_nodup fun x => ?_
          have := cnt x; have := cnt2 x
          simp only [List.count_append]
          omega
        · rintro t nt σ3 - ⟨q1, q2, q3, -⟩
          have hA3 := @RepA.keep ⟨Q⟩ _ _ _ _ _ _ q3 _ _ g1 (dis_count fun x => by
            have := cnt x; have := cnt2 x; omega)
          have keep2 := keep1.trans (q3.mono (List.subset_append_left _ (sN e s.archived)))
          have cnt3 : ∀ x, (tN e t).count x = (tN e b4).count x + ((nm e fn).count x + (tN e accum).count x) := fun x => by
            rw [q2]; simp only [List.count_append]
          rcases a2 with _ | lev
          · refine SimL.const (Sim.pure ⟨@RepA.mk ⟨Q⟩ _ _ _ _ _ _ rfl rfl, rfl, rfl, q1, ?_, keep2, by simp⟩)
            intro x
            have := cnt3 x; have := cnt2 x
            have : (nm e (none : Option Name)).count x = 0 := by cases e <;> simp [nm]
            simp only [List.count_append, AStack.new, sN, List.count_nil]; omega
          · have hless := g7 lev rfl
            simp only
            split
            · refine (ih (by omega) hA3 q1 ?_).mono ?_
              · refine count_nodup fun x => ?_
                have := cnt x; have := cnt3 x; have := cnt2 x
                simp only [List.count_append]; omega
              · rintro b a σ4 - h
                refine ⟨h.stack, h.level, h.name, h.tree, ?_, keep2.trans (h.keeps.mono ?_), fun l hl => by have := h.less l hl; omega⟩
                · refine h.names.trans fun x => ?_
                  have := cnt3 x; have := cnt2 x
                  simp only [List.count_append]; omega
                · refine Sub.subset fun x => ?_
                  have := cnt2 x
                  simp only [List.count_append]; omega
            · refine SimL.const (Sim.pure ⟨hA3, rfl, rfl, q1, ?_, keep2, fun l _ => hless⟩)
              intro x
              have := cnt3 x; have := cnt2 x
              simp only [List.count_append]; omega

theorem fromStackHead_sim {Q : NsPath → Prop} : ∀ (k : Nat) {s : AStack E Nat} {σ : RMem E M} {hs : ASt E} {first : Nat} {fn : Option Name} {ht : Tr}
    {accum : Tree (TreeData E M)} {max : Nat}, s.archived.length + 1 ≤ k → @RepA ⟨Q⟩ _ E e σ hs s → RepT e σ (some ht) accum →
    (tN e accum ++ (nm e fn ++ sN e s.archived)).Nodup →
    SimL (fun n => fromStackHeadN e n hs first fn ht max) σ (fromStackHead k s first fn accum max) (FromOK Q e σ accum fn s s.archived.length) := by
  intro k
  induction k with
  | zero => intro s σ hs first fn ht accum max h; omega
  | succ k ih =>
    intro s σ hs first fn ht accum max hk hA hT hn
    have cnt := nodup_count hn
    simp only [List.count_append] at cnt
    have hna := nextArchive_names e s
    obtain ⟨hs', hrun, hA'⟩ := @nextArchive_run ⟨Q⟩ _ _ _ _ _ _ hA
    refine SimL.shift ?_
    unfold fromStackHead fromStackHeadN
    rw [hT.levelOr0, @RepA.name ⟨Q⟩ _ _ _ _ _ _ hA]
    refine SimL.liftBind' ?_
    intro _ _
    refine SimL.liftBind' ?_
    intro _ _
    refine SimL.step' hrun ?_
    rcases hs' : s.nextArchive with ⟨s', _ | ⟨vec, nl⟩⟩
    · exact SimL.const Sim.error
    · rw [hs'] at hA' hna
      simp only at hA' hna ⊢
      obtain ⟨hl, σ1, hrun1, hT1, hk1⟩ := leaf_run (e := e) (M := M) vec.reverse σ
      refine SimL.step' hrun1 ?_
      have hA1 := @RepA.keep ⟨Q⟩ _ _ _ _ _ _ hk1 _ _ hA' (by simp [Dis])
      have hT' := hT.keep hk1 (by simp [Dis])
      refine SimL.bindL (R := FromOK Q e σ1 (Iodyn.leaf vec.reverse none) s.name s' s.archived.length) ?_ ?_
      · rcases nl with _ | lev
        · refine SimL.const (Sim.pure ⟨@RepA.mk ⟨Q⟩ _ _ _ _ _ _ rfl rfl, rfl, rfl, hT1, ?_, Keeps.refl _ _, by simp⟩)
          intro x
          cases e <;> simp [nm, sN, AStack.new]
        · simp only
          have hless := nextArchive_less hs'
          split
          · refine (ih (by omega) hA1 hT1 ?_).mono ?_
            · rw [tN_leaf]
              refine count_nodup fun x => ?_
              have := cnt x; have := hna x
              simp only [List.nil_append, List.count_append]; omega
            · rintro b a σ' - h
              exact ⟨h.stack, h.level, h.name, h.tree, h.names, h.keeps, fun l hl => by have := h.less l hl; omega⟩
          · refine SimL.const (Sim.pure ⟨hA1, rfl, rfl, hT1, Sub.refl _, Keeps.refl _ _, ?_⟩)
            intro l _
            simp only; omega
      · rintro ⟨b1, b2, b3, b4⟩ ⟨a1, a2, a3, a4⟩ σ2 - ⟨g1, g2, g3, g4, g5, g6, g7⟩
        simp only at g1 g2 g3 g4 g5 g7 ⊢
        subst g2 g3
        rw [tN_leaf] at g5
        have hT2 := hT'.keep g6 (dis_count fun x => by
          have := cnt x; have := hna x; simp only [List.count_append]; omega)
        have cnt2 : ∀ x, (tN e b4).count x + ((nm e a3).count x + (sN e b1.archived).count x) ≤ (sN e s.archived).count x := fun x => by
          have h5 := g5 x; have := hna x
          simp only [List.nil_append, List.count_append] at h5; omega
        have keep1 : Keeps (nm e fn ++ sN e s.archived) σ σ2 := (hk1.mono (by simp)).trans (g6.mono (Sub.subset fun x => by
          have := hna x; simp only [List.count_append]; omega))
        refine SimL.bind' (bin_sim hT2 g4 first fn ?_) ?_
        · refine count_nodup fun x => ?_
          have := cnt x; have := cnt2 x
          simp only [List.count_append]
          omega
        · rintro t nt σ3 - ⟨q1, q2, q3, -⟩
          have hA3 := @RepA.keep ⟨Q⟩ _ _ _ _ _ _ q3 _ _ g1 (dis_count fun x => by
            have := cnt x; have := cnt2 x; omega)
          have keep2 := keep1.trans (q3.mono (List.subset_append_left _ (sN e s.archived)))
          have cnt3 : ∀ x, (tN e t).count x = (tN e accum).count x + ((nm e fn).count x + (tN e b4).count x) := fun x => by
            rw [q2]; simp only [List.count_append]
          rcases a2 with _ | lev
          · refine SimL.const (Sim.pure ⟨@RepA.mk ⟨Q⟩ _ _ _ _ _ _ rfl rfl, rfl, rfl, q1, ?_, keep2, by simp⟩)
            intro x
            have := cnt3 x; have := cnt2 x
            have : (nm e (none : Option Name)).count x = 0 := by cases e <;> simp [nm]
            simp only [List.count_append, AStack.new, sN, List.count_nil]; omega
          · have hless := g7 lev rfl
            simp only
            split
            · refine (ih (by omega) hA3 q1 ?_).mono ?_
              · refine count_nodup fun x => ?_
                have := cnt x; have := cnt3 x; have := cnt2 x
                simp only [List.count_append]; omega
              · rintro b a σ4 - h
                refine ⟨h.stack, h.level, h.name, h.tree, ?_, keep2.trans (h.keeps.mono ?_), fun l hl => by have := h.less l hl; omega⟩
                · refine h.names.trans fun x => ?_
                  have := cnt3 x; have := cnt2 x
                  simp only [List.count_append]; omega
                · refine Sub.subset fun x => ?_
                  have := cnt2 x
                  simp only [List.count_append]; omega
            · refine SimL.const (Sim.pure ⟨hA3, rfl, rfl, q1, ?_, keep2, fun l _ => hless⟩)
              intro x
              have := cnt3 x; have := cnt2 x
              simp only [List.count_append]; omega

omit [RazMeta E M] in
theorem sub_nextArchive (e : Engine) (s : AStack E Nat) : Sub (nm e s.name ++ sN e s.nextArchive.1.archived) (sN e s.archived) := fun x => by
  have := nextArchive_names e s x
  simp only [List.count_append]; omega

theorem memoFromTail_sim {Q : NsPath → Prop} {σ : RMem E M} {hs : ASt E} {s : AStack E Nat} (hA : @RepA ⟨Q⟩ _ E e σ hs s) (hn : (sN e s.archived).Nodup) :
    Sim (memoFromTail e hs) σ (Iodyn.memoFromTail s) (fun b a σ' => RepRT e σ' a b ∧ Sub (tN e b.tree) (sN e s.archived) ∧
      Keeps (sN e s.archived) σ σ') := by
  obtain ⟨hs', hrun, hA'⟩ := @nextArchive_run ⟨Q⟩ _ _ _ _ _ _ hA
  have hsub := sub_nextArchive e s
  unfold memoFromTail Iodyn.memoFromTail
  rw [@RepA.name ⟨Q⟩ _ _ _ _ _ _ hA]
  refine Sim.step hrun ?_
  rcases hsn : s.nextArchive with ⟨s', _ | ⟨vec, _ | lev⟩⟩
  · refine (mkTree_sim (e := e) (t := .nil) rfl).mono ?_
    rintro b a σ' - ⟨k1, k2, rfl⟩
    exact ⟨k1, by rw [k2]; intro x; simp [tN], Keeps.refl _ _⟩
  · obtain ⟨hl, σ1, hrun1, hT1, hk1⟩ := leaf_run (e := e) (M := M) vec σ
    refine Sim.step hrun1 ((mkTree_sim hT1).mono ?_)
    rintro b a σ' - ⟨k1, k2, rfl⟩
    exact ⟨k1, by rw [k2, tN_leaf]; intro x; simp, hk1.mono (by simp)⟩
  · rw [hsn] at hA' hsub
    simp only at hA' hsub ⊢
    obtain ⟨hl, σ1, hrun1, hT1, hk1⟩ := leaf_run (e := e) (M := M) vec σ
    refine Sim.step hrun1 ?_
    have hless := nextArchive_less hsn
    refine ((fromStackTail_sim (s.archived.length + 1) (by omega) (@RepA.keep ⟨Q⟩ _ _ _ _ _ _ hk1 _ _ hA' (by simp [Dis])) hT1 (by
      rw [tN_leaf, List.nil_append]; exact hsub.nodup hn)).run).bind ?_
    rintro ⟨b1, b2, b3, b4⟩ ⟨a1, a2, a3, a4⟩ σ2 - ⟨g1, g2, g3, g4, g5, g6, g7⟩
    simp only at g1 g2 g3 g4 g5 g7 ⊢
    subst g2 g3
    rw [tN_leaf] at g5
    unfold finishFrom
    refine Sim.liftBind fun _ _ => Sim.liftBind fun _ _ => ?_
    simp only [@RepA.isEmpty ⟨Q⟩ _ _ _ _ _ _ g1]
    refine Sim.liftBind fun _ _ => (mkTree_sim g4).mono ?_
    rintro b a σ' - ⟨k1, k2, rfl⟩
    refine ⟨k1, ?_, (hk1.mono (by simp)).trans (g6.mono hsub.subset)⟩
    rw [k2]
    intro x
    have := g5 x; have := hsub x
    simp only [List.nil_append, List.count_append] at *; omega

theorem memoFromHead_sim {Q : NsPath → Prop} {σ : RMem E M} {hs : ASt E} {s : AStack E Nat} (hA : @RepA ⟨Q⟩ _ E e σ hs s) (hn : (sN e s.archived).Nodup) :
    Sim (memoFromHead e hs) σ (Iodyn.memoFromHead s) (fun b a σ' => RepRT e σ' a b ∧ Sub (tN e b.tree) (sN e s.archived) ∧
      Keeps (sN e s.archived) σ σ') := by
  obtain ⟨hs', hrun, hA'⟩ := @nextArchive_run ⟨Q⟩ _ _ _ _ _ _ hA
  have hsub := sub_nextArchive e s
  unfold memoFromHead Iodyn.memoFromHead
  rw [@RepA.name ⟨Q⟩ _ _ _ _ _ _ hA]
  refine Sim.step hrun ?_
  rcases hsn : s.nextArchive with ⟨s', _ | ⟨vec, _ | lev⟩⟩
  · refine (mkTree_sim (e := e) (t := .nil) rfl).mono ?_
    rintro b a σ' - ⟨k1, k2, rfl⟩
    exact ⟨k1, by rw [k2]; intro x; simp [tN], Keeps.refl _ _⟩
  · obtain ⟨hl, σ1, hrun1, hT1, hk1⟩ := leaf_run (e := e) (M := M) vec.reverse σ
    refine Sim.step hrun1 ((mkTree_sim hT1).mono ?_)
    rintro b a σ' - ⟨k1, k2, rfl⟩
    exact ⟨k1, by rw [k2, tN_leaf]; intro x; simp, hk1.mono (by simp)⟩
  · rw [hsn] at hA' hsub
    simp only at hA' hsub ⊢
    obtain ⟨hl, σ1, hrun1, hT1, hk1⟩ := leaf_run (e := e) (M := M) vec.reverse σ
    refine Sim.step hrun1 ?_
    have hless := nextArchive_less hsn
    refine ((fromStackHead_sim (s.archived.length + 1) (by omega) (@RepA.keep ⟨Q⟩ _ _ _ _ _ _ hk1 _ _ hA' (by simp [Dis])) hT1 (by
      rw [tN_leaf, List.nil_append]; exact hsub.nodup hn)).run).bind ?_
    rintro ⟨b1, b2, b3, b4⟩ ⟨a1, a2, a3, a4⟩ σ2 - ⟨g1, g2, g3, g4, g5, g6, g7⟩
    simp only at g1 g2 g3 g4 g5 g7 ⊢
    subst g2 g3
    rw [tN_leaf] at g5
    unfold finishFrom
    refine Sim.liftBind fun _ _ => Sim.liftBind fun _ _ => ?_
    simp only [@RepA.isEmpty ⟨Q⟩ _ _ _ _ _ _ g1]
    refine Sim.liftBind fun _ _ => (mkTree_sim g4).mono ?_
    rintro b a σ' - ⟨k1, k2, rfl⟩
    refine ⟨k1, ?_, (hk1.mono (by simp)).trans (g6.mono hsub.subset)⟩
    rw [k2]
    intro x
    have := g5 x; have := hsub x
    simp only [List.nil_append, List.count_append] at *; omega

end Iodyn.Heap
