import Verif.Proof.HeapFocus
import Verif.Proof.Canon
/-
`unfocus` after local edits writes only the cells of the nodes on the path to the cursor and those of the new archive points.
-/
namespace Iodyn.Heap
variable {E M : Type} {D : Type}

/-- The names on the right spine are in the list. -/
def SpR (e : Engine) (S : List Name) : Tree D → Prop
  | .nil => True
  | .node _ n _ _ r => nm e n ⊆ S ∧ SpR e S r

theorem spR_all {e : Engine} {S : List Name} : ∀ {t : Tree D}, tN e t ⊆ S → SpR e S t
  | .nil, _ => trivial
  | .node _ _ _ _ r, h => ⟨fun x hx => h (by simp only [tN, List.mem_append]; tauto),
      spR_all (t := r) (fun x hx => h (by simp only [tN, List.mem_append]; tauto))⟩

/-- The names of the entries are in the list, and so are those that come into the entries on the way down to the right. -/
structure GoodR (e : Engine) (S : List Name) (c : Cursor D) : Prop where
  l : ∀ p ∈ c.lForest, nm e p.2.name ⊆ S
  r : ∀ p ∈ c.rForest, nm e p.2.name ⊆ S ∧ SpR e S p.2.r
  t : SpR e S c.tree

theorem GoodR.eN {e : Engine} {S : List Name} {c : Cursor D} (h : GoodR e S c) : Heap.eN e c.lForest ++ Heap.eN e c.rForest ⊆ S := by
  refine List.append_subset.2 ⟨?_, ?_⟩
  · intro x hx
    obtain ⟨p, hp, hx⟩ := List.mem_flatMap.1 hx
    exact h.l p hp hx
  · intro x hx
    obtain ⟨p, hp, hx⟩ := List.mem_flatMap.1 hx
    exact (h.r p hp).1 hx

theorem upUntil_stop [TreeUpdate D] {stop : Cursor D → Bool} {n : Nat} {c c' : Cursor D} (hs : stop c = true)
    (h : Cursor.upUntil stop n c = .ok c') : c' = c := by
  cases n <;> simp [Cursor.upUntil, hs] at h <;> exact h.symm

theorem GoodR.up [TreeUpdate D] {e : Engine} {S : List Name} {c c' : Cursor D} {res : UpResult} (h : GoodR e S c)
    (hd : c.dirty = true) (hu : c.up = .ok (c', res)) : GoodR e S c' ∧ c'.dirty = true := by
  unfold Cursor.up at hu
  split at hu
  · cases hu; exact ⟨h, hd⟩
  · split at hu
    · cases hu
    · rename_i d u rest hf
      simp only [hd, if_true] at hu
      obtain ⟨data, -, hu⟩ := bind_ok.1 hu
      cases hu
      refine ⟨⟨fun p hp => h.l p (by rw [hf]; exact List.mem_cons_of_mem _ hp), h.r, h.l (d, u) (by rw [hf]; simp), h.t⟩, rfl⟩
  · split at hu
    · cases hu
    · rename_i d u rest hf
      simp only [hd, if_true] at hu
      obtain ⟨data, -, hu⟩ := bind_ok.1 hu
      cases hu
      have := h.r (d, u) (by rw [hf]; simp)
      exact ⟨⟨h.l, fun p hp => h.r p (by rw [hf]; exact List.mem_cons_of_mem _ hp), this.1, this.2⟩, rfl⟩

theorem GoodR.upUntil [TreeUpdate D] {e : Engine} {S : List Name} {stop : Cursor D → Bool} : ∀ (n : Nat) {c c' : Cursor D}, GoodR e S c →
    (c.dirty = true ∨ stop c = true) → Cursor.upUntil stop n c = .ok c' → GoodR e S c' ∧ (c' = c ∨ c'.dirty = true) := by
  intro n
  induction n with
  | zero =>
    intro c c' h _ hu
    simp only [Cursor.upUntil] at hu
    split at hu
    · cases hu; exact ⟨h, .inl rfl⟩
    · cases hu
  | succ n ih =>
    intro c c' h hd hu
    simp only [Cursor.upUntil] at hu
    split at hu
    · cases hu; exact ⟨h, .inl rfl⟩
    · rename_i hns
      obtain ⟨⟨c1, res⟩, h1, hu⟩ := bind_ok.1 hu
      simp only at hu
      split at hu
      · cases hu
      · obtain ⟨g1, g2⟩ := h.up (hd.resolve_right hns) h1
        obtain ⟨k1, k2⟩ := ih g1 (.inl g2) hu
        exact ⟨k1, .inr (k2.elim (fun h => h ▸ g2) id)⟩

theorem GoodR.descendRight {e : Engine} {S : List Name} {level : Nat} : ∀ (t : Tree D) {c c' : Cursor D}, c.tree = t → GoodR e S c →
    c.descendRight level = .ok c' → GoodR e S c' := by
  intro t
  induction t with
  | nil =>
    intro c c' hc h hu
    unfold Cursor.descendRight at hu
    split at hu
    · cases hu; exact h
    · rename_i heq; rw [hc] at heq; cases heq
  | node lv n x l r _ ih =>
    intro c c' hc h hu
    obtain ⟨d, lf, t, rf⟩ := c
    simp only at hc; subst hc
    rw [descendRight_node] at hu
    split at hu
    · cases hu; exact h
    · have ht := h.t
      refine ih (c := ⟨false, (d, ⟨lv, n, x, l, r⟩) :: lf, r, rf⟩) rfl ⟨?_, h.r, ht.2⟩ hu
      intro p hp
      rcases List.mem_cons.1 hp with rfl | hp
      · exact ht.1
      · exact h.l p hp

/-- All names below the focus and to the right of it are in the list. -/
structure GoodL (e : Engine) (S : List Name) (c : Cursor D) : Prop where
  r : ∀ p ∈ c.rForest, nm e p.2.name ⊆ S ∧ SpR e S p.2.r
  t : tN e c.tree ⊆ S

theorem GoodL.descendLeft {e : Engine} {S : List Name} {level : Nat} : ∀ (t : Tree D) {c c' : Cursor D}, c.tree = t → GoodL e S c →
    c.descendLeft level = .ok c' → GoodL e S c' := by
  intro t
  induction t with
  | nil =>
    intro c c' hc h hu
    unfold Cursor.descendLeft at hu
    split at hu
    · cases hu; exact h
    · rename_i heq; rw [hc] at heq; cases heq
  | node lv n x l r ih _ =>
    intro c c' hc h hu
    obtain ⟨d, lf, t, rf⟩ := c
    simp only at hc; subst hc
    rw [descendLeft_node] at hu
    split at hu
    · cases hu; exact h
    · have ht := h.t
      simp only [tN] at ht
      refine ih rfl ⟨?_, fun y hy => ht (by simp only [List.mem_append]; tauto)⟩ hu
      intro p hp
      rcases List.mem_cons.1 hp with rfl | hp
      · exact ⟨fun y hy => ht (by simp only [List.mem_append]; tauto), spR_all (fun y hy => ht (by simp only [List.mem_append]; tauto))⟩
      · exact h.r p hp

theorem descendRight_stay {level : Nat} {c c' : Cursor D} (hl : ∀ x ∈ c.tree.level?, x < level) (h : c.descendRight level = .ok c') : c' = c := by
  unfold Cursor.descendRight at h
  split at h
  · cases h; rfl
  · rename_i heq
    have := hl _ (by rw [heq]; rfl)
    simp [this] at h
    exact h.symm

theorem descendLeft_stay {level : Nat} {c c' : Cursor D} (hl : ∀ x ∈ c.tree.level?, x ≤ level) (h : c.descendLeft level = .ok c') : c' = c := by
  unfold Cursor.descendLeft at h
  split at h
  · cases h; rfl
  · rename_i heq
    have := hl _ (by rw [heq]; rfl)
    simp [this] at h
    exact h.symm

section
variable [RazMeta E M]

theorem joinLeftForest_good {e : Engine} {S : List Name} {lf jc : Cursor (TreeData E M)} {t : Tree (TreeData E M)} (hc : LC lf.lForest)
    (hr : lf.rForest = []) (hl : ∀ p ∈ lf.lForest, nm e p.2.name ⊆ S) (ht : tN e t ⊆ S)
    (h : Raz.joinLeftForest lf (Cursor.ofTree t) = .ok jc) :
    GoodR e S jc ∧ (jc.dirty = true ∨ (jc.lForest = [] ∧ jc.rForest = [])) := by
  unfold Raz.joinLeftForest at h
  obtain ⟨⟨lf', res⟩, h1, h⟩ := bind_ok.1 h
  simp only at h
  split at h
  · rename_i hne
    obtain ⟨d, u, us, data, T, s1, s2, s3, s4⟩ := up_shape_left h1 hr hne
    obtain ⟨lev, hlev, h⟩ := bind_ok.1 h
    have hlev : lev = u.level := by
      simp [Cursor.peekLevel, s4, Tree.level?, unwrap] at hlev; exact hlev.symm
    subst hlev
    have hnm : lf'.peekName = u.name := by simp [Cursor.peekName, s4, Tree.name?]
    rw [hnm] at h
    have hdl : (lf'.downLeftForce .discard).1 = { lf' with tree := u.l, dirty := true } := by
      simp [Cursor.downLeftForce, s4]
    rw [hdl] at h
    rw [s1] at hc hl
    have hcu := hc.c (d, u) (by simp)
    unfold Cursor.join at h
    obtain ⟨l1, a1, h⟩ := bind_ok.1 h
    obtain ⟨r1, b1, h⟩ := bind_ok.1 h
    obtain ⟨l2, a2, h⟩ := bind_ok.1 h
    obtain ⟨l3, a3, h⟩ := bind_ok.1 h
    obtain ⟨r2, b2, h⟩ := bind_ok.1 h
    obtain ⟨r3, b3, h⟩ := bind_ok.1 h
    obtain ⟨y, -, hfin⟩ := bind_ok.1 h
    simp only [pure, Except.pure, Except.ok.injEq] at hfin
    have e1 := upUntil_stop (by simp [s3]) a1
    subst e1
    have e2 := upUntil_stop (by
      simp only [Cursor.stopLeft, Cursor.upLeftLevel, s2]
      cases us with
      | nil => rfl
      | cons q us => simpa using (List.pairwise_cons.1 hc.s).1 q (by simp)) a2
    subst e2
    have e3 := descendRight_stay (fun x hx => hcu.1 x hx) a3
    subst e3
    have f1 := upUntil_stop (by rfl) b1
    subst f1
    have f2 := upUntil_stop (by rfl) b2
    subst f2
    have g := GoodL.descendLeft (e := e) (S := S) _ rfl ⟨by simp [Cursor.ofTree], ht⟩ b3
    subst hfin
    refine ⟨⟨?_, g.r, hl (d, u) (by simp), spR_all g.t⟩, .inl rfl⟩
    intro p hp
    simp only [s2] at hp
    exact hl p (List.mem_cons_of_mem _ hp)
  · simp [pure, Except.pure] at h
    subst h
    exact ⟨⟨by simp [Cursor.ofTree], by simp [Cursor.ofTree], spR_all ht⟩, .inr ⟨rfl, rfl⟩⟩

theorem joinRightForest_good {e : Engine} {S : List Name} {rf jc jc2 : Cursor (TreeData E M)} (hc : RC rf.rForest)
    (hr : rf.lForest = []) (hl : ∀ p ∈ rf.rForest, nm e p.2.name ⊆ S) (hj : GoodR e S jc)
    (hd : jc.dirty = true ∨ (jc.lForest = [] ∧ jc.rForest = []))
    (h : Raz.joinRightForest jc rf = .ok jc2) : eN e jc2.lForest ++ eN e jc2.rForest ⊆ S := by
  unfold Raz.joinRightForest at h
  obtain ⟨⟨rf', res⟩, h1, h⟩ := bind_ok.1 h
  simp only at h
  split at h
  · rename_i hne
    obtain ⟨d, u, us, data, T, s1, s2, s3, s4⟩ := up_shape_right h1 hr hne
    obtain ⟨lev, hlev, h⟩ := bind_ok.1 h
    have hlev : lev = u.level := by
      simp [Cursor.peekLevel, s4, Tree.level?, unwrap] at hlev; exact hlev.symm
    subst hlev
    have hdl : (rf'.downRightForce .discard).1 = { rf' with tree := u.r, dirty := true } := by
      simp [Cursor.downRightForce, s4]
    rw [hdl] at h
    rw [s1] at hc hl
    have hcu := hc.c (d, u) (by simp)
    unfold Cursor.join at h
    obtain ⟨l1, a1, h⟩ := bind_ok.1 h
    obtain ⟨r1, b1, h⟩ := bind_ok.1 h
    obtain ⟨l2, a2, h⟩ := bind_ok.1 h
    obtain ⟨l3, a3, h⟩ := bind_ok.1 h
    obtain ⟨r2, b2, h⟩ := bind_ok.1 h
    obtain ⟨r3, b3, h⟩ := bind_ok.1 h
    obtain ⟨y, -, hfin⟩ := bind_ok.1 h
    simp only [pure, Except.pure, Except.ok.injEq] at hfin
    have f1 := upUntil_stop (by simp [s3]) b1
    subst f1
    have f2 := upUntil_stop (by
      simp only [Cursor.stopRight, Cursor.upRightLevel, s2]
      cases us with
      | nil => rfl
      | cons q us => simpa using (List.pairwise_cons.1 hc.s).1 q (by simp)) b2
    subst f2
    have f3 := descendLeft_stay (fun x hx => hcu.2.1 x hx) b3
    subst f3
    obtain ⟨g1, g2⟩ := hj.upUntil _ (hd.imp id (fun h => by simp [h.2])) a1
    have hd1 : l1.dirty = true ∨ Cursor.stopLeft u.level l1 = true := by
      rcases g2 with rfl | g2
      · rcases hd with hd | hd
        · exact .inl hd
        · exact .inr (by simp [Cursor.stopLeft, Cursor.upLeftLevel, hd.1])
      · exact .inl g2
    obtain ⟨g3, -⟩ := g1.upUntil _ hd1 a2
    have g4 := GoodR.descendRight _ rfl g3 a3
    subst hfin
    refine List.append_subset.2 ⟨fun x hx => g4.eN (List.mem_append_left _ hx), ?_⟩
    intro x hx
    obtain ⟨p, hp, hx⟩ := List.mem_flatMap.1 hx
    simp only [s2] at hp
    exact hl p (List.mem_cons_of_mem _ hp) hx
  · simp [pure, Except.pure] at h
    subst h
    exact hj.eN

/-- What `unfocus` writes: the entries of the forests and the names of the stacks. -/
def fN (e : Engine) (z : Raz E M) : List Name :=
  (eN e z.lForest.lForest ++ eN e z.rForest.rForest) ++ (aN e z.lStack ++ aN e z.rStack)

variable [Spaces]

omit [RazMeta E M] [Spaces] in
theorem openSide_vec {s : AStack E Nat} (h : StackOK s) (hs : s.isEmpty = false) (hv : (Raz.openSide s).2.2 = none) :
    (Raz.openSide s).1.isEmpty = false := by
  obtain ⟨cur, arch⟩ := s
  unfold Raz.openSide AStack.nextArchive at hv ⊢
  rw [hs] at hv ⊢
  simp only [Bool.false_eq_true, if_false] at hv ⊢
  rcases arch with _ | ⟨⟨n, m, v⟩, rest⟩
  · cases cur with
    | nil => simp [AStack.isEmpty, Stack.isEmpty] at hs
    | cons a b => simp at hv
  · have := (h (n, m, v) (by simp)).2
    simp only at this ⊢
    cases v with
    | nil => exact absurd rfl this
    | cons a b => simp [AStack.isEmpty]

omit [RazMeta E M] [Spaces] in
/-- The center is not empty if something is next to the cursor. -/
theorem center_vec {ls rs : AStack E Nat} {c : Raz.Center E} (h1 : StackOK ls) (h2 : StackOK rs)
    (hs : ls.isEmpty = false ∨ rs.isEmpty = false) (h : Raz.center ls rs = .ok c) : c.vec ≠ none := by
  have v1 := openSide_vec h1
  have v2 := openSide_vec h2
  unfold Raz.center at h
  generalize Raz.openSide ls = a at *
  generalize Raz.openSide rs = b at *
  obtain ⟨ls', lLev, lVec⟩ := a
  obtain ⟨rs', rLev, rVec⟩ := b
  simp only at h v1 v2
  split at h
  · cases h; simp
  · cases h; simp
  · cases h; simp
  · split at h
    · split at h
      · cases h; simp
      · cases h
    · split at h
      · split at h
        · cases h; simp
        · cases h
      · rename_i g1 g2
        rcases hs with hs | hs
        · exact absurd (v1 hs rfl) g1
        · exact absurd (v2 hs rfl) g2

theorem unfocus_fine {e : Engine} {σ : RMem E M} {hz : HRaz E} {z : Raz E M} (h : RepZ e σ hz z) (hn : (zN e z).Nodup) (hi : ZInv z) (hc : ZC z)
    (hs : z.lStack.isEmpty = false ∨ z.rStack.isEmpty = false) :
    Sim (hz.unfocus e) σ z.unfocus (fun b a σ' => RepRT e σ' a b ∧ Sub (tN e b.tree) (zN e z) ∧ Keeps (fN e z) σ σ') := by
  refine (unfocus_steps h hn).mono ?_
  rintro b a σ' hb ⟨h1, h2, -, h4, -⟩
  refine ⟨h1, h2, ?_⟩
  unfold Raz.unfocus at hb
  obtain ⟨c, hcen, -⟩ := bind_ok.1 hb
  obtain ⟨t, jc, jc2, -, k2, k3, k4, k5, k6⟩ := h4 c hcen (center_vec hi.ls hi.rs hs hcen)
  have ent : ∀ (us : List (Bool × TNode (TreeData E M))), eN e us ⊆ fN e z → ∀ p ∈ us, nm e p.2.name ⊆ fN e z := by
    intro us hu p hp x hx
    exact hu (List.mem_flatMap.2 ⟨p, hp, hx⟩)
  have f1 : eN e z.lForest.lForest ⊆ fN e z := by intro x; simp only [fN, List.mem_append]; tauto
  have f2 : eN e z.rForest.rForest ⊆ fN e z := by intro x; simp only [fN, List.mem_append]; tauto
  have f3 : ctN e c ⊆ fN e z := List.Subset.trans k3.subset (by intro x; simp only [fN, List.mem_append]; tauto)
  obtain ⟨g1, g2⟩ := joinLeftForest_good hc.l h.le (ent _ f1) (List.Subset.trans k2.subset f3) k4
  have g3 := joinRightForest_good hc.r h.re (ent _ f2) g1 g2 k5
  have g4 := g1.eN
  refine k6.mono ?_
  unfold uN
  exact List.append_subset.2 ⟨f3, List.append_subset.2 ⟨List.append_subset.2 ⟨f1, g4⟩,
    List.append_subset.2 ⟨List.append_subset.2 ⟨g4, f2⟩, g3⟩⟩⟩

end
end Iodyn.Heap
