import Verif.Proof.Heap
/-
The cursor operations of the store model simulate those of the functional model.
-/
namespace Iodyn.Heap
variable [Spaces] {D X E M A B C : Type} [TreeUpdate D]

theorem RepL.length {e : Engine} {σ : Mem D X} : ∀ {us : List (Bool × TNode D)} {hs : List (Bool × Tr)},
    RepL e σ hs us → hs.length = us.length := by
  intro us
  induction us with
  | nil => rintro hs rfl; rfl
  | cons p us ih => obtain ⟨d, u⟩ := p; rintro hs ⟨h, hs', rfl, _, h2⟩; simp [ih h2]

theorem RepR.length {e : Engine} {σ : Mem D X} : ∀ {us : List (Bool × TNode D)} {hs : List (Bool × Tr)},
    RepR e σ hs us → hs.length = us.length := by
  intro us
  induction us with
  | nil => rintro hs rfl; rfl
  | cons p us ih => obtain ⟨d, u⟩ := p; rintro hs ⟨h, hs', rfl, _, h2⟩; simp [ih h2]

theorem RepC.height {e : Engine} {σ : Mem D X} {hc : Cur} {c : Cursor D} (h : RepC e σ hc c) : hc.height = c.height := by
  simp [Cur.height, Cursor.height, h.l.length, h.r.length]

theorem RepC.upDir {e : Engine} {σ : Mem D X} {hc : Cur} {c : Cursor D} (h : RepC e σ hc c) : hc.upDir = c.upDir := by
  obtain ⟨d, lf, T, rf⟩ := c
  obtain ⟨hd, hlf, hT, hrf⟩ := hc
  obtain ⟨h1, h2, h3, h4, h5⟩ := h
  simp only at h1 h2 h3 h4
  rcases lf with _ | ⟨⟨d1, u1⟩, lf⟩ <;> rcases rf with _ | ⟨⟨d2, u2⟩, rf⟩
  · cases h2; cases h4; rfl
  · obtain ⟨y, hs', rfl, -, -⟩ := h4; cases h2; rfl
  · obtain ⟨y, hs', rfl, -, -⟩ := h2; cases h4; rfl
  · obtain ⟨y, hs', rfl, a, -⟩ := h4
    obtain ⟨y', hs'', rfl, b, -⟩ := h2
    simp only [Cur.upDir, Cursor.upDir, a.1, b.1]

/-- Names of the entries of a forest, without the branches. -/
def eN (e : Engine) (us : List (Bool × TNode D)) : List Name := us.flatMap (fun p => nm e p.2.name)

omit [TreeUpdate D] in
theorem eN_l (e : Engine) : ∀ us : List (Bool × TNode D), eN e us ⊆ lN e us := by
  intro us
  induction us with
  | nil => simp [eN]
  | cons p us ih =>
    obtain ⟨d, u⟩ := p
    intro x hx
    simp only [eN, lN, List.flatMap_cons, List.mem_append] at hx ⊢
    rcases hx with h | h
    · exact .inr (.inr h)
    · exact .inl (ih h)

omit [TreeUpdate D] in
theorem eN_r (e : Engine) : ∀ us : List (Bool × TNode D), eN e us ⊆ rN e us := by
  intro us
  induction us with
  | nil => simp [eN]
  | cons p us ih =>
    obtain ⟨d, u⟩ := p
    intro x hx
    simp only [eN, rN, List.flatMap_cons, List.mem_append] at hx ⊢
    rcases hx with h | h
    · exact .inl h
    · exact .inr (.inr (ih h))

/-- After moving up: the same names, on fewer entries. -/
structure UpTo (e : Engine) (c c' : Cursor D) : Prop where
  eq : cN e c' = cN e c
  l : lN e c'.lForest ⊆ lN e c.lForest
  r : rN e c'.rForest ⊆ rN e c.rForest
  el : eN e c'.lForest ⊆ eN e c.lForest
  er : eN e c'.rForest ⊆ eN e c.rForest
  le : c.lForest = [] → c'.lForest = []
  re : c.rForest = [] → c'.rForest = []
  d : c.dirty = true → c'.dirty = true

omit [TreeUpdate D] in
theorem UpTo.refl (e : Engine) (c : Cursor D) : UpTo e c c :=
  ⟨rfl, List.Subset.refl _, List.Subset.refl _, List.Subset.refl _, List.Subset.refl _, id, id, id⟩

omit [TreeUpdate D] in
theorem UpTo.trans {e : Engine} {c c' c'' : Cursor D} (h : UpTo e c c') (h' : UpTo e c' c'') : UpTo e c c'' :=
  ⟨h'.eq.trans h.eq, List.Subset.trans h'.l h.l, List.Subset.trans h'.r h.r, List.Subset.trans h'.el h.el,
    List.Subset.trans h'.er h.er, fun x => h'.le (h.le x),
    fun x => h'.re (h.re x), fun x => h'.d (h.d x)⟩

theorem up_left_sim [LawfulUpdate D] {e : Engine} {σ : Mem D X} {hc : Cur} {c : Cursor D} (h : RepC e σ hc c)
    (hn : (cN e c).Nodup) (hdir : c.upDir = .left) :
    Sim (hc.up e) σ c.up (fun b a σ' => RepC e σ' a.1 b.1 ∧ a.2 = b.2 ∧ UpTo e c b.1 ∧
      Keeps (eN e c.lForest ++ eN e c.rForest) σ σ' ∧ RepC e σ' hc c) := by
  have hdir' : hc.upDir = .left := h.upDir.trans hdir
  obtain ⟨d, lf, T, rf⟩ := c
  obtain ⟨hd, hlf, hT, hrf⟩ := hc
  have h' := h
  obtain ⟨h1, h2, h3, h4, h5⟩ := h
  simp only at h1 h2 h3 h4
  subst h1
  rcases lf with _ | ⟨⟨d1, u1⟩, lf⟩
  · cases rf <;> simp [Cursor.upDir] at hdir
  obtain ⟨y, hs', rfl, ⟨a1, a2, a3, dd, hl, hr, a4, a5, a6⟩, h2⟩ := h2
  unfold Cur.up Cursor.up
  rw [hdir, hdir']
  simp only
  cases hd with
  | true =>
    simp only [if_true]
    refine Sim.step (lTree_run a4) (Sim.step (peekOp_run a6) (Sim.step (peek_run a4) (Sim.step (peekOp_run h3) ?_)))
    rw [a1, a2, a5]
    refine Sim.liftBind ?_
    intro data hdata
    obtain ⟨k, σ', hrun, b1, b2, b3⟩ := newTree_run e u1.level u1.name data hl hT σ
    refine Sim.step hrun (Sim.pure ?_)
    simp only [cN, lN] at hn
    have dl : Dis (lN e lf) (nm e u1.name) := by
      grind [Dis, List.nodup_append]
    have dul : Dis (tN e u1.l) (nm e u1.name) := by
      grind [Dis, List.nodup_append]
    have dT : Dis (tN e T) (nm e u1.name) := by
      grind [Dis, List.nodup_append]
    have dr : Dis (rN e rf) (nm e u1.name) := by
      grind [Dis, List.nodup_append]
    refine ⟨⟨rfl, h2.keep b3 dl, RepT.new b1 b2 b3 a6 h3 dul dT, h4.keep b3 dr, .inl rfl⟩, rfl,
      ⟨by simp [cN, lN, tN], by simp [lN], List.Subset.refl _, by simp [eN], List.Subset.refl _, by simp, id, id⟩,
      b3.mono (fun x hx => by simp [eN, hx]), ?_⟩
    refine ⟨rfl, ⟨y, hs', rfl, ⟨a1, a2, a3.keep b3, ?_⟩, h2.keep b3 dl⟩, h3.keep b3 dT, h4.keep b3 dr, .inl rfl⟩
    by_cases hy : y.link = k
    · exact ⟨data, hl, hT, by rw [hy, b2], LawfulUpdate.same _ _ _ _ _ _ hdata, a6.keep b3 dul⟩
    · refine ⟨dd, hl, hr, ?_, a5, a6.keep b3 dul⟩
      rw [newTree_only (hrun 0) hy, a4]
  | false =>
    have hlink : rf = [] ∧ LinkL σ hT T false ((d1, y) :: hs') ((d1, u1) :: lf) := by
      rcases h5 with h5 | h5 | ⟨h5, -⟩
      · cases h5
      · exact h5
      · cases h5
    obtain ⟨rfl, ⟨hl', c1⟩, c2, c3⟩ := hlink
    simp only [Bool.false_eq_true, if_false]
    refine Sim.pure ?_
    rw [a4] at c1
    injection c1 with c1
    injection c1 with c0 c1 c1'
    subst c0 c1 c1' c2
    refine ⟨⟨rfl, h2, ⟨y.link, hl, hr, ?_, a3, a4, a6, h3⟩, h4, .inr (.inl ⟨rfl, c3⟩)⟩, rfl,
      ⟨by simp [cN, lN, tN, TNode.toTree], by simp [lN], List.Subset.refl _, by simp [eN], List.Subset.refl _, by simp, id, by simp⟩,
      Keeps.refl _ _, h'⟩
    cases y; simp_all

theorem up_right_sim [LawfulUpdate D] {e : Engine} {σ : Mem D X} {hc : Cur} {c : Cursor D} (h : RepC e σ hc c)
    (hn : (cN e c).Nodup) (hdir : c.upDir = .right) :
    Sim (hc.up e) σ c.up (fun b a σ' => RepC e σ' a.1 b.1 ∧ a.2 = b.2 ∧ UpTo e c b.1 ∧
      Keeps (eN e c.lForest ++ eN e c.rForest) σ σ' ∧ RepC e σ' hc c) := by
  have hdir' : hc.upDir = .right := h.upDir.trans hdir
  obtain ⟨d, lf, T, rf⟩ := c
  obtain ⟨hd, hlf, hT, hrf⟩ := hc
  have h' := h
  obtain ⟨h1, h2, h3, h4, h5⟩ := h
  simp only at h1 h2 h3 h4
  subst h1
  rcases rf with _ | ⟨⟨d1, u1⟩, rf⟩
  · cases lf <;> simp [Cursor.upDir] at hdir
  obtain ⟨y, hs', rfl, ⟨a1, a2, a3, dd, hl, hr, a4, a5, a6⟩, h4⟩ := h4
  unfold Cur.up Cursor.up
  rw [hdir, hdir']
  simp only
  cases hd with
  | true =>
    simp only [if_true]
    refine Sim.step (rTree_run a4) (Sim.step (peekOp_run h3) (Sim.step (peek_run a4) (Sim.step (peekOp_run a6) ?_)))
    rw [a1, a2, a5]
    refine Sim.liftBind ?_
    intro data hdata
    obtain ⟨k, σ', hrun, b1, b2, b3⟩ := newTree_run e u1.level u1.name data hT hr σ
    refine Sim.step hrun (Sim.pure ?_)
    simp only [cN, rN] at hn
    have dl : Dis (lN e lf) (nm e u1.name) := by
      grind [Dis, List.nodup_append]
    have dul : Dis (tN e u1.r) (nm e u1.name) := by
      grind [Dis, List.nodup_append]
    have dT : Dis (tN e T) (nm e u1.name) := by
      grind [Dis, List.nodup_append]
    have dr : Dis (rN e rf) (nm e u1.name) := by
      grind [Dis, List.nodup_append]
    refine ⟨⟨rfl, h2.keep b3 dl, RepT.new b1 b2 b3 h3 a6 dT dul, h4.keep b3 dr, .inl rfl⟩, rfl,
      ⟨by simp [cN, rN, tN], List.Subset.refl _, fun x hx => by simp [rN, hx], List.Subset.refl _, by simp [eN], id, by simp, id⟩,
      b3.mono (fun x hx => by simp [eN, hx]), ?_⟩
    refine ⟨rfl, h2.keep b3 dl, h3.keep b3 dT, ⟨y, hs', rfl, ⟨a1, a2, a3.keep b3, ?_⟩, h4.keep b3 dr⟩, .inl rfl⟩
    by_cases hy : y.link = k
    · exact ⟨data, hT, hr, by rw [hy, b2], LawfulUpdate.same _ _ _ _ _ _ hdata, a6.keep b3 dul⟩
    · refine ⟨dd, hl, hr, ?_, a5, a6.keep b3 dul⟩
      rw [newTree_only (hrun 0) hy, a4]
  | false =>
    have hlink : lf = [] ∧ LinkR σ hT T false ((d1, y) :: hs') ((d1, u1) :: rf) := by
      rcases h5 with h5 | ⟨h5, -⟩ | h5
      · cases h5
      · cases h5
      · exact h5
    obtain ⟨rfl, ⟨hl', c1⟩, c2, c3⟩ := hlink
    simp only [Bool.false_eq_true, if_false]
    refine Sim.pure ?_
    rw [a4] at c1
    injection c1 with c1
    injection c1 with c0 c1 c1'
    subst c0 c1 c1' c2
    refine ⟨⟨rfl, h2, ⟨y.link, hl, hr, ?_, a3, a4, h3, a6⟩, h4, .inr (.inr ⟨rfl, c3⟩)⟩, rfl,
      ⟨by simp [cN, rN, tN, TNode.toTree], List.Subset.refl _, fun x hx => by simp [rN, hx], List.Subset.refl _, by simp [eN], id, by simp, by simp⟩,
      Keeps.refl _ _, h'⟩
    cases y; simp_all

/-- `up`. -/
theorem up_sim [LawfulUpdate D] {e : Engine} {σ : Mem D X} {hc : Cur} {c : Cursor D} (h : RepC e σ hc c)
    (hn : (cN e c).Nodup) :
    Sim (hc.up e) σ c.up (fun b a σ' => RepC e σ' a.1 b.1 ∧ a.2 = b.2 ∧ UpTo e c b.1 ∧
      Keeps (eN e c.lForest ++ eN e c.rForest) σ σ' ∧ RepC e σ' hc c) := by
  cases hdir : c.upDir with
  | left => exact up_left_sim h hn hdir
  | right => exact up_right_sim h hn hdir
  | fail =>
    unfold Cur.up Cursor.up
    rw [hdir, h.upDir, hdir]
    exact Sim.pure ⟨h, rfl, UpTo.refl _ _, Keeps.refl _ _, h⟩

/-- Loops of `up`. -/
theorem upUntil_sim [LawfulUpdate D] {e : Engine} {hstop : Cur → Bool} {stop : Cursor D → Bool}
    (hs : ∀ (σ : Mem D X) hc c, RepC e σ hc c → hstop hc = stop c) :
    ∀ (n : Nat) {σ : Mem D X} {hc : Cur} {c : Cursor D}, RepC e σ hc c → (cN e c).Nodup →
      Sim (Cur.upUntil e hstop n hc) σ (c.upUntil stop n) (fun b a σ' => RepC e σ' a b ∧ UpTo e c b ∧
        Keeps (eN e c.lForest ++ eN e c.rForest) σ σ' ∧ stop b = true) := by
  intro n
  induction n with
  | zero =>
    intro σ hc c h hn
    simp only [Cur.upUntil, Cursor.upUntil, hs σ hc c h]
    split
    · exact Sim.pure ⟨h, UpTo.refl _ _, Keeps.refl _ _, by assumption⟩
    · exact Sim.error
  | succ n ih =>
    intro σ hc c h hn
    simp only [Cur.upUntil, Cursor.upUntil, hs σ hc c h]
    split
    · exact Sim.pure ⟨h, UpTo.refl _ _, Keeps.refl _ _, by assumption⟩
    · refine (up_sim h hn).bind ?_
      rintro ⟨b, res⟩ ⟨a, res'⟩ σ' - ⟨h1, rfl, h2, h3, -⟩
      simp only at h1 h2 ⊢
      split
      · exact Sim.error
      · refine (ih h1 (by rw [h2.eq]; exact hn)).mono ?_
        rintro b' a' σ'' - ⟨k1, k2, k3, k4⟩
        exact ⟨k1, h2.trans k2, h3.trans (k3.mono (List.append_subset.2
          ⟨List.subset_append_of_subset_left _ h2.el, List.subset_append_of_subset_right _ h2.er⟩)), k4⟩

theorem upAll_sim [LawfulUpdate D] {e : Engine} :
    ∀ (n : Nat) {σ : Mem D X} {hc : Cur} {c : Cursor D}, RepC e σ hc c → (cN e c).Nodup →
      Sim (Cur.upAll e n hc) σ (c.upAll n) (fun b a σ' => RepC e σ' a b ∧ UpTo e c b ∧
        Keeps (eN e c.lForest ++ eN e c.rForest) σ σ') := by
  intro n
  induction n with
  | zero => intro σ hc c h hn; exact Sim.pure ⟨h, UpTo.refl _ _, Keeps.refl _ _⟩
  | succ n ih =>
    intro σ hc c h hn
    refine (up_sim h hn).bind ?_
    rintro ⟨b, res⟩ ⟨a, res'⟩ σ' - ⟨h1, rfl, h2, h3, -⟩
    simp only at h1 h2 ⊢
    split
    · exact Sim.pure ⟨h1, h2, h3⟩
    · refine (ih h1 (by rw [h2.eq]; exact hn)).mono ?_
      rintro b' a' σ'' - ⟨k1, k2, k3⟩
      exact ⟨k1, h2.trans k2, h3.trans (k3.mono (List.append_subset.2
        ⟨List.subset_append_of_subset_left _ h2.el, List.subset_append_of_subset_right _ h2.er⟩))⟩

/-! ### Moving down -/

omit [TreeUpdate D] in
theorem downRight_run {σ : Mem D X} {hc : Cur} {t : Tr} {x : D} {hl hr : Option Tr} (f : Force) (ht : hc.tree = some t)
    (hcell : σ.cells t.link = some (.node x hl hr)) : ∀ g, hc.downRightForce f g σ = .ok (
      (if hr.isNone && decide (f = .no) then (hc, false)
      else if f = .discard then ({ hc with tree := hr, dirty := true }, true)
      else ({ hc with tree := hr, lForest := (hc.dirty, t) :: hc.lForest, dirty := false }, true)), σ) := by
  intro g
  unfold Cur.downRightForce
  rw [ht]
  refine (run_ok (rTree_run hcell g)).trans ?_
  split
  · rfl
  · split <;> rfl

omit [TreeUpdate D] in
theorem downLeft_run {σ : Mem D X} {hc : Cur} {t : Tr} {x : D} {hl hr : Option Tr} (f : Force) (ht : hc.tree = some t)
    (hcell : σ.cells t.link = some (.node x hl hr)) : ∀ g, hc.downLeftForce f g σ = .ok (
      (if hl.isNone && decide (f = .no) then (hc, false)
      else if f = .discard then ({ hc with tree := hl, dirty := true }, true)
      else ({ hc with tree := hl, rForest := (hc.dirty, t) :: hc.rForest, dirty := false }, true)), σ) := by
  intro g
  unfold Cur.downLeftForce
  rw [ht]
  refine (run_ok (lTree_run hcell g)).trans ?_
  split
  · rfl
  · split <;> rfl

omit [TreeUpdate D] in
theorem downRight_none {σ : Mem D X} {hc : Cur} (f : Force) (ht : hc.tree = none) :
    ∀ g, hc.downRightForce f g σ = .ok ((hc, false), σ) := by
  intro g
  unfold Cur.downRightForce
  rw [ht]; rfl

omit [TreeUpdate D] in
theorem downLeft_none {σ : Mem D X} {hc : Cur} (f : Force) (ht : hc.tree = none) :
    ∀ g, hc.downLeftForce f g σ = .ok ((hc, false), σ) := by
  intro g
  unfold Cur.downLeftForce
  rw [ht]; rfl

theorem RepC.pushRight {e : Engine} {σ : Mem D X} {d : Bool} {hlf : List (Bool × Tr)} {lv : Nat} {n : Option Name} {k : Loc}
    {lf : List (Bool × TNode D)} {x : D} {l r : Tree D} {hl hr : Option Tr}
    (h : RepC e σ ⟨d, hlf, some ⟨lv, n, k⟩, []⟩ ⟨d, lf, .node lv n x l r, []⟩) (hlk : LinkOK e σ n k)
    (hcell : σ.cells k = some (.node x hl hr)) (h1 : RepT e σ hl l) (h2 : RepT e σ hr r) :
    RepC e σ ⟨false, (d, ⟨lv, n, k⟩) :: hlf, hr, []⟩ ⟨false, (d, ⟨lv, n, x, l, r⟩) :: lf, r, []⟩ := by
  refine ⟨rfl, ⟨_, _, rfl, ⟨rfl, rfl, hlk, x, hl, hr, hcell, fun _ _ _ _ => rfl, h1⟩, h.l⟩, h2, rfl, .inr (.inl ⟨rfl, ?_⟩)⟩
  refine ⟨⟨hl, hcell⟩, rfl, ?_⟩
  rcases h.link with h5 | ⟨-, h5⟩ | ⟨h5, -⟩
  · simp only at h5; subst h5; exact LinkL.dirty
  · exact h5
  · simp only at h5; subst h5
    cases h.l
    cases d <;> exact trivial

theorem RepC.pushLeft {e : Engine} {σ : Mem D X} {d : Bool} {hrf : List (Bool × Tr)} {lv : Nat} {n : Option Name} {k : Loc}
    {rf : List (Bool × TNode D)} {x : D} {l r : Tree D} {hl hr : Option Tr}
    (h : RepC e σ ⟨d, [], some ⟨lv, n, k⟩, hrf⟩ ⟨d, [], .node lv n x l r, rf⟩) (hlk : LinkOK e σ n k)
    (hcell : σ.cells k = some (.node x hl hr)) (h1 : RepT e σ hl l) (h2 : RepT e σ hr r) :
    RepC e σ ⟨false, [], hl, (d, ⟨lv, n, k⟩) :: hrf⟩ ⟨false, [], l, (d, ⟨lv, n, x, l, r⟩) :: rf⟩ := by
  refine ⟨rfl, rfl, h1, ⟨_, _, rfl, ⟨rfl, rfl, hlk, x, hl, hr, hcell, fun _ _ _ _ => rfl, h2⟩, h.r⟩, .inr (.inr ⟨rfl, ?_⟩)⟩
  refine ⟨⟨hr, hcell⟩, rfl, ?_⟩
  rcases h.link with h5 | ⟨h5, -⟩ | ⟨-, h5⟩
  · simp only at h5; subst h5; exact LinkR.dirty
  · simp only at h5; subst h5
    cases h.r
    cases d <;> exact trivial
  · exact h5

theorem descendRight_sim {e : Engine} {σ : Mem D X} {level : Nat} : ∀ {t : Tree D} {hc : Cur} {c : Cursor D}, c.tree = t →
    RepC e σ hc c → c.rForest = [] →
    SimL (fun n => Cur.descendRightN level n hc) σ (c.descendRight level)
      (fun b a σ' => RepC e σ a b ∧ b.rForest = [] ∧ cN e b = cN e c ∧ σ' = σ) := by
  intro t
  induction t with
  | nil =>
    intro hc c hT h hr
    obtain ⟨d, lf, T, rf⟩ := c
    simp only at hT; subst hT
    have : Cursor.descendRight level ⟨d, lf, .nil, rf⟩ = .ok ⟨d, lf, .nil, rf⟩ := by
      unfold Cursor.descendRight; rfl
    rw [this]
    refine SimL.stop (m0 := pure hc) (fun n => ?_) (Sim.pure ⟨h, hr, rfl, rfl⟩)
    have ht : hc.tree = none := h.t
    simp [Cur.descendRightN, Cur.peekLevel, ht]
  | node lv n x l r ihl ihr =>
    intro hc c hT h hr
    obtain ⟨d, lf, T, rf⟩ := c
    simp only at hT hr; subst hT hr
    obtain ⟨hd, hlf, hT, hrf⟩ := hc
    have hx := h.dirty; simp only at hx; subst hx
    have hx : hrf = [] := h.r; subst hx
    obtain ⟨k, hl, hr, hx, hlk, hcell, h1, h2⟩ := h.t
    simp only at hx; subst hx
    rw [descendRight_node]
    by_cases hlt : lv < level
    · rw [if_pos hlt]
      refine SimL.stop (m0 := pure _) (fun n => ?_) (Sim.pure ⟨h, rfl, rfl, rfl⟩)
      simp [Cur.descendRightN, Cur.peekLevel, hlt]
    · rw [if_neg hlt]
      refine SimL.step (m0 := Cur.downRightForce .yes ⟨hd, hlf, some ⟨lv, n, k⟩, []⟩)
        (k := fun a n => liftP (assert a.2) >>= fun _ => Cur.descendRightN level n a.1) (fun n' => ?_)
        (downRight_run .yes rfl hcell) ?_
      · simp only [Cur.descendRightN, Cur.peekLevel, Option.map, hlt, if_false]
      · simp only [decide_false, Bool.and_false, Bool.false_eq_true, if_false, reduceCtorEq]
        exact (ihr rfl (h.pushRight hlk hcell h1 h2) rfl).mono
          (fun b a σ' _ ⟨k1, k2, k3, k4⟩ => ⟨k1, k2, by rw [k3]; simp [cN, lN, tN], k4⟩)

theorem descendLeft_sim {e : Engine} {σ : Mem D X} {level : Nat} : ∀ {t : Tree D} {hc : Cur} {c : Cursor D}, c.tree = t →
    RepC e σ hc c → c.lForest = [] →
    SimL (fun n => Cur.descendLeftN level n hc) σ (c.descendLeft level)
      (fun b a σ' => RepC e σ a b ∧ b.lForest = [] ∧ cN e b = cN e c ∧ σ' = σ) := by
  intro t
  induction t with
  | nil =>
    intro hc c hT h hr
    obtain ⟨d, lf, T, rf⟩ := c
    simp only at hT; subst hT
    have : Cursor.descendLeft level ⟨d, lf, .nil, rf⟩ = .ok ⟨d, lf, .nil, rf⟩ := by
      unfold Cursor.descendLeft; rfl
    rw [this]
    refine SimL.stop (m0 := pure hc) (fun n => ?_) (Sim.pure ⟨h, hr, rfl, rfl⟩)
    have ht : hc.tree = none := h.t
    simp [Cur.descendLeftN, Cur.peekLevel, ht]
  | node lv n x l r ihl ihr =>
    intro hc c hT h hr
    obtain ⟨d, lf, T, rf⟩ := c
    simp only at hT hr; subst hT hr
    obtain ⟨hd, hlf, hT, hrf⟩ := hc
    have hx := h.dirty; simp only at hx; subst hx
    have hx : hlf = [] := h.l; subst hx
    obtain ⟨k, hl, hr, hx, hlk, hcell, h1, h2⟩ := h.t
    simp only at hx; subst hx
    rw [descendLeft_node]
    by_cases hlt : lv ≤ level
    · rw [if_pos hlt]
      refine SimL.stop (m0 := pure _) (fun n => ?_) (Sim.pure ⟨h, rfl, rfl, rfl⟩)
      simp [Cur.descendLeftN, Cur.peekLevel, hlt]
    · rw [if_neg hlt]
      refine SimL.step (m0 := Cur.downLeftForce .yes ⟨hd, [], some ⟨lv, n, k⟩, hrf⟩)
        (k := fun a n => liftP (assert a.2) >>= fun _ => Cur.descendLeftN level n a.1) (fun n' => ?_)
        (downLeft_run .yes rfl hcell) ?_
      · simp only [Cur.descendLeftN, Cur.peekLevel, Option.map, hlt, if_false]
      · simp only [decide_false, Bool.and_false, Bool.false_eq_true, if_false, reduceCtorEq]
        exact (ihl rfl (h.pushLeft hlk hcell h1 h2) rfl).mono
          (fun b a σ' _ ⟨k1, k2, k3, k4⟩ => ⟨k1, k2, by rw [k3]; simp [cN, rN, tN], k4⟩)

omit [TreeUpdate D] in
/-- `while cursor.down_right() {}`, for any relation that the steps preserve. -/
theorem downRightAll_sim {e : Engine} {σ : Mem D X} {Q : Cur → Cursor D → Prop}
    (hT : ∀ hc c, Q hc c → RepT e σ hc.tree c.tree ∧ hc.dirty = c.dirty)
    (hQ : ∀ d hlf lv n k hrf lf x l r rf hl hr, Q ⟨d, hlf, some ⟨lv, n, k⟩, hrf⟩ ⟨d, lf, .node lv n x l r, rf⟩ → LinkOK e σ n k →
      σ.cells k = some (.node x hl hr) → RepT e σ hl l → RepT e σ hr r →
      Q ⟨false, (d, ⟨lv, n, k⟩) :: hlf, hr, hrf⟩ ⟨false, (d, ⟨lv, n, x, l, r⟩) :: lf, r, rf⟩) :
    ∀ {t : Tree D} {hc : Cur} {c : Cursor D}, c.tree = t → Q hc c →
    SimL (fun n => Cur.downRightAllN n hc) σ (.ok c.downRightAll) (fun b a σ' => Q a b ∧ σ' = σ) := by
  intro t
  induction t with
  | nil =>
    intro hc c ht h
    obtain ⟨d, lf, T, rf⟩ := c
    simp only at ht; subst ht
    have e1 : Cursor.downRightAll ⟨d, lf, .nil, rf⟩ = ⟨d, lf, .nil, rf⟩ := by
      unfold Cursor.downRightAll; rfl
    rw [e1]
    have h2 : hc.tree = none := (hT _ _ h).1
    refine SimL.step (m0 := hc.downRightForce .no) (k := fun a n => if a.2 then Cur.downRightAllN n a.1 else pure a.1) (fun n' => rfl)
      (downRight_none .no h2) ?_
    exact SimL.const (Sim.pure ⟨h, rfl⟩)
  | node lv n x l r ihl ihr =>
    intro hc c ht h
    obtain ⟨d, lf, T, rf⟩ := c
    simp only at ht; subst ht
    obtain ⟨hd, hlf, hTt, hrf⟩ := hc
    obtain ⟨⟨k, hl, hr, hx, hlk, hcell, h1, h2⟩, hx2⟩ := hT _ _ h
    simp only at hx hx2; subst hx hx2
    rw [downRightAll_node]
    cases hs : r.isSome with
    | false =>
      have hrn : hr.isNone = true := by rw [h2.isNone, hs]; rfl
      refine SimL.step (m0 := Cur.downRightForce .no ⟨hd, hlf, some ⟨lv, n, k⟩, hrf⟩)
        (k := fun a n => if a.2 then Cur.downRightAllN n a.1 else pure a.1) (fun n' => rfl)
        (downRight_run .no rfl hcell) ?_
      simp only [hrn, decide_true, Bool.and_self, if_true, Bool.false_eq_true, if_false]
      exact SimL.const (Sim.pure ⟨h, rfl⟩)
    | true =>
      have hrn : hr.isNone = false := by rw [h2.isNone, hs]; rfl
      refine SimL.step (m0 := Cur.downRightForce .no ⟨hd, hlf, some ⟨lv, n, k⟩, hrf⟩)
        (k := fun a n => if a.2 then Cur.downRightAllN n a.1 else pure a.1) (fun n' => rfl)
        (downRight_run .no rfl hcell) ?_
      simp only [hrn, decide_true, Bool.and_true, Bool.false_eq_true, if_true, if_false, reduceCtorEq]
      exact ihr rfl (hQ _ _ _ _ _ _ _ _ _ _ _ _ _ h hlk hcell h1 h2)

omit [TreeUpdate D] in
/-- `while cursor.down_left() {}`, for any relation that the steps preserve. -/
theorem downLeftAll_sim {e : Engine} {σ : Mem D X} {Q : Cur → Cursor D → Prop}
    (hT : ∀ hc c, Q hc c → RepT e σ hc.tree c.tree ∧ hc.dirty = c.dirty)
    (hQ : ∀ d hlf lv n k hrf lf x l r rf hl hr, Q ⟨d, hlf, some ⟨lv, n, k⟩, hrf⟩ ⟨d, lf, .node lv n x l r, rf⟩ → LinkOK e σ n k →
      σ.cells k = some (.node x hl hr) → RepT e σ hl l → RepT e σ hr r →
      Q ⟨false, hlf, hl, (d, ⟨lv, n, k⟩) :: hrf⟩ ⟨false, lf, l, (d, ⟨lv, n, x, l, r⟩) :: rf⟩) :
    ∀ {t : Tree D} {hc : Cur} {c : Cursor D}, c.tree = t → Q hc c →
    SimL (fun n => Cur.downLeftAllN n hc) σ (.ok c.downLeftAll) (fun b a σ' => Q a b ∧ σ' = σ) := by
  intro t
  induction t with
  | nil =>
    intro hc c ht h
    obtain ⟨d, lf, T, rf⟩ := c
    simp only at ht; subst ht
    have e1 : Cursor.downLeftAll ⟨d, lf, .nil, rf⟩ = ⟨d, lf, .nil, rf⟩ := by
      unfold Cursor.downLeftAll; rfl
    rw [e1]
    have h2 : hc.tree = none := (hT _ _ h).1
    refine SimL.step (m0 := hc.downLeftForce .no) (k := fun a n => if a.2 then Cur.downLeftAllN n a.1 else pure a.1) (fun n' => rfl)
      (downLeft_none .no h2) ?_
    exact SimL.const (Sim.pure ⟨h, rfl⟩)
  | node lv n x l r ihl ihr =>
    intro hc c ht h
    obtain ⟨d, lf, T, rf⟩ := c
    simp only at ht; subst ht
    obtain ⟨hd, hlf, hTt, hrf⟩ := hc
    obtain ⟨⟨k, hl, hr, hx, hlk, hcell, h1, h2⟩, hx2⟩ := hT _ _ h
    simp only at hx hx2; subst hx hx2
    rw [downLeftAll_node]
    cases hs : l.isSome with
    | false =>
      have hrn : hl.isNone = true := by rw [h1.isNone, hs]; rfl
      refine SimL.step (m0 := Cur.downLeftForce .no ⟨hd, hlf, some ⟨lv, n, k⟩, hrf⟩)
        (k := fun a n => if a.2 then Cur.downLeftAllN n a.1 else pure a.1) (fun n' => rfl)
        (downLeft_run .no rfl hcell) ?_
      simp only [hrn, decide_true, Bool.and_self, if_true, Bool.false_eq_true, if_false]
      exact SimL.const (Sim.pure ⟨h, rfl⟩)
    | true =>
      have hrn : hl.isNone = false := by rw [h1.isNone, hs]; rfl
      refine SimL.step (m0 := Cur.downLeftForce .no ⟨hd, hlf, some ⟨lv, n, k⟩, hrf⟩)
        (k := fun a n => if a.2 then Cur.downLeftAllN n a.1 else pure a.1) (fun n' => rfl)
        (downLeft_run .no rfl hcell) ?_
      simp only [hrn, decide_true, Bool.and_true, Bool.false_eq_true, if_true, if_false, reduceCtorEq]
      exact ihl rfl (hQ _ _ _ _ _ _ _ _ _ _ _ _ _ h hlk hcell h1 h2)

/-- On a cursor with entries on the left only. -/
theorem downRightAll_one {e : Engine} {σ : Mem D X} {hc : Cur} {c : Cursor D} (h : RepC e σ hc c) (hr : c.rForest = []) :
    Sim hc.downRightAll σ (.ok c.downRightAll) (fun b a σ' => RepC e σ a b ∧ b.rForest = [] ∧ cN e b = cN e c ∧ σ' = σ) := by
  refine ((downRightAll_sim (e := e) (Q := fun a b => RepC e σ a b ∧ b.rForest = [] ∧ cN e b = cN e c)
    (fun _ _ q => ⟨q.1.t, q.1.dirty⟩) ?_ rfl ⟨h, hr, rfl⟩).run).mono (fun b a σ' _ ⟨⟨h1, h2, h3⟩, h4⟩ => ⟨h1, h2, h3, h4⟩)
  rintro d hlf lv n k hrf lf x l r rf hl hr ⟨q1, q2, q3⟩ hlk hcell h1 h2
  simp only at q2; subst q2
  have hx : hrf = [] := q1.r; subst hx
  exact ⟨q1.pushRight hlk hcell h1 h2, rfl, by rw [← q3]; simp [cN, lN, tN]⟩

/-- On a cursor with entries on the right only. -/
theorem downLeftAll_one {e : Engine} {σ : Mem D X} {hc : Cur} {c : Cursor D} (h : RepC e σ hc c) (hr : c.lForest = []) :
    Sim hc.downLeftAll σ (.ok c.downLeftAll) (fun b a σ' => RepC e σ a b ∧ b.lForest = [] ∧ cN e b = cN e c ∧ σ' = σ) := by
  refine ((downLeftAll_sim (e := e) (Q := fun a b => RepC e σ a b ∧ b.lForest = [] ∧ cN e b = cN e c)
    (fun _ _ q => ⟨q.1.t, q.1.dirty⟩) ?_ rfl ⟨h, hr, rfl⟩).run).mono (fun b a σ' _ ⟨⟨h1, h2, h3⟩, h4⟩ => ⟨h1, h2, h3, h4⟩)
  rintro d hlf lv n k hrf lf x l r rf hl hr ⟨q1, q2, q3⟩ hlk hcell h1 h2
  simp only at q2; subst q2
  have hx : hlf = [] := q1.l; subst hx
  exact ⟨q1.pushLeft hlk hcell h1 h2, rfl, by rw [← q3]; simp [cN, rN, tN]⟩

omit [TreeUpdate D] in
/-- Only the focused tree matters for what is read at the end. -/
theorem downRightAll_read {e : Engine} {σ : Mem D X} {hc : Cur} {c : Cursor D} (h : RepT e σ hc.tree c.tree) (hd : hc.dirty = c.dirty) :
    Sim hc.downRightAll σ (.ok c.downRightAll) (fun b a σ' => RepT e σ a.tree b.tree ∧ σ' = σ) := by
  refine ((downRightAll_sim (e := e) (Q := fun a b => RepT e σ a.tree b.tree ∧ a.dirty = b.dirty)
    (fun _ _ q => q) ?_ rfl ⟨h, hd⟩).run).mono (fun b a σ' _ ⟨h1, h4⟩ => ⟨h1.1, h4⟩)
  rintro d hlf lv n k hrf lf x l r rf hl hr ⟨q1, q2⟩ hlk hcell h1 h2
  exact ⟨h2, rfl⟩

omit [TreeUpdate D] in
theorem downLeftAll_read {e : Engine} {σ : Mem D X} {hc : Cur} {c : Cursor D} (h : RepT e σ hc.tree c.tree) (hd : hc.dirty = c.dirty) :
    Sim hc.downLeftAll σ (.ok c.downLeftAll) (fun b a σ' => RepT e σ a.tree b.tree ∧ σ' = σ) := by
  refine ((downLeftAll_sim (e := e) (Q := fun a b => RepT e σ a.tree b.tree ∧ a.dirty = b.dirty)
    (fun _ _ q => q) ?_ rfl ⟨h, hd⟩).run).mono (fun b a σ' _ ⟨h1, h4⟩ => ⟨h1.1, h4⟩)
  rintro d hlf lv n k hrf lf x l r rf hl hr ⟨q1, q2⟩ hlk hcell h1 h2
  exact ⟨h1, rfl⟩

/-! ### Joining -/

theorem RepC.stopLeft {e : Engine} {level : Nat} (σ : Mem D X) (hc : Cur) (c : Cursor D) (h : RepC e σ hc c) :
    Cur.stopLeft level hc = Cursor.stopLeft level c := by
  obtain ⟨d, lf, T, rf⟩ := c
  obtain ⟨hd, hlf, hT, hrf⟩ := hc
  have h2 := h.l
  simp only at h2
  rcases lf with _ | ⟨⟨d1, u1⟩, lf⟩
  · cases h2; rfl
  · obtain ⟨y, hs', rfl, a, -⟩ := h2
    simp [Cur.stopLeft, Cursor.stopLeft, Cursor.upLeftLevel, a.1]

theorem RepC.stopRight {e : Engine} {level : Nat} (σ : Mem D X) (hc : Cur) (c : Cursor D) (h : RepC e σ hc c) :
    Cur.stopRight level hc = Cursor.stopRight level c := by
  obtain ⟨d, lf, T, rf⟩ := c
  obtain ⟨hd, hlf, hT, hrf⟩ := hc
  have h2 := h.r
  simp only at h2
  rcases rf with _ | ⟨⟨d1, u1⟩, rf⟩
  · cases h2; rfl
  · obtain ⟨y, hs', rfl, a, -⟩ := h2
    simp [Cur.stopRight, Cursor.stopRight, Cursor.upRightLevel, a.1]

theorem RepC.stopRE {e : Engine} (σ : Mem D X) (hc : Cur) (c : Cursor D) (h : RepC e σ hc c) :
    hc.rForest.isEmpty = c.rForest.isEmpty := by
  have := h.r.length
  cases h1 : hc.rForest <;> cases h2 : c.rForest <;> simp_all

theorem RepC.stopLE {e : Engine} (σ : Mem D X) (hc : Cur) (c : Cursor D) (h : RepC e σ hc c) :
    hc.lForest.isEmpty = c.lForest.isEmpty := by
  have := h.l.length
  cases h1 : hc.lForest <;> cases h2 : c.lForest <;> simp_all

/-- Names that `join` may write. -/
def jN (e : Engine) (lc : Cursor D) (name : Option Name) (rc : Cursor D) : List Name :=
  (eN e lc.lForest ++ eN e lc.rForest) ++ (nm e name ++ (eN e rc.lForest ++ eN e rc.rForest))

theorem join_sim [LawfulUpdate D] {e : Engine} {σ : Mem D X} {hl hr : Cur} {lc rc : Cursor D} {level : Nat} {name : Option Name}
    {data : D} (h1 : RepC e σ hl lc) (h2 : RepC e σ hr rc) (hn : (cN e lc ++ (nm e name ++ cN e rc)).Nodup) :
    Sim (Cur.join e hl level name data hr) σ (Cursor.join lc level name data rc) (fun b a σ' => RepC e σ' a b ∧
      cN e b = cN e lc ++ (nm e name ++ cN e rc) ∧ Keeps (jN e lc name rc) σ σ' ∧ b.dirty = true) := by
  have nl : (cN e lc).Nodup := (List.nodup_append.1 hn).1
  have nr : (cN e rc).Nodup := (List.nodup_append.1 (List.nodup_append.1 hn).2.1).2.1
  have dlr : Dis (cN e lc) (cN e rc) := by grind [Dis, List.nodup_append]
  have dln : Dis (cN e lc) (nm e name) := by grind [Dis, List.nodup_append]
  have drn : Dis (cN e rc) (nm e name) := by grind [Dis, List.nodup_append]
  have subl : ∀ c : Cursor D, eN e c.lForest ++ eN e c.rForest ⊆ cN e c := by
    intro c x hx
    rcases List.mem_append.1 hx with h | h
    · have := eN_l e _ h; simp only [cN, List.mem_append]; tauto
    · have := eN_r e _ h; simp only [cN, List.mem_append]; tauto
  unfold Cur.join Cursor.join
  rw [h1.height, h2.height]
  refine (upUntil_sim RepC.stopRE lc.height h1 nl).bind ?_
  rintro l1 hl1 σ1 - ⟨a1, a2, a3, a4⟩
  have b1 := h2.keep a3 (dlr.symm.mono (List.Subset.refl _) (subl _))
  refine (upUntil_sim RepC.stopLE rc.height b1 nr).bind ?_
  rintro r1 hr1 σ2 - ⟨b1, b2, b3, b4⟩
  have a1 := a1.keep b3 ((a2.eq ▸ dlr).mono (List.Subset.refl _) (subl _))
  rw [a1.height, b1.height]
  refine (upUntil_sim RepC.stopLeft l1.height a1 (a2.eq ▸ nl)).bind ?_
  rintro l2 hl2 σ3 - ⟨c1, c2, c3, -⟩
  have b1 := b1.keep c3 ((b2.eq ▸ dlr.symm).mono (List.Subset.refl _) (List.Subset.trans (subl _) (a2.eq ▸ List.Subset.refl _)))
  have hl2r : l2.rForest = [] := c2.re (by simpa using a4)
  refine ((descendRight_sim rfl c1 hl2r).run).bind ?_
  rintro l3 hl3 σ' - ⟨d1, d2, d3, rfl⟩
  refine (upUntil_sim RepC.stopRight r1.height b1 (b2.eq ▸ nr)).bind ?_
  rintro r2 hr2 σ4 - ⟨e1, e2, e3, -⟩
  have hr2l : r2.lForest = [] := e2.le (by simpa using b4)
  have l3n : cN e l3 = cN e lc := by rw [d3, c2.eq, a2.eq]
  have d1 := d1.keep e3 ((l3n ▸ dlr).mono (List.Subset.refl _) (List.Subset.trans (subl _) (b2.eq ▸ List.Subset.refl _)))
  refine ((descendLeft_sim rfl e1 hr2l).run).bind ?_
  rintro r3 hr3 σ' - ⟨f1, f2, f3, rfl⟩
  have r3n : cN e r3 = cN e rc := by rw [f3, e2.eq, b2.eq]
  refine Sim.step (peekOp_run d1.t) (Sim.step (peekOp_run f1.t) (Sim.liftBind ?_))
  intro dat _
  obtain ⟨k, σ5, hrun, g1, g2, g3⟩ := newTree_run e level name dat hl3.tree hr3.tree σ'
  refine Sim.step hrun (Sim.pure ?_)
  have d1' := d1.keep g3 (l3n ▸ dln)
  have f1' := f1.keep g3 (r3n ▸ drn)
  refine ⟨⟨rfl, d1'.l, ⟨k, _, _, rfl, g1, g2, d1'.t, f1'.t⟩, f1'.r, .inl rfl⟩, ?_, ?_, rfl⟩
  · rw [← l3n, ← r3n]
    simp [cN, tN, d2, f2, lN, rN]
  · have s1 : ∀ {a b : Cursor D}, UpTo e a b → eN e b.lForest ++ eN e b.rForest ⊆ eN e a.lForest ++ eN e a.rForest :=
      fun h => List.append_subset.2
        ⟨List.subset_append_of_subset_left _ h.el, List.subset_append_of_subset_right _ h.er⟩
    have sl : eN e lc.lForest ++ eN e lc.rForest ⊆ jN e lc name rc := List.subset_append_left _ _
    have sn : nm e name ⊆ jN e lc name rc := by intro x; simp only [jN, List.mem_append]; tauto
    have sr : eN e rc.lForest ++ eN e rc.rForest ⊆ jN e lc name rc := by intro x; simp only [jN, List.mem_append]; tauto
    exact (a3.mono sl).trans ((b3.mono sr).trans ((c3.mono (List.Subset.trans (s1 a2) sl)).trans
      ((e3.mono (List.Subset.trans (s1 b2) sr)).trans (g3.mono sn))))

theorem RepC.ofTree {e : Engine} {σ : Mem D X} {h : Tr} {t : Tree D} (hr : RepT e σ (some h) t) :
    RepC e σ (Cur.ofTree h) (Cursor.ofTree t) :=
  ⟨rfl, rfl, hr, rfl, .inr (.inl ⟨rfl, trivial⟩)⟩

theorem RepC.new {e : Engine} {σ : Mem D X} : RepC e σ Cur.new (Cursor.new : Cursor D) :=
  ⟨rfl, rfl, rfl, rfl, .inr (.inl ⟨rfl, trivial⟩)⟩

end Iodyn.Heap
