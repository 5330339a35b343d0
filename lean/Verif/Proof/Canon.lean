import Verif.Proof.Ops
import Mathlib.Data.List.Basic
/-
Canonical (heap ordered) trees: which operations keep them, and uniqueness.
-/
namespace Iodyn

/-- Inversion of a `do` step. -/
theorem bind_ok {α β : Type} {x : P α} {f : α → P β} {b : β} :
    (x >>= f) = .ok b ↔ ∃ a, x = .ok a ∧ f a = .ok b := by
  cases x <;> simp [bind, Except.bind]

theorem unwrap_ok {α : Type} {x : Option α} {a : α} : unwrap x = .ok a ↔ x = some a := by
  cases x <;> simp [unwrap]

/-- Heap order: levels strictly smaller on the left, not greater on the right. -/
def Canon {D : Type} : Tree D → Prop
  | .nil => True
  | .node lv _ _ l r => (∀ x ∈ l.level?, x < lv) ∧ (∀ x ∈ r.level?, x ≤ lv) ∧ Canon l ∧ Canon r

/-- Left forest in heap order: entries from the focus upwards do not get smaller. -/
structure LC {D : Type} (l : List (Bool × TNode D)) : Prop where
  c : ∀ p ∈ l, Canon p.2.toTree
  s : l.Pairwise (fun a b => a.2.level ≤ b.2.level)
/-- Right forest in heap order: entries from the focus upwards get greater. -/
structure RC {D : Type} (l : List (Bool × TNode D)) : Prop where
  c : ∀ p ∈ l, Canon p.2.toTree
  s : l.Pairwise (fun a b => a.2.level < b.2.level)

/-- Cursor on a heap ordered tree. -/
structure CC {D : Type} (c : Cursor D) : Prop where
  l : LC c.lForest
  r : RC c.rForest
  t : Canon c.tree
  tl : ∀ p ∈ c.lForest, ∀ x ∈ c.tree.level?, x ≤ p.2.level
  tr : ∀ p ∈ c.rForest, ∀ x ∈ c.tree.level?, x < p.2.level

variable {D : Type}

theorem LC.tail {p : Bool × TNode D} {l} (h : LC (p :: l)) : LC l :=
  ⟨fun q hq => h.c q (List.mem_cons_of_mem _ hq), (List.pairwise_cons.1 h.s).2⟩
theorem RC.tail {p : Bool × TNode D} {l} (h : RC (p :: l)) : RC l :=
  ⟨fun q hq => h.c q (List.mem_cons_of_mem _ hq), (List.pairwise_cons.1 h.s).2⟩
theorem LC.nil : LC ([] : List (Bool × TNode D)) := ⟨by simp, by simp⟩
theorem RC.nil : RC ([] : List (Bool × TNode D)) := ⟨by simp, by simp⟩

theorem CC.ofTree {t : Tree D} (h : Canon t) : CC (Cursor.ofTree t) :=
  ⟨LC.nil, RC.nil, h, by simp [Cursor.ofTree], by simp [Cursor.ofTree]⟩

theorem CC.up [TreeUpdate D] {c c' : Cursor D} {res} (h : CC c) (hu : c.up = .ok (c', res)) : CC c' := by
  obtain ⟨dirty, lf, t, rf⟩ := c
  obtain ⟨hl, hr, ht, htl, htr⟩ := h
  simp only at hl hr ht htl htr
  -- the two directions
  have left : ∀ d u rest, lf = (d, u) :: rest → (∀ p ∈ rf, u.level < p.2.level) →
      ∀ (b : Bool) x, x = u.toTree ∨ (∃ y, x = .node u.level u.name y u.l t) → CC (⟨b, rest, x, rf⟩ : Cursor D) := by
    intro d u rest hlf hrf b x hx
    subst hlf
    have hu := hl.c (d, u) (by simp)
    have hlev : ∀ v ∈ x.level?, v = u.level := by
      rcases hx with rfl | ⟨y, rfl⟩ <;> simp [Tree.level?, TNode.toTree]
    refine ⟨hl.tail, hr, ?_, ?_, ?_⟩
    · rcases hx with rfl | ⟨y, rfl⟩
      · exact hu
      · exact ⟨hu.1, fun z hz => htl (d, u) (by simp) z hz, hu.2.2.1, ht⟩
    · intro p hp v hv
      rw [hlev v hv]
      exact (List.pairwise_cons.1 hl.s).1 p hp
    · intro p hp v hv
      rw [hlev v hv]
      exact hrf p hp
  have right : ∀ d u rest, rf = (d, u) :: rest → (∀ p ∈ lf, u.level ≤ p.2.level) →
      ∀ (b : Bool) x, x = u.toTree ∨ (∃ y, x = .node u.level u.name y t u.r) → CC (⟨b, lf, x, rest⟩ : Cursor D) := by
    intro d u rest hrf hlf b x hx
    subst hrf
    have hu := hr.c (d, u) (by simp)
    have hlev : ∀ v ∈ x.level?, v = u.level := by
      rcases hx with rfl | ⟨y, rfl⟩ <;> simp [Tree.level?, TNode.toTree]
    refine ⟨hl, hr.tail, ?_, ?_, ?_⟩
    · rcases hx with rfl | ⟨y, rfl⟩
      · exact hu
      · exact ⟨fun z hz => htr (d, u) (by simp) z hz, hu.2.1, ht, hu.2.2.2⟩
    · intro p hp v hv
      rw [hlev v hv]
      exact hlf p hp
    · intro p hp v hv
      rw [hlev v hv]
      exact (List.pairwise_cons.1 hr.s).1 p hp
  unfold Cursor.up at hu
  have hdir : (∃ d u rest, lf = (d, u) :: rest ∧ Cursor.upDir ⟨dirty, lf, t, rf⟩ = .left ∧
        ∀ p ∈ rf, u.level < p.2.level) ∨
      (∃ d u rest, rf = (d, u) :: rest ∧ Cursor.upDir ⟨dirty, lf, t, rf⟩ = .right ∧
        ∀ p ∈ lf, u.level ≤ p.2.level) ∨ (Cursor.upDir ⟨dirty, lf, t, rf⟩ = .fail) := by
    match lf, rf, hl, hr with
    | [], [], _, _ => exact .inr (.inr rfl)
    | (d, u) :: rest, [], _, _ => exact .inl ⟨d, u, rest, rfl, rfl, by simp⟩
    | [], (d, u) :: rest, _, _ => exact .inr (.inl ⟨d, u, rest, rfl, rfl, by simp⟩)
    | (d, u) :: rest, (d', u') :: rest', hl, hr =>
      by_cases hc : u'.level > u.level
      · refine .inl ⟨d, u, rest, rfl, by simp [Cursor.upDir, hc], ?_⟩
        intro p hp
        rcases List.mem_cons.1 hp with rfl | hp
        · exact hc
        · exact Nat.lt_trans hc ((List.pairwise_cons.1 hr.s).1 p hp)
      · refine .inr (.inl ⟨d', u', rest', rfl, by simp [Cursor.upDir, hc], ?_⟩)
        intro p hp
        rcases List.mem_cons.1 hp with rfl | hp
        · exact Nat.le_of_not_lt hc
        · exact Nat.le_trans (Nat.le_of_not_lt hc) ((List.pairwise_cons.1 hl.s).1 p hp)
  rcases hdir with ⟨d, u, rest, e1, e2, e3⟩ | ⟨d, u, rest, e1, e2, e3⟩ | e
  · rw [e2] at hu
    simp only [e1] at hu
    cases dirty with
    | true =>
      simp only [if_true, bind_ok] at hu
      obtain ⟨y, -, hy⟩ := hu
      simp [pure, Except.pure] at hy
      rw [← hy.1]
      exact left d u rest e1 e3 _ _ (.inr ⟨y, rfl⟩)
    | false =>
      simp at hu
      rw [← hu.1]
      exact left d u rest e1 e3 _ _ (.inl rfl)
  · rw [e2] at hu
    simp only [e1] at hu
    cases dirty with
    | true =>
      simp only [if_true, bind_ok] at hu
      obtain ⟨y, -, hy⟩ := hu
      simp [pure, Except.pure] at hy
      rw [← hy.1]
      exact right d u rest e1 e3 _ _ (.inr ⟨y, rfl⟩)
    | false =>
      simp at hu
      rw [← hu.1]
      exact right d u rest e1 e3 _ _ (.inl rfl)
  · rw [e] at hu
    simp at hu
    rw [← hu.1]
    exact ⟨hl, hr, ht, htl, htr⟩

theorem CC.upUntil [TreeUpdate D] {stop : Cursor D → Bool} : ∀ (n : Nat) (c c' : Cursor D), CC c →
    Cursor.upUntil stop n c = .ok c' → CC c' ∧ stop c' = true := by
  intro n
  induction n with
  | zero =>
    intro c c' h hu
    simp only [Cursor.upUntil] at hu
    split at hu
    · simp at hu; subst hu; exact ⟨h, by assumption⟩
    · simp at hu
  | succ n ih =>
    intro c c' h hu
    simp only [Cursor.upUntil] at hu
    split at hu
    · simp at hu; subst hu; exact ⟨h, by assumption⟩
    · obtain ⟨⟨c1, res⟩, h1, h2⟩ := bind_ok.1 hu
      simp only at h2
      split at h2
      · simp at h2
      · exact ih c1 c' (h.up h1) h2

theorem CC.upAll [TreeUpdate D] : ∀ (n : Nat) (c c' : Cursor D), CC c →
    Cursor.upAll n c = .ok c' → CC c' := by
  intro n
  induction n with
  | zero => intro c c' h hu; simp [Cursor.upAll] at hu; exact hu ▸ h
  | succ n ih =>
    intro c c' h hu
    simp only [Cursor.upAll] at hu
    obtain ⟨⟨c1, res⟩, h1, h2⟩ := bind_ok.1 hu
    simp only at h2
    split at h2
    · simp at h2; exact h2 ▸ h.up h1
    · exact ih c1 c' (h.up h1) h2

/-- Going down keeps heap order. -/
theorem CC.downR {d lf lv nm rf} {x : D} {l r : Tree D} (h : CC ⟨d, lf, .node lv nm x l r, rf⟩) (b : Bool) :
    CC (⟨b, (d, ⟨lv, nm, x, l, r⟩) :: lf, r, rf⟩ : Cursor D) := by
  obtain ⟨hl, hr, ht, htl, htr⟩ := h
  simp only [Tree.level?, Option.mem_def, Option.some.injEq, forall_eq'] at htl htr
  obtain ⟨t1, t2, t3, t4⟩ := id ht
  refine ⟨⟨?_, ?_⟩, hr, t4, ?_, ?_⟩
  · intro p hp
    rcases List.mem_cons.1 hp with rfl | hp
    · exact ht
    · exact hl.c p hp
  · exact List.pairwise_cons.2 ⟨htl, hl.s⟩
  · intro p hp v hv
    rcases List.mem_cons.1 hp with rfl | hp
    · exact t2 v hv
    · exact Nat.le_trans (t2 v hv) (htl p hp)
  · intro p hp v hv
    exact Nat.lt_of_le_of_lt (t2 v hv) (htr p hp)

theorem CC.downL {d lf lv nm rf} {x : D} {l r : Tree D} (h : CC ⟨d, lf, .node lv nm x l r, rf⟩) (b : Bool) :
    CC (⟨b, lf, l, (d, ⟨lv, nm, x, l, r⟩) :: rf⟩ : Cursor D) := by
  obtain ⟨hl, hr, ht, htl, htr⟩ := h
  simp only [Tree.level?, Option.mem_def, Option.some.injEq, forall_eq'] at htl htr
  obtain ⟨t1, t2, t3, t4⟩ := id ht
  refine ⟨hl, ⟨?_, ?_⟩, t3, ?_, ?_⟩
  · intro p hp
    rcases List.mem_cons.1 hp with rfl | hp
    · exact ht
    · exact hr.c p hp
  · exact List.pairwise_cons.2 ⟨htr, hr.s⟩
  · intro p hp v hv
    exact Nat.le_trans (Nat.le_of_lt (t1 v hv)) (htl p hp)
  · intro p hp v hv
    rcases List.mem_cons.1 hp with rfl | hp
    · exact t1 v hv
    · exact Nat.lt_trans (t1 v hv) (htr p hp)

theorem CC.descendRight {level : Nat} : ∀ (t : Tree D) (c c' : Cursor D), c.tree = t → CC c →
    (∀ p ∈ c.lForest, level ≤ p.2.level) → c.descendRight level = .ok c' →
    CC c' ∧ (∀ x ∈ c'.tree.level?, x < level) ∧ (∀ p ∈ c'.lForest, level ≤ p.2.level) ∧ c'.rForest = c.rForest := by
  intro t
  induction t with
  | nil =>
    intro c c' hc h hlev hd
    unfold Cursor.descendRight at hd
    split at hd
    · simp at hd; subst hd; exact ⟨h, by simp [hc, Tree.level?], hlev, rfl⟩
    · rename_i heq; rw [hc] at heq; simp at heq
  | node lv nm x l r ihl ihr =>
    intro c c' hc h hlev hd
    obtain ⟨d, lf, t, rf⟩ := c
    simp only at hc; subst hc
    rw [descendRight_node] at hd
    split at hd
    · rename_i hlt
      simp at hd; subst hd
      exact ⟨h, by simpa [Tree.level?] using hlt, hlev, rfl⟩
    · rename_i hlt
      obtain ⟨k1, k2, k3, k4⟩ := ihr _ c' rfl (h.downR false) (by
        intro p hp
        rcases List.mem_cons.1 hp with rfl | hp
        · exact Nat.le_of_not_lt hlt
        · exact hlev p hp) hd
      exact ⟨k1, k2, k3, k4⟩

theorem CC.descendLeft {level : Nat} : ∀ (t : Tree D) (c c' : Cursor D), c.tree = t → CC c →
    (∀ p ∈ c.rForest, level < p.2.level) → c.descendLeft level = .ok c' →
    CC c' ∧ (∀ x ∈ c'.tree.level?, x ≤ level) ∧ (∀ p ∈ c'.rForest, level < p.2.level) ∧ c'.lForest = c.lForest := by
  intro t
  induction t with
  | nil =>
    intro c c' hc h hlev hd
    unfold Cursor.descendLeft at hd
    split at hd
    · simp at hd; subst hd; exact ⟨h, by simp [hc, Tree.level?], hlev, rfl⟩
    · rename_i heq; rw [hc] at heq; simp at heq
  | node lv nm x l r ihl ihr =>
    intro c c' hc h hlev hd
    obtain ⟨d, lf, t, rf⟩ := c
    simp only at hc; subst hc
    rw [descendLeft_node] at hd
    split at hd
    · rename_i hlt
      simp at hd; subst hd
      exact ⟨h, by simpa [Tree.level?] using hlt, hlev, rfl⟩
    · rename_i hlt
      obtain ⟨k1, k2, k3, k4⟩ := ihl _ c' rfl (h.downL false) (by
        intro p hp
        rcases List.mem_cons.1 hp with rfl | hp
        · exact Nat.lt_of_not_le hlt
        · exact hlev p hp) hd
      exact ⟨k1, k2, k3, k4⟩

theorem LC.all_ge {l : List (Bool × TNode D)} (h : LC l) {n : Nat}
    (hn : ∀ x ∈ l.head?.map (fun p => p.2.level), n ≤ x) : ∀ p ∈ l, n ≤ p.2.level := by
  cases l with
  | nil => simp
  | cons q l =>
    simp at hn
    intro p hp
    rcases List.mem_cons.1 hp with rfl | hp
    · exact hn
    · exact Nat.le_trans hn ((List.pairwise_cons.1 h.s).1 p hp)

theorem RC.all_gt {l : List (Bool × TNode D)} (h : RC l) {n : Nat}
    (hn : ∀ x ∈ l.head?.map (fun p => p.2.level), n < x) : ∀ p ∈ l, n < p.2.level := by
  cases l with
  | nil => simp
  | cons q l =>
    simp at hn
    intro p hp
    rcases List.mem_cons.1 hp with rfl | hp
    · exact hn
    · exact Nat.lt_trans hn ((List.pairwise_cons.1 h.s).1 p hp)

theorem CC.join [TreeUpdate D] {lc rc c : Cursor D} {level name data} (hl : CC lc) (hr : CC rc)
    (hj : Cursor.join lc level name data rc = .ok c) : CC c := by
  unfold Cursor.join at hj
  obtain ⟨l1, a1, hj⟩ := bind_ok.1 hj
  obtain ⟨r1, b1, hj⟩ := bind_ok.1 hj
  obtain ⟨l2, a2, hj⟩ := bind_ok.1 hj
  obtain ⟨l3, a3, hj⟩ := bind_ok.1 hj
  obtain ⟨r2, b2, hj⟩ := bind_ok.1 hj
  obtain ⟨r3, b3, hj⟩ := bind_ok.1 hj
  obtain ⟨y, -, hj⟩ := bind_ok.1 hj
  simp [pure, Except.pure] at hj
  obtain ⟨h1, -⟩ := CC.upUntil _ _ _ hl a1
  obtain ⟨g1, -⟩ := CC.upUntil _ _ _ hr b1
  obtain ⟨h2, s2⟩ := CC.upUntil _ _ _ h1 a2
  obtain ⟨g2, t2⟩ := CC.upUntil _ _ _ g1 b2
  have hge : ∀ p ∈ l2.lForest, level ≤ p.2.level := by
    apply h2.l.all_ge
    intro x hx
    simp only [Cursor.stopLeft, Cursor.upLeftLevel] at s2
    rw [Option.mem_def] at hx
    simpa [hx] using s2
  have hgt : ∀ p ∈ r2.rForest, level < p.2.level := by
    apply g2.r.all_gt
    intro x hx
    simp only [Cursor.stopRight, Cursor.upRightLevel] at t2
    rw [Option.mem_def] at hx
    simpa [hx] using t2
  obtain ⟨h3, x1, x2, -⟩ := CC.descendRight _ _ _ rfl h2 hge a3
  obtain ⟨g3, y1, y2, -⟩ := CC.descendLeft _ _ _ rfl g2 hgt b3
  subst hj
  refine ⟨h3.l, g3.r, ⟨x1, y1, h3.t, g3.t⟩, ?_, ?_⟩
  · intro p hp v hv
    simp [Tree.level?] at hv
    exact hv ▸ x2 p hp
  · intro p hp v hv
    simp [Tree.level?] at hv
    exact hv ▸ y2 p hp

theorem CC.downRightAll : ∀ (t : Tree D) (c : Cursor D), c.tree = t → CC c → CC c.downRightAll := by
  intro t
  induction t with
  | nil =>
    intro c hc h
    unfold Cursor.downRightAll
    split
    · rename_i heq; simp [Cursor.downRight, Cursor.downRightForce, hc] at heq
    · exact h
  | node lv nm x l r ihl ihr =>
    intro c hc h
    obtain ⟨d, lf, t, rf⟩ := c
    simp only at hc; subst hc
    rw [downRightAll_node]
    split
    · exact ihr _ rfl (h.downR false)
    · exact h

theorem CC.downLeftAll : ∀ (t : Tree D) (c : Cursor D), c.tree = t → CC c → CC c.downLeftAll := by
  intro t
  induction t with
  | nil =>
    intro c hc h
    unfold Cursor.downLeftAll
    split
    · rename_i heq; simp [Cursor.downLeft, Cursor.downLeftForce, hc] at heq
    · exact h
  | node lv nm x l r ihl ihr =>
    intro c hc h
    obtain ⟨d, lf, t, rf⟩ := c
    simp only at hc; subst hc
    rw [downLeftAll_node]
    split
    · exact ihl _ rfl (h.downL false)
    · exact h

/-! ### zippers -/

variable {E M : Type}

/-- Both forests of a zipper are in heap order. -/
structure ZC (z : Raz E M) : Prop where
  l : LC z.lForest.lForest
  r : RC z.rForest.rForest

section
variable [RazMeta E M]

theorem joinLeftLoop_canon (arch : Stack (Nat × List E)) :
    ∀ (cur : List E) (lev : Option Nat) (nm nextNm : Option Name) (c c' : Cursor (TreeData E M)),
      CC c → Raz.joinLeftLoop ⟨cur, arch⟩ c lev nm nextNm = .ok c' → CC c' := by
  have base : ∀ (lev : Option Nat) (nm nextNm : Option Name) (c c' : Cursor (TreeData E M)),
      CC c → Raz.joinLeftLoop ⟨[], []⟩ c lev nm nextNm = .ok c' → CC c' := by
    intro lev nm nextNm c c' h hj
    unfold Raz.joinLeftLoop at hj
    split at hj
    · simp at hj; exact hj ▸ h
    · rename_i h; rw [nextArchive_nil] at h; simp at h
  induction arch with
  | nil =>
    intro cur lev nm nextNm c c' h hj
    by_cases hc : cur = []
    · subst hc; exact base _ _ _ _ _ h hj
    unfold Raz.joinLeftLoop at hj
    split at hj
    · simp at hj; exact hj ▸ h
    · rename_i heq
      rw [nextArchive_last hc] at heq
      simp at heq
      obtain ⟨rfl, rfl, rfl⟩ := heq
      obtain ⟨lv, -, hj⟩ := bind_ok.1 hj
      obtain ⟨c1, h1, hj⟩ := bind_ok.1 hj
      exact base _ _ _ _ _ (CC.join (CC.ofTree (by simp [leaf, Canon, Tree.level?])) h h1) hj
  | cons p rest ih =>
    intro cur lev nm nextNm c c' h hj
    obtain ⟨anm, alev, av⟩ := p
    unfold Raz.joinLeftLoop at hj
    split at hj
    · simp at hj; exact hj ▸ h
    · rename_i heq
      rw [nextArchive_cons] at heq
      simp at heq
      obtain ⟨rfl, rfl, rfl⟩ := heq
      obtain ⟨lv, -, hj⟩ := bind_ok.1 hj
      obtain ⟨c1, h1, hj⟩ := bind_ok.1 hj
      exact ih _ _ _ _ _ _ (CC.join (CC.ofTree (by simp [leaf, Canon, Tree.level?])) h h1) hj

theorem joinRightLoop_canon (arch : Stack (Nat × List E)) :
    ∀ (cur : List E) (lev : Option Nat) (nm nextNm : Option Name) (c c' : Cursor (TreeData E M)),
      CC c → Raz.joinRightLoop ⟨cur, arch⟩ c lev nm nextNm = .ok c' → CC c' := by
  have base : ∀ (lev : Option Nat) (nm nextNm : Option Name) (c c' : Cursor (TreeData E M)),
      CC c → Raz.joinRightLoop ⟨[], []⟩ c lev nm nextNm = .ok c' → CC c' := by
    intro lev nm nextNm c c' h hj
    unfold Raz.joinRightLoop at hj
    split at hj
    · simp at hj; exact hj ▸ h
    · rename_i h; rw [nextArchive_nil] at h; simp at h
  induction arch with
  | nil =>
    intro cur lev nm nextNm c c' h hj
    by_cases hc : cur = []
    · subst hc; exact base _ _ _ _ _ h hj
    unfold Raz.joinRightLoop at hj
    split at hj
    · simp at hj; exact hj ▸ h
    · rename_i heq
      rw [nextArchive_last hc] at heq
      simp at heq
      obtain ⟨rfl, rfl, rfl⟩ := heq
      obtain ⟨lv, -, hj⟩ := bind_ok.1 hj
      obtain ⟨c1, h1, hj⟩ := bind_ok.1 hj
      exact base _ _ _ _ _ (CC.join h (CC.ofTree (by simp [leaf, Canon, Tree.level?])) h1) hj
  | cons p rest ih =>
    intro cur lev nm nextNm c c' h hj
    obtain ⟨anm, alev, av⟩ := p
    unfold Raz.joinRightLoop at hj
    split at hj
    · simp at hj; exact hj ▸ h
    · rename_i heq
      rw [nextArchive_cons] at heq
      simp at heq
      obtain ⟨rfl, rfl, rfl⟩ := heq
      obtain ⟨lv, -, hj⟩ := bind_ok.1 hj
      obtain ⟨c1, h1, hj⟩ := bind_ok.1 hj
      exact ih _ _ _ _ _ _ (CC.join h (CC.ofTree (by simp [leaf, Canon, Tree.level?])) h1) hj

theorem mkRazTree_tree {t : Tree (TreeData E M)} {rt} (h : mkRazTree t = .ok rt) : rt.tree = t := by
  unfold mkRazTree at h
  obtain ⟨m, -, h⟩ := bind_ok.1 h
  simp [pure, Except.pure] at h
  rw [← h]

/-- Going up from a left forest and discarding: the focus fits below the remaining entries. -/
theorem LInv.up_canon {c : Cursor (TreeData E M)} (h : LInv c) (hc : LC c.lForest) {c' : Cursor (TreeData E M)} {res}
    (hu : c.up = .ok (c', res)) :
    LC c'.lForest ∧ LInv c' ∧
      (res = .fail ∨ (Canon c'.leftTree ∧ CC (c'.downLeftForce .discard).1)) := by
  match hf : c.lForest with
  | [] =>
    rw [h.up_nil hf] at hu
    simp at hu
    obtain ⟨rfl, rfl⟩ := hu
    exact ⟨hc, h, .inl rfl⟩
  | (d, u) :: rest =>
    obtain ⟨c1, a, b, t, u1, u2, u3, u4, ⟨u5, u6, u7⟩, u8⟩ := h.up_cons hf
    rw [u1] at hu
    simp at hu
    obtain ⟨rfl, rfl⟩ := hu
    rw [hf] at hc
    have hcu := hc.c (d, u) (by simp)
    refine ⟨by rw [u2]; exact hc.tail, ⟨by rw [u2]; exact u8, u3, by simp [u4, Tree.peek?]⟩, .inr ⟨?_, ?_⟩⟩
    · simp only [Cursor.leftTree, u4]; exact hcu.2.2.1
    · simp only [Cursor.downLeftForce, u4]
      simp
      refine ⟨by simp only [u2]; exact hc.tail, by simp only [u3]; exact RC.nil, hcu.2.2.1, ?_, by simp [u3]⟩
      intro p hp v hv
      simp only [u2] at hp
      exact Nat.le_trans (Nat.le_of_lt (hcu.1 v hv)) ((List.pairwise_cons.1 hc.s).1 p hp)

theorem RInv.up_canon {c : Cursor (TreeData E M)} (h : RInv c) (hc : RC c.rForest) {c' : Cursor (TreeData E M)} {res}
    (hu : c.up = .ok (c', res)) :
    RC c'.rForest ∧ RInv c' ∧
      (res = .fail ∨ (Canon c'.rightTree ∧ CC (c'.downRightForce .discard).1)) := by
  match hf : c.rForest with
  | [] =>
    rw [h.up_nil hf] at hu
    simp at hu
    obtain ⟨rfl, rfl⟩ := hu
    exact ⟨hc, h, .inl rfl⟩
  | (d, u) :: rest =>
    obtain ⟨c1, a, b, t, u1, u2, u3, u4, ⟨u5, u6, u7⟩, u8⟩ := h.up_cons hf
    rw [u1] at hu
    simp at hu
    obtain ⟨rfl, rfl⟩ := hu
    rw [hf] at hc
    have hcu := hc.c (d, u) (by simp)
    refine ⟨by rw [u2]; exact hc.tail, ⟨u3, by rw [u2]; exact u8, by simp [u4, Tree.peek?]⟩, .inr ⟨?_, ?_⟩⟩
    · simp only [Cursor.rightTree, u4]; exact hcu.2.2.2
    · simp only [Cursor.downRightForce, u4]
      simp
      refine ⟨by simp only [u3]; exact LC.nil, by simp only [u2]; exact hc.tail, hcu.2.2.2, by simp [u3], ?_⟩
      intro p hp v hv
      simp only [u2] at hp
      exact Nat.lt_of_le_of_lt (hcu.2.1 v hv) ((List.pairwise_cons.1 hc.s).1 p hp)

theorem joinLeftForest_canon {lf jc jc' : Cursor (TreeData E M)} (hl : LInv lf) (hlc : LC lf.lForest) (hj : CC jc)
    (h : Raz.joinLeftForest lf jc = .ok jc') : CC jc' := by
  unfold Raz.joinLeftForest at h
  obtain ⟨⟨lf', res⟩, h1, h⟩ := bind_ok.1 h
  obtain ⟨-, -, l3⟩ := hl.up_canon hlc h1
  simp only at h
  split at h
  · rename_i hne
    obtain ⟨lev, -, h⟩ := bind_ok.1 h
    exact CC.join (l3.resolve_left hne).2 hj h
  · simp [pure, Except.pure] at h
    exact h ▸ hj

theorem joinRightForest_canon {rf jc jc' : Cursor (TreeData E M)} (hr : RInv rf) (hrc : RC rf.rForest) (hj : CC jc)
    (h : Raz.joinRightForest jc rf = .ok jc') : CC jc' := by
  unfold Raz.joinRightForest at h
  obtain ⟨⟨rf', res⟩, h1, h⟩ := bind_ok.1 h
  obtain ⟨-, -, l3⟩ := hr.up_canon hrc h1
  simp only at h
  split at h
  · rename_i hne
    obtain ⟨lev, -, h⟩ := bind_ok.1 h
    exact CC.join hj (l3.resolve_left hne).2 h
  · simp [pure, Except.pure] at h
    exact h ▸ hj

theorem joinForests_canon {tree : Tree (TreeData E M)} {lf rf : Cursor (TreeData E M)} {rt : RazTree E M}
    (ht : Canon tree) (hl : LInv lf) (hr : RInv rf) (hlc : LC lf.lForest) (hrc : RC rf.rForest)
    (h : Raz.joinForests tree lf rf = .ok rt) : Canon rt.tree := by
  unfold Raz.joinForests at h
  obtain ⟨jc, h1, h⟩ := bind_ok.1 h
  obtain ⟨jc', h2, h⟩ := bind_ok.1 h
  obtain ⟨c, h5, h⟩ := bind_ok.1 h
  rw [mkRazTree_tree h]
  exact (CC.upAll _ _ _ (joinRightForest_canon hr hrc (joinLeftForest_canon hl hlc (CC.ofTree ht) h1) h2) h5).t

omit [RazMeta E M] in
theorem canon_leaf (v : List E) (n) : Canon (leaf v n : Tree (TreeData E M)) := by
  simp [leaf, Canon, Tree.level?]

/-- `unfocus` builds a heap ordered tree. -/
theorem unfocus_canon {z : Raz E M} {rt} (h : ZInv z) (hc : ZC z) (hu : z.unfocus = .ok rt) : Canon rt.tree := by
  unfold Raz.unfocus at hu
  obtain ⟨ce, -, hu⟩ := bind_ok.1 hu
  obtain ⟨x, h1, hu⟩ := bind_ok.1 hu
  match x with
  | none => rw [mkRazTree_tree hu]; trivial
  | some (t, lf, rf) =>
    simp only at hu
    unfold Raz.centerTree at h1
    split at h1
    · obtain ⟨c1, a1, h1⟩ := bind_ok.1 h1
      obtain ⟨c2, a2, h1⟩ := bind_ok.1 h1
      obtain ⟨c3, a3, h1⟩ := bind_ok.1 h1
      obtain ⟨t', a4, h1⟩ := bind_ok.1 h1
      simp [pure, Except.pure] at h1
      obtain ⟨rfl, rfl, rfl⟩ := h1
      have k1 := joinLeftLoop_canon _ _ _ _ _ _ _ (CC.ofTree (canon_leaf _ none)) a1
      have k2 := joinRightLoop_canon _ _ _ _ _ _ _ k1 a2
      have k3 := CC.upAll _ _ _ k2 a3
      have : t' = c3.tree := by
        unfold Raz.unwrapTree at a4
        split at a4 <;> simp at a4
        exact a4.symm
      subst this
      exact joinForests_canon k3.t h.lf h.rf hc.l hc.r hu
    · obtain ⟨⟨lf', res⟩, a1, h1⟩ := bind_ok.1 h1
      obtain ⟨l1, l2, l3⟩ := h.lf.up_canon hc.l a1
      simp only at h1
      split at h1
      · obtain ⟨⟨rf', res'⟩, b1, h1⟩ := bind_ok.1 h1
        obtain ⟨r1, r2, r3⟩ := h.rf.up_canon hc.r b1
        simp only at h1
        split at h1
        · simp [pure, Except.pure] at h1
        · rename_i hne
          obtain ⟨t', a4, h1⟩ := bind_ok.1 h1
          simp [pure, Except.pure] at h1
          obtain ⟨rfl, rfl, rfl⟩ := h1
          have : t' = rf'.rightTree := by
            unfold Raz.unwrapTree at a4
            split at a4 <;> simp at a4
            exact a4.symm
          subst this
          exact joinForests_canon (r3.resolve_left hne).1 l2 r2 l1 r1 hu
      · rename_i hne
        obtain ⟨t', a4, h1⟩ := bind_ok.1 h1
        simp [pure, Except.pure] at h1
        obtain ⟨rfl, rfl, rfl⟩ := h1
        have : t' = lf'.leftTree := by
          unfold Raz.unwrapTree at a4
          split at a4 <;> simp at a4
          exact a4.symm
        subst this
        exact joinForests_canon (l3.resolve_left hne).1 l2 h.rf l1 hc.r hu

theorem popLeft_canon {z z' : Raz E M} {e} (h : ZInv z) (hc : ZC z) (hp : z.popLeft = .ok (z', e)) : ZC z' := by
  unfold Raz.popLeft at hp
  split at hp
  · obtain ⟨⟨lf, res⟩, h1, hp⟩ := bind_ok.1 hp
    obtain ⟨l1, l2, l3⟩ := h.lf.up_canon hc.l h1
    simp only at hp
    split at hp
    · simp [pure, Except.pure] at hp
      rw [← hp.1]; exact ⟨l1, hc.r⟩
    · rename_i hne
      split at hp
      · obtain ⟨⟨s, x⟩, h2, hp⟩ := bind_ok.1 hp
        simp [pure, Except.pure] at hp
        rw [← hp.1]
        exact ⟨(CC.downRightAll _ _ rfl (l3.resolve_left hne).2).l, hc.r⟩
      · simp at hp
  · obtain ⟨⟨s, x⟩, h2, hp⟩ := bind_ok.1 hp
    simp [pure, Except.pure] at hp
    rw [← hp.1]
    exact ⟨hc.l, hc.r⟩

theorem popRight_canon {z z' : Raz E M} {e} (h : ZInv z) (hc : ZC z) (hp : z.popRight = .ok (z', e)) : ZC z' := by
  unfold Raz.popRight at hp
  split at hp
  · obtain ⟨⟨rf, res⟩, h1, hp⟩ := bind_ok.1 hp
    obtain ⟨l1, l2, l3⟩ := h.rf.up_canon hc.r h1
    simp only at hp
    split at hp
    · simp [pure, Except.pure] at hp
      rw [← hp.1]; exact ⟨hc.l, l1⟩
    · rename_i hne
      split at hp
      · obtain ⟨⟨s, x⟩, h2, hp⟩ := bind_ok.1 hp
        simp [pure, Except.pure] at hp
        rw [← hp.1]
        exact ⟨hc.l, (CC.downLeftAll _ _ rfl (l3.resolve_left hne).2).r⟩
      · simp at hp
  · obtain ⟨⟨s, x⟩, h2, hp⟩ := bind_ok.1 hp
    simp [pure, Except.pure] at hp
    rw [← hp.1]
    exact ⟨hc.l, hc.r⟩

theorem CC.downLeft {c : Cursor D} (h : CC c) : CC c.downLeft.1 := by
  obtain ⟨d, lf, t, rf⟩ := c
  cases t with
  | nil => exact h
  | node lv nm x l r =>
    simp only [Cursor.downLeft, Cursor.downLeftForce]
    split
    · exact h
    · simp; exact h.downL false

theorem CC.downRight {c : Cursor D} (h : CC c) : CC c.downRight.1 := by
  obtain ⟨d, lf, t, rf⟩ := c
  cases t with
  | nil => exact h
  | node lv nm x l r =>
    simp only [Cursor.downRight, Cursor.downRightForce]
    split
    · exact h
    · simp; exact h.downR false

theorem focusLoop_canon : ∀ (n : Nat) (c : Cursor (TreeData E M)) (i : RazMeta.Index E M)
    (c' : Cursor (TreeData E M)) (i' : RazMeta.Index E M), CC c →
    RazTree.focusLoop n c i = .ok (some (c', i')) → CC c' := by
  intro n
  induction n with
  | zero =>
    intro c i c' i' h hf
    unfold RazTree.focusLoop at hf
    obtain ⟨d, -, hf⟩ := bind_ok.1 hf
    cases d <;> (simp at hf; exact hf.1 ▸ h)
  | succ n ih =>
    intro c i c' i' h hf
    unfold RazTree.focusLoop at hf
    obtain ⟨d, -, hf⟩ := bind_ok.1 hf
    cases d with
    | dummy => simp at hf; exact hf.1 ▸ h
    | leaf v => simp at hf; exact hf.1 ▸ h
    | branch a b =>
      simp only at hf
      obtain ⟨nav, -, hf⟩ := bind_ok.1 hf
      cases nav with
      | left j =>
        simp only at hf
        obtain ⟨-, -, hf⟩ := bind_ok.1 hf
        exact ih _ _ _ _ h.downLeft hf
      | right j =>
        simp only at hf
        obtain ⟨-, -, hf⟩ := bind_ok.1 hf
        exact ih _ _ _ _ h.downRight hf
      | here =>
        simp only at hf
        obtain ⟨-, -, hf⟩ := bind_ok.1 hf
        exact ih _ _ _ _ (CC.downRightAll _ _ rfl h.downLeft) hf
      | nowhere => simp at hf

omit [RazMeta E M] in
theorem ZC.empty : ZC (RazTree.emptyRaz : Raz E M) := ⟨LC.nil, RC.nil⟩

theorem focus_canon {t : RazTree E M} (hc : Canon t.tree) {i : RazMeta.Index E M} {z : Raz E M}
    (h : t.focus i = .ok (some z)) : ZC z := by
  unfold RazTree.focus at h
  split at h
  · simp at h; exact h ▸ ZC.empty
  · obtain ⟨x, h1, h⟩ := bind_ok.1 h
    match x with
    | none => simp at h
    | some (c, i') =>
      simp only at h
      have k := focusLoop_canon _ _ _ _ _ (CC.ofTree hc) h1
      match ht : c.split.2.1 with
      | .nil => simp [ht] at h
      | .node _ _ .dummy _ _ => simp [ht] at h
      | .node _ _ (.branch ..) _ _ => simp [ht] at h
      | .node _ _ (.leaf v) _ _ =>
        simp only [ht] at h
        obtain ⟨⟨a, b⟩, h2, h⟩ := bind_ok.1 h
        simp [pure, Except.pure] at h
        rw [← h]
        exact ⟨k.l, k.r⟩

omit [RazMeta E M] in
theorem focusLeft_canon {t : RazTree E M} (hc : Canon t.tree) {z : Raz E M}
    (h : t.focusLeft = .ok z) : ZC z := by
  unfold RazTree.focusLeft at h
  split at h
  · simp at h; exact h ▸ ZC.empty
  · have k := CC.downLeftAll _ _ rfl (CC.ofTree hc)
    simp only at h
    match ht : (Cursor.ofTree t.tree).downLeftAll.split.2.1 with
    | .nil => simp [ht] at h
    | .node _ _ .dummy _ _ => simp [ht] at h
    | .node _ _ (.branch ..) _ _ => simp [ht] at h
    | .node _ _ (.leaf v) _ _ =>
      simp [ht, pure, Except.pure] at h
      rw [← h]
      exact ⟨k.l, k.r⟩

/-! ### uniqueness -/

theorem items_level_le {t : Tree (TreeData E M)} (h : WF t) (hc : Canon t) :
    ∀ i ∈ t.items, ∀ x ∈ t.level?, i.level ≤ x := by
  induction h with
  | leaf v =>
    intro i hi x hx
    simp at hi
    obtain ⟨e, -, rfl⟩ := hi
    simp [Item.level]
  | @branch lv nm l r h1 hl hr ihl ihr =>
    obtain ⟨c1, c2, c3, c4⟩ := hc
    intro i hi x hx
    simp [Tree.level?] at hx
    subst hx
    simp at hi
    have hsl : ∃ y, l.level? = some y := by cases hl <;> exact ⟨_, rfl⟩
    have hsr : ∃ y, r.level? = some y := by cases hr <;> exact ⟨_, rfl⟩
    obtain ⟨y, hy⟩ := hsl
    obtain ⟨w, hw⟩ := hsr
    rcases hi with hi | rfl | hi
    · exact Nat.le_trans (ihl c3 i hi y hy) (Nat.le_of_lt (c1 y hy))
    · simp [Item.level]
    · exact Nat.le_trans (ihr c4 i hi w hw) (c2 w hw)

theorem items_lt_left {lv nm d} {l r : Tree (TreeData E M)} (hl : WF l) (hc : Canon (.node lv nm d l r)) :
    ∀ i ∈ l.items, i.level < lv := by
  intro i hi
  have : ∃ y, l.level? = some y := by cases hl <;> exact ⟨_, rfl⟩
  obtain ⟨y, hy⟩ := this
  exact Nat.lt_of_le_of_lt (items_level_le hl hc.2.2.1 i hi y hy) (hc.1 y hy)

theorem items_le_right {lv nm d} {l r : Tree (TreeData E M)} (hr : WF r) (hc : Canon (.node lv nm d l r)) :
    ∀ i ∈ r.items, i.level ≤ lv := by
  intro i hi
  have : ∃ y, r.level? = some y := by cases hr <;> exact ⟨_, rfl⟩
  obtain ⟨y, hy⟩ := this
  exact Nat.le_trans (items_level_le hr hc.2.2.2 i hi y hy) (hc.2.1 y hy)

/-- Splitting a sequence at its leftmost item of greatest level is unique. -/
theorem split_unique {α : Type} (f : α → Nat) : ∀ {a b a' b' : List α} {m m' : α},
    a ++ m :: b = a' ++ m' :: b' → (∀ x ∈ a, f x < f m) → (∀ x ∈ b, f x ≤ f m) →
    (∀ x ∈ a', f x < f m') → (∀ x ∈ b', f x ≤ f m') → a = a' ∧ m = m' ∧ b = b' := by
  intro a
  induction a with
  | nil =>
    intro b a' b' m m' h _ hb ha' _
    cases a' with
    | nil => simp at h; exact ⟨rfl, h.1, h.2⟩
    | cons x a' =>
      simp at h
      obtain ⟨rfl, rfl⟩ := h
      have h1 := ha' m (by simp)
      have h2 := hb m' (by simp)
      omega
  | cons x a ih =>
    intro b a' b' m m' h ha hb ha' hb'
    cases a' with
    | nil =>
      simp at h
      obtain ⟨rfl, rfl⟩ := h
      have h1 := ha x (by simp)
      have h2 := hb' m (by simp)
      omega
    | cons y a' =>
      simp at h
      obtain ⟨rfl, h⟩ := h
      obtain ⟨rfl, rfl, rfl⟩ := ih h (fun z hz => ha z (by simp [hz])) hb (fun z hz => ha' z (by simp [hz])) hb'
      exact ⟨rfl, rfl, rfl⟩

theorem map_elem_inj {v w : List E} (h : v.map Item.elem = w.map Item.elem) : v = w := by
  have : Function.Injective (Item.elem : E → Item E) := fun a b h => by simpa using h
  exact List.map_injective_iff.2 this h

/-- Heap ordered well-formed trees are determined by their items. -/
theorem canon_unique {t t' : Tree (TreeData E M)} (h : WF t) (h' : WF t') (hc : Canon t) (hc' : Canon t')
    (hi : t.items = t'.items) : t = t' := by
  induction h generalizing t' with
  | leaf v =>
    cases h' with
    | leaf w => simp only [items_leaf] at hi; rw [map_elem_inj hi]
    | @branch lv nm l r h1 hl hr =>
      have : Item.mark lv nm ∈ v.map Item.elem := by
        rw [items_leaf] at hi; rw [hi]; simp
      simp at this
  | @branch lv nm l r h1 hl hr ihl ihr =>
    cases h' with
    | leaf w =>
      have : Item.mark lv nm ∈ w.map Item.elem := by
        rw [items_leaf] at hi; rw [← hi]; simp
      simp at this
    | @branch lv' nm' l' r' h1' hl' hr' =>
      simp only [items_branch] at hi
      obtain ⟨e1, e2, e3⟩ := split_unique Item.level hi (items_lt_left hl hc) (items_le_right hr hc)
        (items_lt_left hl' hc') (items_le_right hr' hc')
      simp at e2
      obtain ⟨rfl, rfl⟩ := e2
      rw [ihl hl' hc.2.2.1 hc'.2.2.1 e1, ihr hr' hc.2.2.2 hc'.2.2.2 e3]

end
end Iodyn
