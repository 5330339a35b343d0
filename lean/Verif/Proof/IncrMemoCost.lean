import Verif.Spec.IncrMemoCost
import Verif.Proof.IncrMemoFrom
/-
The work of `memo_from`.
-/
namespace Iodyn.Incr
open Iodyn.Heap (Tr Head Cell Mem HTree ASt FromRes Keeps Dis RMem)
variable {V W K R A D X E M : Type}

/-! ### Archive points -/

theorem PView.fun {σ : Mem D (Nat × List E)} : ∀ {r r' : List (HPt E)}, PView σ r → PView σ r' → hd r = hd r' → r = r' := by
  intro r
  induction r with
  | nil =>
    rintro (_ | ⟨p, r'⟩) _ _ h
    · rfl
    · simp [hd] at h
  | cons p r ih =>
    rintro (_ | ⟨p', r'⟩) h1 h2 h
    · simp [hd] at h
    · simp only [hd, List.head?_cons, Option.map_some, Option.some.injEq] at h
      have e1 := h1.1
      have e2 := h2.1
      rw [h, e2] at e1
      injection e1 with e1
      injection e1 with e3 e4
      obtain ⟨a, b⟩ := p
      obtain ⟨a', b'⟩ := p'
      simp only at h e3
      rw [ih h1.2 h2.2 e4.symm, h, e3]

theorem PView.suffix {σ : Mem D (Nat × List E)} {r r' : List (HPt E)} (h : PView σ r) (hs : r' <:+ r) : PView σ r' := by
  obtain ⟨u, rfl⟩ := hs
  induction u with
  | nil => exact h
  | cons p u ih => exact ih h.2

/-- The points below a level, up to the first that is not. -/
def low (w : End) (m : Nat) (l : List (HPt E)) : List (HPt E) := l.takeWhile fun p => w.below p.2.1 m

/-- The rest. -/
def cut (w : End) (m : Nat) (l : List (HPt E)) : List (HPt E) := l.dropWhile fun p => w.below p.2.1 m

theorem low_cut (w : End) (m : Nat) (l : List (HPt E)) : low w m l ++ cut w m l = l := List.takeWhile_append_dropWhile

theorem low_below {w : End} {m : Nat} {l : List (HPt E)} : ∀ p ∈ low w m l, w.below p.2.1 m = true := by
  intro p hp
  have := List.all_takeWhile (p := fun p : HPt E => w.below p.2.1 m) (l := l)
  exact List.all_eq_true.1 this p hp

theorem cut_head {w : End} {m : Nat} {l : List (HPt E)} {q : HPt E} {r : List (HPt E)} (h : cut w m l = q :: r) : w.below q.2.1 m = false := by
  unfold cut at h
  have := List.head?_dropWhile_not (fun p : HPt E => w.below p.2.1 m) l
  rw [h] at this
  simpa using this

theorem below_trans {w : End} {a b c : Nat} (h1 : w.below a b = true) (h2 : w.below b c = true) : w.below a c = true := by
  cases w <;> simp only [End.below, decide_eq_true_eq] at * <;> omega

theorem below_up {w : End} {a b c : Nat} (h1 : w.below b a = false) (h2 : w.below c b = false) : w.below c a = false := by
  cases w <;> simp only [End.below, decide_eq_false_iff_not] at * <;> omega

theorem below_over {w : End} {a b c : Nat} (h1 : w.below a b = true) (h2 : w.below c b = false) : w.below c a = false := by
  cases w <;> simp only [End.below, decide_eq_false_iff_not, decide_eq_true_eq] at * <;> omega

theorem cut_cons {w : End} {m : Nat} {q : HPt E} {r : List (HPt E)} (h : w.below q.2.1 m = true) : cut w m (q :: r) = cut w m r := by
  simp [cut, h]

theorem cut_stop {w : End} {m : Nat} {q : HPt E} {r : List (HPt E)} (h : w.below q.2.1 m = false) : cut w m (q :: r) = q :: r := by
  simp [cut, h]

theorem low_cons {w : End} {m : Nat} {q : HPt E} {r : List (HPt E)} (h : w.below q.2.1 m = true) : low w m (q :: r) = q :: low w m r := by
  simp [low, h]

theorem low_stop {w : End} {m : Nat} {q : HPt E} {r : List (HPt E)} (h : w.below q.2.1 m = false) : low w m (q :: r) = [] := by
  simp [low, h]

theorem cut_append {w : End} {m : Nat} {c R : List (HPt E)} (h : ∀ p ∈ c, w.below p.2.1 m = true) : cut w m (c ++ R) = cut w m R := by
  induction c with
  | nil => rfl
  | cons q c ih =>
    rw [List.cons_append, cut_cons (h q List.mem_cons_self), ih fun p hp => h p (List.mem_cons_of_mem _ hp)]

theorem low_append {w : End} {m : Nat} {c R : List (HPt E)} (h : ∀ p ∈ c, w.below p.2.1 m = true) : low w m (c ++ R) = c ++ low w m R := by
  induction c with
  | nil => rfl
  | cons q c ih =>
    rw [List.cons_append, low_cons (h q List.mem_cons_self), ih fun p hp => h p (List.mem_cons_of_mem _ hp), List.cons_append]

/-- Cutting at a lower level first. -/
theorem cut_cut {w : End} {l m : Nat} (h : w.below l m = true) (r : List (HPt E)) : cut w m (cut w l r) = cut w m r := by
  conv_rhs => rw [← low_cut w l r]
  rw [cut_append fun p hp => below_trans (low_below p hp) h]

theorem low_low {w : End} {l m : Nat} (h : w.below l m = true) (r : List (HPt E)) : low w m r = low w l r ++ low w m (cut w l r) := by
  conv_lhs => rw [← low_cut w l r]
  rw [low_append fun p hp => below_trans (low_below p hp) h]

theorem pn_append (l l' : List (HPt E)) : pn (l ++ l') = pn l ++ pn l' := by simp [pn]

theorem pn_cons (p : HPt E) (l : List (HPt E)) : pn (p :: l) = p.1.name.toList ++ pn l := by
  unfold pn
  cases h : p.1.name <;> simp [h]

theorem pn_suffix {l l' : List (HPt E)} (h : l <:+ l') : pn l ⊆ pn l' := by
  obtain ⟨u, rfl⟩ := h
  rw [pn_append]
  exact List.subset_append_right _ _

theorem low_prefix (w : End) (m : Nat) (l : List (HPt E)) : pn (low w m l) ⊆ pn l := by
  conv_rhs => rw [← low_cut w m l, pn_append]
  exact List.subset_append_left _ _

/-- The name of the cell. -/
def linkN (t : Tr) : List Name :=
  match t.link with
  | .named x _ => [x]
  | _ => []

/-- The result of `from_stack`. -/
def resOf : List (HPt E) → Tr → FromRes E
  | [], t => (ASt.new, none, none, t)
  | q :: r, t => (⟨q.2.2, hd r⟩, some q.2.1, q.1.name, t)

/-- The arguments of `from_stack`. -/
def keyOf (w : End) (q : HPt E) (rest : List (HPt E)) (t : Tr) (m : Nat) : FromKey E := ⟨w, ⟨q.2.2, hd rest⟩, q.2.1, q.1.name, t, m⟩

/-- What changes in a namespace. -/
structure Changes (N : List Name) (sp sp' : FSpace E M) : Prop where
  keeps : Keeps N sp.mem sp'.mem
  table : ∀ m, (∀ x ∈ N, m ≠ .forkL x) → sp'.table m = sp.table m

theorem Changes.refl (sp : FSpace E M) : Changes [] sp sp := ⟨Keeps.refl _ _, fun _ _ => rfl⟩

theorem Changes.mono {N N' : List Name} {sp sp' : FSpace E M} (h : Changes N sp sp') (hs : N ⊆ N') : Changes N' sp sp' :=
  ⟨h.keeps.mono hs, fun m hm => h.table m fun x hx => hm x (hs hx)⟩

theorem Changes.trans {N : List Name} {sp sp' sp'' : FSpace E M} (h : Changes N sp sp') (h' : Changes N sp' sp'') : Changes N sp sp'' :=
  ⟨h.keeps.trans h'.keeps, fun m hm => (h'.table m hm).trans (h.table m hm)⟩

/-! ### Stored calls -/

/-- The leaf with these elements, the first of its kind. -/
structure LeafAt (τ : RMem E M) (k : Nat) (v : List E) : Prop where
  lt : k < τ.next
  cell : τ.cells (.anon k) = some (.node (.leaf v) none none)
  first : ∀ j < k, τ.cells (.anon j) ≠ some (.node (.leaf v) none none)

theorem LeafAt.keep {τ τ' : RMem E M} {k : Nat} {v : List E} (h : LeafAt τ k v) {N : List Name} (hk : Keeps N τ τ') : LeafAt τ' k v :=
  ⟨Nat.lt_of_lt_of_le h.lt hk.next, by rw [hk.anon k h.lt]; exact h.cell, fun j hj => by
    rw [hk.anon j (Nat.lt_trans hj h.lt)]; exact h.first j hj⟩

theorem LeafAt.unique {τ : RMem E M} {k k' : Nat} {v : List E} (h : LeafAt τ k v) (h' : LeafAt τ k' v) : k = k' := by
  rcases Nat.lt_trichotomy k k' with hl | hl | hl
  · exact absurd h.cell (h'.first k hl)
  · exact hl
  · exact absurd h'.cell (h.first k' hl)

/-- A stored call `e` that can be used as long as the points `r` are there. -/
structure Usable (e : AEntry (Cell (TreeData E M) (Nat × List E)) (Cell (TreeData E M) (Nat × List E)) (FromKey E) (FromRes E))
    (τ : RMem E M) (r : List (HPt E)) (N : List Name) : Prop where
  reads : ∀ σ : RMem E M, PView σ r → Agrees e.reads σ
  facts : Agrees e.facts τ
  within : Within e.facts N

/-- The first call that the body of the call for `q` makes is stored. -/
def First (w : End) (sp : FSpace E M) (q : HPt E) (rest : List (HPt E)) : Prop :=
  ∀ p r, rest = p :: r → w.below p.2.1 q.2.1 = true → ∀ x, p.1.name = some x → ∃ e k, sp.table (.forkL x) = some e ∧
    e.key = keyOf w p r ⟨0, none, .anon k⟩ q.2.1 ∧ LeafAt sp.mem k (w.vec q.2.2) ∧ Usable e sp.mem r (pn (low w q.2.1 rest))

/-- The call stored for the name of `q` is one for `q`. -/
def Owned (sp : FSpace E M) (q : HPt E) (rest : List (HPt E)) : Prop :=
  ∀ x e, q.1.name = some x → sp.table (.forkL x) = some e → e.key.stack = ⟨q.2.2, hd rest⟩ ∧ e.key.level = q.2.1

/-- For all points of `c`, which come before `R`. -/
def GoodIn (w : End) (sp : FSpace E M) : List (HPt E) → List (HPt E) → Prop
  | [], _ => True
  | q :: c, R => First w sp q (c ++ R) ∧ Owned sp q (c ++ R) ∧ GoodIn w sp c R

theorem GoodIn.append {w : End} {sp : FSpace E M} {c c' R : List (HPt E)} : GoodIn w sp (c ++ c') R ↔ GoodIn w sp c (c' ++ R) ∧ GoodIn w sp c' R := by
  induction c with
  | nil => simp [GoodIn]
  | cons q c ih => simp only [List.cons_append, GoodIn, ih, List.append_assoc, and_assoc]

theorem First.keep {w : End} {sp sp' : FSpace E M} {q : HPt E} {rest : List (HPt E)} (h : First w sp q rest) (hf : Unused sp.mem) {N : List Name}
    (hc : Changes N sp sp') (hd : ∀ p r, rest = p :: r → w.below p.2.1 q.2.1 = true → Dis (pn (low w q.2.1 rest)) N) : First w sp' q rest := by
  rintro p r rfl hb x hx
  obtain ⟨e, k, h1, h2, h3, h4⟩ := h p r rfl hb x hx
  have hd := hd p r rfl hb
  refine ⟨e, k, ?_, h2, h3.keep hc.keeps, h4.reads, within_keep h4.facts h4.within hf hc.keeps hd, h4.within⟩
  rw [hc.table _ (fun y hy he => ?_)]
  · exact h1
  · cases he
    refine hd x ?_ hy
    rw [low_cons hb, pn_cons, hx]
    simp

theorem Owned.keep {sp sp' : FSpace E M} {q : HPt E} {rest : List (HPt E)} (h : Owned sp q rest) {N : List Name} (hc : Changes N sp sp')
    (hd : Dis q.1.name.toList N) : Owned sp' q rest := by
  intro x e hx he
  refine h x e hx ?_
  rw [hc.table _ (fun y hy hxy => ?_)] at he
  · exact he
  · cases hxy
    exact hd x (by simp [hx]) hy

theorem GoodIn.keep {w : End} {sp sp' : FSpace E M} (hf : Unused sp.mem) {N : List Name} (hc : Changes N sp sp') {l : Nat} {R : List (HPt E)}
    (hR : ∀ p r, R = p :: r → w.below p.2.1 l = false) : ∀ {c : List (HPt E)}, GoodIn w sp c R → (∀ p ∈ c, w.below p.2.1 l = true) → Dis (pn c) N →
    GoodIn w sp' c R := by
  intro c
  induction c with
  | nil => intro _ _ _; trivial
  | cons q c ih =>
    rintro ⟨h1, h2, h3⟩ hb hd
    rw [pn_cons] at hd
    have hq := hb q List.mem_cons_self
    have hd2 : Dis (pn c) N := hd.mono (List.subset_append_right _ _) (List.Subset.refl _)
    refine ⟨h1.keep hf hc ?_, h2.keep hc (hd.mono (List.subset_append_left _ _) (List.Subset.refl _)), ih h3 (fun p hp => hb p (List.mem_cons_of_mem _ hp)) hd2⟩
    intro p r hpr hpq
    refine hd2.mono ?_ (List.Subset.refl _)
    -- the points below `q` are all in `c`
    have : low w l (c ++ R) = c := by
      rw [low_append fun p hp => hb p (List.mem_cons_of_mem _ hp)]
      cases R with
      | nil => simp [low]
      | cons p r => rw [low_stop (hR p r rfl)]; simp
    rw [low_low hq, ] at this
    conv_rhs => rw [← this, pn_append]
    exact List.subset_append_left _ _

/-- For all points of the list. -/
def Deep (w : End) (sp : FSpace E M) (l : List (HPt E)) : Prop := GoodIn w sp l []

theorem good_cut {w : End} {sp : FSpace E M} {l : List (HPt E)} (h : Deep w sp l) (m : Nat) : GoodIn w sp (low w m l) (cut w m l) := by
  unfold Deep at h
  rw [← low_cut w m l, GoodIn.append, List.append_nil] at h
  exact h.1

theorem Deep.keep {w : End} {sp sp' : FSpace E M} (hf : Unused sp.mem) {N : List Name} (hc : Changes N sp sp') : ∀ {c : List (HPt E)},
    Deep w sp c → Dis (pn c) N → Deep w sp' c := by
  intro c
  induction c with
  | nil => intro _ _; trivial
  | cons q c ih =>
    rintro ⟨h1, h2, h3⟩ hd
    rw [pn_cons] at hd
    have hd2 : Dis (pn c) N := hd.mono (List.subset_append_right _ _) (List.Subset.refl _)
    refine ⟨h1.keep hf hc fun _ _ _ _ => ?_, h2.keep hc (hd.mono (List.subset_append_left _ _) (List.Subset.refl _)), ih h3 hd2⟩
    rw [List.append_nil]
    exact hd2.mono (low_prefix _ _ _) (List.Subset.refl _)

theorem Deep.suffix {w : End} {sp : FSpace E M} {l l' : List (HPt E)} (h : Deep w sp l) (hs : l' <:+ l) : Deep w sp l' := by
  obtain ⟨u, rfl⟩ := hs
  exact (GoodIn.append.1 h).2

/-- What is known about the table when the points `L` are still to come: what is stored for the points of `suf`; and whatever is stored
for a point of `L` is stored for all below. -/
def Hyp (w : End) (suf : List (HPt E)) (sp : FSpace E M) : List (HPt E) → Prop
  | [] => True
  | q :: r => (q :: r <:+ suf → First w sp q r) ∧
    (∀ x e, q.1.name = some x → sp.table (.forkL x) = some e → e.key.stack = ⟨q.2.2, hd r⟩ → e.key.level = q.2.1 → Deep w sp (q :: r)) ∧ Hyp w suf sp r

theorem Hyp.keep {w : End} {suf : List (HPt E)} {sp sp' : FSpace E M} (hf : Unused sp.mem) {N : List Name} (hc : Changes N sp sp') : ∀ {L : List (HPt E)},
    Hyp w suf sp L → Dis (pn L) N → Hyp w suf sp' L := by
  intro L
  induction L with
  | nil => intro _ _; trivial
  | cons q r ih =>
    rintro ⟨h1, h2, h3⟩ hd
    have hd0 := hd
    rw [pn_cons] at hd
    have hd2 : Dis (pn r) N := hd.mono (List.subset_append_right _ _) (List.Subset.refl _)
    refine ⟨fun hs => (h1 hs).keep hf hc fun _ _ _ _ => hd2.mono (low_prefix _ _ _) (List.Subset.refl _), ?_, ih h3 hd2⟩
    intro x e hx he e1 e2
    rw [hc.table _ (fun y hy hxy => ?_)] at he
    · exact (h2 x e hx he e1 e2).keep hf hc hd0
    · cases hxy
      exact hd x (by simp [hx]) hy

theorem Hyp.suffix {w : End} {suf : List (HPt E)} {sp : FSpace E M} {L L' : List (HPt E)} (h : Hyp w suf sp L) (hs : L' <:+ L) : Hyp w suf sp L' := by
  obtain ⟨u, rfl⟩ := hs
  induction u with
  | nil => exact h
  | cons p u ih => exact ih h.2.2

/-- A stored call is that of `from_stack` for the points `r`. -/
structure CallAt (w : End) (e : AEntry (Cell (TreeData E M) (Nat × List E)) (Cell (TreeData E M) (Nat × List E)) (FromKey E) (FromRes E))
    (r : List (HPt E)) : Prop where
  stack : e.key.stack.archived = hd r
  below : w.below e.key.level e.key.max = true
  res : ∃ t, e.res = resOf (cut w e.key.max r) t ∧ linkN t ⊆ e.key.name.toList ++ pn (low w e.key.max r)
  reads : ∀ σ : RMem E M, PView σ r → Agrees e.reads σ
  within : Within e.facts (linkN e.key.tree ++ (e.key.name.toList ++ pn (low w e.key.max r)))

/-- All stored calls are for points that were converted (`Wd`) and for names that were used (`U`). -/
def TableOK (w : End) (Wd : List (HPt E) → Prop) (U : Name → Prop) (sp : FSpace E M) : Prop :=
  ∀ m e, sp.table m = some e → ∃ x r, m = .forkL x ∧ U x ∧ Wd r ∧ CallAt w e r

/-! ### Counting -/

/-- The body for the first point of `L` has to be run: `L` is not part of `suf`, or comes before no larger point of `suf`. -/
def Flag (w : End) (suf : List (HPt E)) (L : List (HPt E)) : Prop :=
  ∀ q r u, L = q :: r → suf = u ++ L → ∀ e ∈ u, w.below q.2.1 e.2.1 = false

open Classical in
/-- The number of points for which the body has to be run. -/
noncomputable def cnt (w : End) (suf : List (HPt E)) : List (HPt E) → Nat
  | [] => 0
  | q :: r => (if Flag w suf (q :: r) then 1 else 0) + cnt w suf r

theorem cnt_suffix {w : End} {suf : List (HPt E)} {L L' : List (HPt E)} (h : L <:+ L') : cnt w suf L ≤ cnt w suf L' := by
  obtain ⟨u, rfl⟩ := h
  induction u with
  | nil => exact Nat.le_refl _
  | cons q u ih => simp only [List.cons_append, cnt]; omega

theorem cnt_flag {w : End} {suf : List (HPt E)} {q : HPt E} {r : List (HPt E)} (h : Flag w suf (q :: r)) :
    cnt w suf (q :: r) = 1 + cnt w suf r := by simp [cnt, h]

theorem flag_next {w : End} {suf all : List (HPt E)} (hs : suf <:+ all) {q p : HPt E} {r : List (HPt E)} (hL : q :: p :: r <:+ all)
    (hn : ¬ q :: p :: r <:+ suf) : Flag w suf (p :: r) := by
  rintro q' r' u hqr hu
  have : u = [] := by
    rcases u with _ | ⟨a, u⟩
    · rfl
    · exfalso
      apply hn
      refine List.suffix_of_suffix_length_le hL hs ?_
      rw [hu]; simp
  subst this
  intro e he; cases he

theorem flag_cut {w : End} {suf all : List (HPt E)} (hs : suf <:+ all) {q : HPt E} {rest : List (HPt E)} (hL : q :: rest <:+ all)
    (hF : Flag w suf (q :: rest)) : Flag w suf (cut w q.2.1 rest) := by
  intro q2 r2 u h2 hu e he
  have hq := cut_head h2
  have hL' : q :: low w q.2.1 rest ++ cut w q.2.1 rest <:+ all := by
    rw [List.cons_append, low_cut]; exact hL
  have hc : ∀ e ∈ q :: low w q.2.1 rest, w.below q2.2.1 e.2.1 = false := by
    intro e he
    rcases List.mem_cons.1 he with rfl | he
    · exact hq
    · exact below_over (low_below e he) hq
  rw [hu] at hs
  rcases Nat.le_total u.length (q :: low w q.2.1 rest).length with hle | hle
  · have : u ++ cut w q.2.1 rest <:+ q :: low w q.2.1 rest ++ cut w q.2.1 rest :=
      List.suffix_of_suffix_length_le hs hL' (by simp only [List.length_append]; omega)
    obtain ⟨t, ht⟩ := this
    rw [← List.append_assoc] at ht
    have := List.append_cancel_right ht
    exact hc e (by rw [← this]; exact List.mem_append_right _ he)
  · have : q :: low w q.2.1 rest ++ cut w q.2.1 rest <:+ u ++ cut w q.2.1 rest :=
      List.suffix_of_suffix_length_le hL' hs (by simp only [List.length_append]; omega)
    obtain ⟨t, ht⟩ := this
    have ht' := ht
    rw [← List.append_assoc] at ht
    have := List.append_cancel_right ht
    rw [← this] at he
    rcases List.mem_append.1 he with he | he
    · refine below_up (hF q rest t rfl ?_ e he) hq
      rw [hu, ← ht', List.cons_append, low_cut]
    · exact hc e he

/-! ### Runs -/

theorem after_ok {rd : List (Loc × V)} {fs : List (Loc × W)} {w : Nat} {x : Option (P (AOut V W K R A))} {o : AOut V W K R A}
    (h : after rd fs w x = some (.ok o)) :
    ∃ o', x = some (.ok o') ∧ o = { o' with reads := rd ++ o'.reads, facts := fs ++ o'.facts, work := w + o'.work } := by
  rcases x with _ | (_ | o')
  · cases h
  · cases h
  · injection h with h; injection h with h; exact ⟨o', rfl, h.symm⟩

/-- The surroundings of a conversion of the points `all`: `suf` are those that were there before. -/
structure Ctx (w : End) (suf all : List (HPt E)) (Wd : List (HPt E) → Prop) (U : Name → Prop) (σ : RMem E M) : Prop where
  sub : suf <:+ all
  named : ∀ p ∈ suf, p.1.name ≠ none
  view : ∀ r, Wd r → PView σ r
  world : ∀ r, r <:+ all → Wd r
  used : ∀ x ∈ pn all, U x

/-- The names of the points that a call for `q` takes. -/
def reg (w : End) (q : HPt E) (rest : List (HPt E)) (m : Nat) : List Name := q.1.name.toList ++ pn (low w m rest)

theorem reg_sub (w : End) (q : HPt E) (rest : List (HPt E)) (m : Nat) : reg w q rest m ⊆ pn (q :: rest) := by
  rw [pn_cons]
  unfold reg
  intro x hx
  rcases List.mem_append.1 hx with h | h
  · exact List.mem_append_left _ h
  · exact List.mem_append_right _ (low_prefix w m rest h)

/-- What is known before a call. -/
structure Before (w : End) (suf all : List (HPt E)) (Wd : List (HPt E) → Prop) (U : Name → Prop) (sp : FSpace E M) (q : HPt E)
    (rest : List (HPt E)) (tr : Tr) : Prop where
  part : q :: rest <:+ all
  unused : Unused sp.mem
  table : TableOK w Wd U sp
  hyp : Hyp w suf sp (q :: rest)
  nodup : (pn (q :: rest)).Nodup
  dis : Dis (linkN tr) (pn (q :: rest))

/-- What a call does. -/
structure Post (w : End) (suf : List (HPt E)) (Wd : List (HPt E) → Prop) (U : Name → Prop) (sp : FSpace E M) (q : HPt E) (rest : List (HPt E)) (tr : Tr)
    (m : Nat) (rd fs : List (Loc × Cell (TreeData E M) (Nat × List E))) (sp' : FSpace E M) (a : FromRes E) (wk : Nat) : Prop where
  below : w.below q.2.1 m = true
  val : ∃ t, a = resOf (cut w m rest) t ∧ linkN t ⊆ reg w q rest m
  reads : ∀ σ : RMem E M, PView σ rest → Agrees rd σ
  facts : Agrees fs sp'.mem
  within : Within fs (linkN tr ++ reg w q rest m)
  changes : Changes (reg w q rest m) sp sp'
  unused : Unused sp'.mem
  table : TableOK w Wd U sp'
  first : First w sp' q rest
  good : GoodIn w sp' (low w m rest) (cut w m rest)
  work : Flag w suf (q :: rest) → wk + cnt w suf (cut w m rest) ≤ cnt w suf (q :: rest)

section
variable [RazMeta E M] [DecidableEq E] [DecidableEq M]

/-- All runs of calls nested at most `n` deep. -/
def RunPost (w : End) (suf all : List (HPt E)) (Wd : List (HPt E) → Prop) (U : Name → Prop) (σ : RMem E M) (n : Nat) : Prop :=
  ∀ q rest tr m (sp : FSpace E M) o, Before w suf all Wd U sp q rest tr → amrun fromBody σ n (keyOf w q rest tr m) sp = some (.ok o) →
    Post w suf Wd U sp q rest tr m o.reads o.facts o.space o.val o.work

/-- The call is stored. -/
def StoredCall (w : End) (sp : FSpace E M) (q : HPt E) (rest : List (HPt E)) (tr : Tr) (m : Nat) : Prop :=
  ∀ x, q.1.name = some x → ∃ e, sp.table (.forkL x) = some e ∧ e.key = keyOf w q rest tr m ∧ Usable e sp.mem rest (linkN tr ++ reg w q rest m)

omit [RazMeta E M] [DecidableEq E] [DecidableEq M] in
theorem set_changes (sp : FSpace E M) (x : Name) (e) : Changes [x] sp (sp.set (.forkL x) e) := by
  refine ⟨Keeps.refl _ _, fun m hm => ?_⟩
  simp only [Space.set]
  rw [if_neg (hm x (by simp))]

theorem call_ok {w : End} {suf all : List (HPt E)} {Wd : List (HPt E) → Prop} {U : Name → Prop} {σ : RMem E M} (hc : Ctx w suf all Wd U σ) {n : Nat}
    (ih : RunPost w suf all Wd U σ n) {q : HPt E} {rest : List (HPt E)} {tr : Tr} {m : Nat} {sp : FSpace E M} (hb : Before w suf all Wd U sp q rest tr)
    {k : FromRes E → AProg (Cell (TreeData E M) (Nat × List E)) (Cell (TreeData E M) (Nat × List E)) (FromKey E) (FromRes E) A} {o}
    (ho : amexec (amrun fromBody σ n) σ (callFrom (keyOf w q rest tr m) k) sp = some (.ok o)) :
    ∃ rd fs wk sp' a o', Post w suf Wd U sp q rest tr m rd fs sp' a wk ∧ Owned sp' q rest ∧ StoredCall w sp' q rest tr m ∧
      (∀ x e, q.1.name = some x → sp.lookup (.forkL x) σ (keyOf w q rest tr m) = some e → wk = 0) ∧
      amexec (amrun fromBody σ n) σ (k a) sp' = some (.ok o') ∧
      o = { o' with reads := rd ++ o'.reads, facts := fs ++ o'.facts, work := wk + o'.work } := by
  have ih := fun o => ih q rest tr m sp o hb
  unfold callFrom at ho
  cases hx : q.1.name with
  | none =>
    have hkn : (keyOf w q rest tr m).name.map Name.forkL = none := by simp [keyOf, hx]
    rw [hkn] at ho
    simp only [amexec] at ho
    rcases hr : amrun fromBody σ n (keyOf w q rest tr m) sp with _ | (_ | o1)
    · rw [hr] at ho; cases ho
    · rw [hr] at ho; cases ho
    · rw [hr] at ho
      obtain ⟨o', h1, h2⟩ := after_ok ho
      exact ⟨_, _, _, _, _, o', ih o1 hr, fun x e h _ => by simp [hx] at h, fun x h => (by simp [hx] at h), fun x e h => (by cases h), h1, h2⟩
  | some x =>
    have hkn : (keyOf w q rest tr m).name.map Name.forkL = some (.forkL x) := by simp [keyOf, hx]
    rw [hkn] at ho
    simp only [amexec] at ho
    have hxall : x ∈ pn (q :: rest) := by rw [pn_cons, hx]; simp
    cases hl : sp.lookup (.forkL x) σ (keyOf w q rest tr m) with
    | some e =>
      rw [hl] at ho
      simp only at ho
      obtain ⟨o', h1, h2⟩ := after_ok ho
      obtain ⟨e1, e2, e3, e4⟩ := flookup_some hl
      obtain ⟨-, r, -, -, hr, hca⟩ := hb.table _ _ e1
      have hrr : r = rest := by
        refine PView.fun (hc.view r hr) (hc.view rest (hc.world rest ((List.suffix_cons q rest).trans hb.part))) ?_
        rw [← hca.stack, e2]; rfl
      subst hrr
      have hbl := hca.below
      obtain ⟨t, ht1, ht2⟩ := hca.res
      have hrd := hca.reads
      have hwi := hca.within
      rw [e2] at hbl ht1 ht2 hwi
      replace hbl : w.below q.2.1 m = true := hbl
      have hdeep := hb.hyp.2.1 x e hx e1 (by rw [e2]; rfl) (by rw [e2]; rfl)
      have hg := good_cut hdeep m
      rw [low_cons hbl, cut_cons hbl] at hg
      obtain ⟨g1, g2, g3⟩ := hg
      rw [low_cut] at g1 g2
      refine ⟨e.reads, e.facts, 0, sp, e.res, o', ⟨hbl, ⟨t, ht1, ht2⟩, hrd, e4, hwi, (Changes.refl sp).mono (List.nil_subset _), hb.unused, hb.table, g1, g3, ?_⟩,
        g2, ?_, fun _ _ _ _ => rfl, h1, h2⟩
      · intro _
        have : cut w m r <:+ q :: r := (List.dropWhile_suffix _).trans (List.suffix_cons q r)
        have := cnt_suffix (w := w) (suf := suf) this
        omega
      · intro y hy
        rw [hx] at hy; cases hy
        exact ⟨e, e1, e2, hrd, e4, hwi⟩
    | none =>
      rw [hl] at ho
      simp only at ho
      rcases hr : amrun fromBody σ n (keyOf w q rest tr m) sp with _ | (_ | o1)
      · rw [hr] at ho; cases ho
      · rw [hr] at ho; cases ho
      · rw [hr] at ho
        obtain ⟨o', h1, h2⟩ := after_ok ho
        have p := ih o1 hr
        have hxr : x ∈ reg w q rest m := by simp [reg, hx]
        have hch := set_changes o1.space x ⟨keyOf w q rest tr m, o1.reads, o1.facts, o1.val⟩
        have hnd := hb.nodup
        rw [pn_cons, hx] at hnd
        have hxn : x ∉ pn rest := by
          intro hm
          simp only [Option.toList_some, List.singleton_append, List.nodup_cons] at hnd
          exact hnd.1 hm
        have hdx : ∀ l, l ⊆ pn rest → Dis l [x] := by
          intro l hls y hy hy'
          rw [List.mem_singleton] at hy'
          subst hy'
          exact hxn (hls hy)
        have htab : (o1.space.set (.forkL x) ⟨keyOf w q rest tr m, o1.reads, o1.facts, o1.val⟩).table (.forkL x) =
            some ⟨keyOf w q rest tr m, o1.reads, o1.facts, o1.val⟩ := by simp [Space.set]
        refine ⟨_, _, _, o1.space.set (.forkL x) ⟨keyOf w q rest tr m, o1.reads, o1.facts, o1.val⟩, _, o', ⟨p.below, p.val, p.reads, p.facts, p.within, p.changes.trans (hch.mono (by simpa using hxr)), p.unused, ?_,
          p.first.keep p.unused hch fun _ _ _ _ => hdx _ (low_prefix _ _ _), ?_, p.work⟩, ?_, ?_, fun y e hy he => ?_, h1, h2⟩
        · intro m' e' he'
          simp only [Space.set] at he'
          split at he'
          · next hm' =>
            cases he'
            obtain ⟨t, t1, t2⟩ := p.val
            exact ⟨x, rest, hm', hc.used x (pn_suffix hb.part hxall), hc.world rest ((List.suffix_cons q rest).trans hb.part), rfl, p.below,
              ⟨t, t1, t2⟩, p.reads, p.within⟩
          · exact p.table m' e' he'
        · exact p.good.keep p.unused hch (fun p r h => cut_head h) low_below (hdx _ (low_prefix _ _ _))
        · intro y e hy he
          rw [hx] at hy; cases hy
          rw [htab] at he; cases he
          exact ⟨rfl, rfl⟩
        · intro y hy
          rw [hx] at hy; cases hy
          exact ⟨_, htab, rfl, p.reads, p.facts, p.within⟩
        · cases hy
          rw [hl] at he
          cases he
omit [RazMeta E M] in
theorem next_ok {callee} {σ : RMem E M} {cur : List E} {rest : List (HPt E)} (hv : PView σ rest) {sp : FSpace E M}
    {k : ASt E → Option (List E × Option Nat) → AProg (Cell (TreeData E M) (Nat × List E)) (Cell (TreeData E M) (Nat × List E)) (FromKey E) (FromRes E) A} {o}
    (ho : amexec callee σ (nextArchiveProg ⟨cur, hd rest⟩ k) sp = some (.ok o)) :
    ∃ rd s' ov o', (∀ σ : RMem E M, PView σ rest → Agrees rd σ) ∧ amexec callee σ (k s' ov) sp = some (.ok o') ∧
      o = { o' with reads := rd ++ o'.reads } ∧
      match rest with
      | [] => ov = none ∨ s' = ASt.new ∧ ov = some (cur, none)
      | p :: r => s' = ⟨p.2.2, hd r⟩ ∧ ov = some (cur, some p.2.1) := by
  unfold nextArchiveProg at ho
  cases rest with
  | nil =>
    split at ho
    · exact ⟨[], _, _, o, fun _ _ => Agrees.nil _, ho, rfl, .inl rfl⟩
    · exact ⟨[], _, _, o, fun _ _ => Agrees.nil _, ho, rfl, .inr ⟨rfl, rfl⟩⟩
  | cons p r =>
    obtain ⟨h, lv, v⟩ := p
    rw [if_neg (by simp [ASt.isEmpty, hd])] at ho
    simp only [hd, List.head?_cons, Option.map_some, amexec] at ho
    have hc := hv.1
    simp only at hc
    rw [hc] at ho
    simp only at ho
    obtain ⟨o1, h1, h2⟩ := after_ok ho
    obtain ⟨o2, h3, h4⟩ := after_ok h1
    refine ⟨[(h.main, .body (lv, v) (hd r)), (h.main, .body (lv, v) (hd r))], _, _, o2, ?_, h3, ?_, rfl, rfl⟩
    · intro σ' hσ q hq
      simp only [List.mem_cons, List.not_mem_nil, or_false, or_self] at hq
      subst hq
      exact hσ.1
    · rw [h2, h4]; simp

omit [RazMeta E M] in
theorem leaf_put {sp : FSpace E M} (hf : Unused sp.mem) (v : List E) :
    ∃ k, (sp.alloc none (.node (.leaf v) none none)).2 = .anon k ∧ LeafAt (sp.alloc none (.node (.leaf v) none none)).1.mem k v := by
  have hp := put_spec (s := sp) hf (.node (.leaf v) none none)
  change ∃ k, (sp.put (.node (.leaf v) none none)).2 = .anon k ∧ LeafAt (sp.put (.node (.leaf v) none none)).1.mem k v
  obtain ⟨-, -, -, h4, k, h5, h6⟩ := hp
  refine ⟨k, h5, h6, h5 ▸ h4, ?_⟩
  intro j hj
  unfold Space.put at h5 h6 ⊢
  split at h5
  · next k' hk' =>
    simp only [hk', Loc.anon.injEq] at h5 h6 ⊢
    subst h5
    have := (List.find?_range_eq_some (p := fun k => decide (sp.mem.cells (.anon k) = some (.node (.leaf v) none none)))).1 hk'
    simpa using this.2.2 j hj
  · next hno =>
    simp only [hno] at h5 h6 ⊢
    rw [List.find?_eq_none] at hno
    simp only [Store.put, Store.set, Loc.anon.injEq] at h5 h6 ⊢
    rw [if_neg (by omega)]
    simpa using hno j (List.mem_range.2 (by omega))

omit [RazMeta E M] in
theorem alloc_ok {sp : FSpace E M} (hf : Unused sp.mem) (n : Option Name) (x : Cell (TreeData E M) (Nat × List E)) :
    Changes n.toList sp (sp.alloc n x).1 ∧ Unused (sp.alloc n x).1.mem ∧ (sp.alloc n x).1.table = sp.table ∧
      (sp.alloc n x).1.mem.cells (sp.alloc n x).2 = some x ∧ ∀ lv nm, linkN ⟨lv, nm, (sp.alloc n x).2⟩ ⊆ n.toList := by
  obtain ⟨a1, a2, a3, a4, a5⟩ := alloc_spec hf n x
  refine ⟨⟨a3, fun m _ => by rw [a1]⟩, a2, a1, a4, ?_⟩
  intro lv nm y hy
  unfold linkN at hy
  simp only at hy
  split at hy
  · next m q hq =>
    rw [List.mem_singleton] at hy
    subst hy
    rw [a5 _ _ hq]; simp
  · cases hy

omit [RazMeta E M] [DecidableEq E] [DecidableEq M] in
theorem link_in {t : Tr} {n : Name} {q : NsPath} (h : t.link = .named n q) : n ∈ linkN t := by simp [linkN, h]

theorem bin_ok {callee} {σ : RMem E M} {t1 t2 : Tr} {l : Nat} {n : Option Name} {sp : FSpace E M} (hf : Unused sp.mem)
    (hd1 : Dis (linkN t1 ++ linkN t2) n.toList)
    {k : Tr → AProg (Cell (TreeData E M) (Nat × List E)) (Cell (TreeData E M) (Nat × List E)) (FromKey E) (FromRes E) A} {o}
    (ho : amexec callee σ (binProg t1 l n t2 k) sp = some (.ok o)) :
    ∃ fs sp' t o', amexec callee σ (k t) sp' = some (.ok o') ∧ o = { o' with facts := fs ++ o'.facts } ∧ Changes n.toList sp sp' ∧ Unused sp'.mem ∧
      sp'.table = sp.table ∧ linkN t ⊆ n.toList ∧ Agrees fs sp'.mem ∧ Within fs (linkN t1 ++ linkN t2 ++ n.toList) := by
  unfold binProg at ho
  simp only [amexec] at ho
  cases h1 : sp.mem.cells t1.link with
  | none => rw [h1] at ho; cases ho
  | some c1 =>
  rw [h1] at ho
  obtain ⟨o1, e1, e2⟩ := after_ok ho
  cases h2 : sp.mem.cells t2.link with
  | none => rw [h2] at e1; cases e1
  | some c2 =>
  rw [h2] at e1
  obtain ⟨o2, e3, e4⟩ := after_ok e1
  have hw : Within ([(t1.link, c1), (t2.link, c2)] : List (Loc × Cell (TreeData E M) (Nat × List E))) (linkN t1 ++ linkN t2) := by
    intro m q x hx
    simp only [List.mem_cons, Prod.mk.injEq, List.not_mem_nil, or_false] at hx
    rcases hx with ⟨hx, -⟩ | ⟨hx, -⟩
    · exact List.mem_append_left _ (link_in hx.symm)
    · exact List.mem_append_right _ (link_in hx.symm)
  have hag : Agrees [(t1.link, c1), (t2.link, c2)] sp.mem := by
    intro q hq
    simp only [List.mem_cons, List.not_mem_nil, or_false] at hq
    rcases hq with rfl | rfl
    · exact h1
    · exact h2
  split at e3
  · next _ _ a al ar b bl br =>
    split at e3
    · cases e3
    · next d hd =>
      simp only [amexec] at e3
      obtain ⟨o3, e5, e6⟩ := after_ok e3
      obtain ⟨a1, a2, a3, a4, a5⟩ := alloc_ok hf n (.node d (some t1) (some t2))
      refine ⟨[(t1.link, .node a al ar), (t2.link, .node b bl br)] ++ [((sp.alloc n (.node d (some t1) (some t2))).2, .node d (some t1) (some t2))], _, _, o3, e5, ?_, a1, a2, a3,
        a5 _ _, ?_, ?_⟩
      · rw [e2, e4, e6]; simp
      · intro q hq
        rcases List.mem_append.1 hq with hq | hq
        · exact within_keep hag hw hf a1.keeps hd1 q hq
        · rw [List.mem_singleton] at hq
          subst hq
          exact a4
      · refine (hw.mono (List.subset_append_left _ _)).append ?_
        intro m q x hx
        rw [List.mem_singleton] at hx
        refine List.mem_append_right _ (a5 0 none ?_)
        have := congrArg Prod.fst hx
        exact link_in (t := ⟨0, none, _⟩) (q := q) this.symm
  · cases e3

theorem join_ok {callee} {σ : RMem E M} {w : End} {t1 t2 : Tr} {l : Nat} {n : Option Name} {sp : FSpace E M} (hf : Unused sp.mem)
    (hd1 : Dis (linkN t1 ++ linkN t2) n.toList)
    {k : Tr → AProg (Cell (TreeData E M) (Nat × List E)) (Cell (TreeData E M) (Nat × List E)) (FromKey E) (FromRes E) A} {o}
    (ho : amexec callee σ (joinProg w t1 l n t2 k) sp = some (.ok o)) :
    ∃ fs sp' t o', amexec callee σ (k t) sp' = some (.ok o') ∧ o = { o' with facts := fs ++ o'.facts } ∧ Changes n.toList sp sp' ∧ Unused sp'.mem ∧
      sp'.table = sp.table ∧ linkN t ⊆ n.toList ∧ Agrees fs sp'.mem ∧ Within fs (linkN t1 ++ linkN t2 ++ n.toList) := by
  have hcomm : linkN t2 ++ linkN t1 ⊆ linkN t1 ++ linkN t2 := by
    intro x hx
    rcases List.mem_append.1 hx with h | h
    · exact List.mem_append_right _ h
    · exact List.mem_append_left _ h
  cases w with
  | tail => exact bin_ok hf hd1 ho
  | head =>
    obtain ⟨fs, sp', t, o', h1, h2, h3, h4, h5, h6, h7, h8⟩ := bin_ok hf (hd1.mono hcomm (List.Subset.refl _)) ho
    refine ⟨fs, sp', t, o', h1, h2, h3, h4, h5, h6, h7, h8.mono ?_⟩
    intro x hx
    rcases List.mem_append.1 hx with h | h
    · exact List.mem_append_left _ (hcomm h)
    · exact List.mem_append_right _ h
/-- What goes on with the points `L` as long as they are below `l`: a call, or nothing. -/
def partProg (w : End) (L : List (HPt E)) (l : Nat) (base : Tr)
    (k : FromRes E → AProg (Cell (TreeData E M) (Nat × List E)) (Cell (TreeData E M) (Nat × List E)) (FromKey E) (FromRes E) A) :
    AProg (Cell (TreeData E M) (Nat × List E)) (Cell (TreeData E M) (Nat × List E)) (FromKey E) (FromRes E) A :=
  match L with
  | [] => k (resOf [] base)
  | p :: r => if w.below p.2.1 l then callFrom (keyOf w p r base l) k else k (resOf (p :: r) base)

/-- What that does. -/
structure PtPart (w : End) (suf : List (HPt E)) (Wd : List (HPt E) → Prop) (U : Name → Prop) (σ : RMem E M) (sp : FSpace E M) (L : List (HPt E)) (l : Nat) (base : Tr)
    (rd fs : List (Loc × Cell (TreeData E M) (Nat × List E))) (sp' : FSpace E M) (a : FromRes E) (wk : Nat) : Prop where
  val : ∃ t, a = resOf (cut w l L) t ∧ linkN t ⊆ linkN base ++ pn (low w l L)
  reads : ∀ σ : RMem E M, PView σ L → Agrees rd σ
  facts : Agrees fs sp'.mem
  within : Within fs (linkN base ++ pn (low w l L))
  changes : Changes (pn (low w l L)) sp sp'
  unused : Unused sp'.mem
  table : TableOK w Wd U sp'
  good : GoodIn w sp' (low w l L) (cut w l L)
  work : Flag w suf L → wk + cnt w suf (cut w l L) ≤ cnt w suf L
  stored : ∀ p r, L = p :: r → w.below p.2.1 l = true → StoredCall w sp' p r base l
  hit : ∀ p r x e, L = p :: r → p.1.name = some x → sp.lookup (.forkL x) σ (keyOf w p r base l) = some e → w.below p.2.1 l = true → wk = 0

theorem part_ok {w : End} {suf all : List (HPt E)} {Wd : List (HPt E) → Prop} {U : Name → Prop} {σ : RMem E M} (hc : Ctx w suf all Wd U σ) {n : Nat}
    (ih : RunPost w suf all Wd U σ n) {L : List (HPt E)} {base : Tr} {l : Nat} {sp : FSpace E M} (hu : Unused sp.mem) (ht : TableOK w Wd U sp)
    (hb : ∀ p r, L = p :: r → Before w suf all Wd U sp p r base)
    {k : FromRes E → AProg (Cell (TreeData E M) (Nat × List E)) (Cell (TreeData E M) (Nat × List E)) (FromKey E) (FromRes E) A} {o}
    (ho : amexec (amrun fromBody σ n) σ (partProg w L l base k) sp = some (.ok o)) :
    ∃ rd fs wk sp' a o', PtPart w suf Wd U σ sp L l base rd fs sp' a wk ∧ amexec (amrun fromBody σ n) σ (k a) sp' = some (.ok o') ∧
      o = { o' with reads := rd ++ o'.reads, facts := fs ++ o'.facts, work := wk + o'.work } := by
  have stay : low w l L = [] → cut w l L = L → (∀ p r, L = p :: r → w.below p.2.1 l = false) →
      PtPart w suf Wd U σ sp L l base [] [] sp (resOf L base) 0 := by
    intro h1 h2 h3
    refine ⟨⟨base, by rw [h2], List.subset_append_left _ _⟩, fun _ _ => Agrees.nil _, Agrees.nil _, Within.nil _, (Changes.refl sp).mono (List.nil_subset _), hu, ht,
      by rw [h1]; trivial, fun _ => by rw [h2]; omega, fun p r h hb => ?_, fun _ _ _ _ _ _ _ _ => rfl⟩
    rw [h3 p r h] at hb; cases hb
  cases L with
  | nil => exact ⟨[], [], 0, sp, _, o, stay rfl rfl (fun _ _ h => by cases h), ho, by simp⟩
  | cons p r =>
    simp only [partProg] at ho
    by_cases hbl : w.below p.2.1 l = true
    · rw [if_pos hbl] at ho
      obtain ⟨rd, fs, wk, sp', a, o', h1, h2, h3, h4, h5, h6⟩ := call_ok hc ih (hb p r rfl) ho
      have hreg : reg w p r l = pn (low w l (p :: r)) := by rw [low_cons hbl, pn_cons]; rfl
      have hcut := cut_cons (r := r) hbl
      obtain ⟨t, t1, t2⟩ := h1.val
      refine ⟨rd, fs, wk, sp', a, o', ⟨⟨t, by rw [hcut]; exact t1, ?_⟩, fun σ hσ => h1.reads σ hσ.2, h1.facts, by rw [← hreg]; exact h1.within,
        by rw [← hreg]; exact h1.changes, h1.unused, h1.table, ?_, by rw [hcut]; exact h1.work, ?_, ?_⟩, h5, h6⟩
      · rw [← hreg]; exact fun x hx => List.mem_append_right _ (t2 hx)
      · rw [low_cons hbl, hcut]
        refine ⟨?_, ?_, h1.good⟩
        · rw [low_cut]; exact h1.first
        · rw [low_cut]; exact h2
      · intro p' r' h _
        cases h
        exact h3
      · intro p' r' x e h hx he _
        cases h
        exact h4 x e hx he
    · rw [if_neg hbl] at ho
      have hbl : w.below p.2.1 l = false := by simpa using hbl
      exact ⟨[], [], 0, sp, _, o, stay (low_stop hbl) (cut_stop hbl) (fun _ _ h => by cases h; exact hbl), ho, by simp⟩

theorem final_part (w : End) (q : HPt E) (rest : List (HPt E)) (tr : Tr) (m : Nat) (R1 : List (HPt E)) (t newTree : Tr) :
    (fromFinal (keyOf w q rest tr m) (resOf R1 t) newTree :
      AProg (Cell (TreeData E M) (Nat × List E)) (Cell (TreeData E M) (Nat × List E)) (FromKey E) (FromRes E) (FromRes E)) =
      partProg w R1 m newTree .ret := by
  cases R1 <;> rfl

theorem first_hit {w : End} {sp : FSpace E M} {σ : RMem E M} {q p : HPt E} {r : List (HPt E)} (h : First w sp q (p :: r)) (hbl : w.below p.2.1 q.2.1 = true)
    {x : Name} (hx : p.1.name = some x) (hv : PView σ r) {k : Nat} (hl : LeafAt sp.mem k (w.vec q.2.2)) :
    ∃ e, sp.lookup (.forkL x) σ (keyOf w p r ⟨0, none, .anon k⟩ q.2.1) = some e := by
  obtain ⟨e, k', h1, h2, h3, h4⟩ := h p r rfl hbl x hx
  rw [hl.unique h3, ← h2]
  exact ⟨e, flookup_hit h1 (h4.reads σ hv) h4.facts⟩

theorem run_post {w : End} {suf all : List (HPt E)} {Wd : List (HPt E) → Prop} {U : Name → Prop} {σ : RMem E M} (hc : Ctx w suf all Wd U σ) :
    ∀ n, RunPost w suf all Wd U σ n := by
  intro n
  induction n with
  | zero => intro q rest tr m sp o _ h; cases h
  | succ n ih =>
    intro q rest tr m sp o hb ho
    have hrest : rest <:+ all := (List.suffix_cons q rest).trans hb.part
    have hvr : PView σ rest := hc.view rest (hc.world rest hrest)
    obtain ⟨o0, ho0, rfl⟩ := after_ok (show after [] [] 1 (amexec (amrun fromBody σ n) σ (fromBody (keyOf w q rest tr m)) sp) = _ from ho)
    unfold fromBody at ho0
    by_cases hcond : ((keyOf w q rest tr m).side.fits (keyOf w q rest tr m).tree.level (keyOf w q rest tr m).level &&
        (keyOf w q rest tr m).side.below (keyOf w q rest tr m).level (keyOf w q rest tr m).max) = true
    · rw [if_pos hcond] at ho0
      have hbl : w.below q.2.1 m = true := (Bool.and_eq_true _ _ ▸ hcond).2
      obtain ⟨rd0, s', ov, o1, hrd0, ho1, rfl, hm⟩ := next_ok hvr ho0
      -- the leaf and the first call
      have key : amexec (amrun fromBody σ n) σ (leafProg (w.vec q.2.2) fun leaf => partProg w rest q.2.1 leaf fun r =>
          joinProg w r.2.2.2 q.2.1 q.1.name tr fun newTree => fromFinal (keyOf w q rest tr m) r newTree) sp = some (.ok o1) := by
        cases rest with
        | nil =>
          rcases hm with rfl | ⟨rfl, rfl⟩
          · cases ho1
          · exact ho1
        | cons p r =>
          obtain ⟨rfl, rfl⟩ := hm
          exact ho1
      clear ho1 hm
      simp only [leafProg, amexec] at key
      obtain ⟨o2, ho2, rfl⟩ := after_ok key
      obtain ⟨k, hk1, hleaf⟩ := leaf_put hb.unused (w.vec q.2.2)
      obtain ⟨ac, au, at', -, -⟩ := alloc_ok hb.unused none (.node (.leaf (w.vec q.2.2)) none none)
      simp only [hk1] at ho2
      generalize (Space.alloc sp none (.node (.leaf (w.vec q.2.2)) none none)).1 = sp1 at *
      have hnd := hb.nodup
      rw [pn_cons] at hnd
      have hht1 : TableOK w Wd U sp1 := by intro m' e' he'; rw [at'] at he'; exact hb.table m' e' he'
      have hnil : ∀ l : List Name, Dis l (none : Option Name).toList := fun l x _ hx => by cases hx
      have hyp1 : Hyp w suf sp1 (q :: rest) := hb.hyp.keep hb.unused ac (hnil _)
      obtain ⟨rd2, fs2, wk2, sp2, a2, o3, p2, ho3, rfl⟩ := part_ok hc ih (L := rest) (base := ⟨0, none, .anon k⟩) au hht1
        (fun p r h => ⟨h ▸ hrest, au, hht1, h ▸ hyp1.2.2, h ▸ (List.nodup_append.1 hnd).2.1, fun x hx => by cases hx⟩) ho2
      obtain ⟨t2, rfl, ht2⟩ := p2.val
      have hln : ∀ t : List Name, linkN ⟨0, none, .anon k⟩ ++ t = t := fun t => rfl
      rw [hln] at ht2
      have hwi2 := p2.within
      rw [hln] at hwi2
      have hcut := cut_cut hbl rest
      have hlow := low_low hbl rest
      have hsplit := low_cut w q.2.1 rest
      have hchead : ∀ p r, cut w q.2.1 rest = p :: r → w.below p.2.1 q.2.1 = false := fun p r h => cut_head h
      have hfirst : First w sp2 q rest := by
        rintro p r rfl hpq x hx
        obtain ⟨e, e1, e2, e3⟩ := p2.stored p r rfl hpq x hx
        refine ⟨e, k, e1, e2, hleaf.keep p2.changes.keeps, e3.reads, e3.facts, ?_⟩
        have := e3.within
        rw [low_cons hpq, pn_cons]
        exact this
      have hwork2 : Flag w suf (q :: rest) → wk2 + cnt w suf (cut w q.2.1 rest) ≤ cnt w suf rest := by
        intro hF
        cases rest with
        | nil => exact p2.work (fun _ _ _ h => by cases h)
        | cons p r =>
          by_cases hs : q :: p :: r <:+ suf
          · have hcn := cnt_suffix (w := w) (suf := suf) (List.dropWhile_suffix (fun p : HPt E => w.below p.2.1 q.2.1) (l := p :: r))
            by_cases hpq : w.below p.2.1 q.2.1 = true
            · have hpn := hc.named p (hs.subset (by simp))
              obtain ⟨x, hx⟩ := Option.ne_none_iff_exists'.1 hpn
              obtain ⟨e, he⟩ := first_hit (hyp1.1 hs) hpq hx hvr.2 hleaf
              have := p2.hit p r x e rfl hx he hpq
              unfold cut
              omega
            · exact p2.work (by
                rw [← cut_stop (w := w) (m := q.2.1) (q := p) (r := r) (by simpa using hpq)]
                exact flag_cut hc.sub hb.part hF)
          · exact p2.work (flag_next hc.sub hb.part hs)
      generalize hR1 : cut w q.2.1 rest = R1 at *
      have hR1s : R1 <:+ rest := by rw [← hR1]; exact List.dropWhile_suffix _
      have hpnr : pn rest = pn (low w q.2.1 rest) ++ pn R1 := by rw [← pn_append, hsplit]
      rw [hpnr] at hnd
      obtain ⟨-, hnd2, hd1⟩ := List.nodup_append.1 hnd
      obtain ⟨-, hndR, hd2⟩ := List.nodup_append.1 hnd2
      have dq : ∀ l, l ⊆ pn (low w q.2.1 rest) ++ pn R1 → Dis l q.1.name.toList := fun l hl x hx hx' => hd1 x hx' x (hl hx) rfl
      have dR : Dis (pn (low w q.2.1 rest)) (pn R1) := fun x hx hx' => hd2 x hx x hx' rfl
      have dqR : Dis q.1.name.toList (pn R1) := fun x hx hx' => hd1 x hx x (List.mem_append_right _ hx') rfl
      have dtr := hb.dis
      rw [pn_cons, hpnr] at dtr
      -- the new node
      have hrt : (resOf R1 t2).2.2.2 = t2 := by cases R1 <;> rfl
      rw [hrt] at ho3
      obtain ⟨fs3, sp3, newTree, o4, ho4, rfl, jc, ju, jt, jl, jf, jw⟩ := join_ok p2.unused (by
        intro x hx hx'
        rcases List.mem_append.1 hx with hx | hx
        · exact dq _ (List.subset_append_left _ _) x (ht2 hx) hx'
        · exact dtr x hx (List.mem_append_left _ hx')) ho3
      rw [final_part] at ho4
      have ht3 : TableOK w Wd U sp3 := by intro m' e' he'; rw [jt] at he'; exact p2.table m' e' he'
      have hypR : Hyp w suf sp3 R1 := ((hyp1.2.2.suffix hR1s).keep au p2.changes (fun x hx hx' => dR x hx' hx)).keep p2.unused jc
        (dq _ (List.subset_append_right _ _))
      obtain ⟨rd4, fs4, wk4, sp4, a4, o5, p4, ho5, rfl⟩ := part_ok hc ih (L := R1) (base := newTree) ju ht3
        (fun p r h => ⟨h ▸ hR1s.trans hrest, ju, ht3, h ▸ hypR, h ▸ hndR, h ▸ fun x hx => dqR x (jl hx)⟩) ho4
      simp only [amexec, Option.some.injEq, Except.ok.injEq] at ho5
      subst ho5
      obtain ⟨t4, rfl, ht4⟩ := p4.val
      have hN2 : pn (low w m R1) ⊆ pn R1 := low_prefix _ _ _
      have hregE : reg w q rest m = q.1.name.toList ++ (pn (low w q.2.1 rest) ++ pn (low w m R1)) := by
        unfold reg
        rw [hlow, pn_append]
      have d1 : Dis (pn (low w q.2.1 rest)) (pn (low w m R1)) := dR.mono (List.Subset.refl _) hN2
      have s0 : q.1.name.toList ⊆ reg w q rest m := by rw [hregE]; exact List.subset_append_left _ _
      have s1 : pn (low w q.2.1 rest) ⊆ reg w q rest m := by
        rw [hregE]; exact fun x hx => List.mem_append_right _ (List.mem_append_left _ hx)
      have s2 : pn (low w m R1) ⊆ reg w q rest m := by
        rw [hregE]; exact fun x hx => List.mem_append_right _ (List.mem_append_right _ hx)
      have hleaf4 := ((hleaf.keep p2.changes.keeps).keep jc.keeps).keep p4.changes.keeps
      refine ⟨hbl, ⟨t4, by rw [hcut], ?_⟩, ?_, ?_, ?_, ?_, p4.unused, p4.table, ?_, ?_, ?_⟩
      · intro x hx
        rcases List.mem_append.1 (ht4 hx) with hx | hx
        · exact s0 (jl hx)
        · exact s2 hx
      · intro σ' hσ
        intro y hy
        simp only [List.nil_append, List.append_nil] at hy
        rcases List.mem_append.1 hy with hy | hy
        · exact hrd0 σ' hσ y hy
        rcases List.mem_append.1 hy with hy | hy
        · exact p2.reads σ' hσ y hy
        · exact p4.reads σ' (hσ.suffix hR1s) y hy
      · intro y hy
        simp only [List.nil_append, List.append_nil, List.singleton_append, List.mem_cons, List.mem_append] at hy
        rcases hy with rfl | hy | hy | hy
        · simp only [hk1]; exact hleaf4.cell
        · exact within_keep (within_keep p2.facts hwi2 p2.unused jc.keeps (dq _ (List.subset_append_left _ _))) hwi2 ju p4.changes.keeps d1 y hy
        · refine within_keep jf jw ju p4.changes.keeps ?_ y hy
          intro x hx hx'
          rcases List.mem_append.1 hx with hx | hx
          · rcases List.mem_append.1 hx with hx | hx
            · exact d1 x (ht2 hx) hx'
            · exact dtr x hx (List.mem_append_right _ (List.mem_append_right _ (hN2 hx')))
          · exact dqR x hx (hN2 hx')
        · exact p4.facts y hy
      · intro x pth y hy
        simp only [List.nil_append, List.append_nil, List.singleton_append, List.mem_cons, List.mem_append] at hy
        rcases hy with hy | hy | hy | hy
        · rw [hk1] at hy; cases hy
        · exact List.mem_append_right _ (s1 (hwi2 x pth y hy))
        · rcases List.mem_append.1 (jw x pth y hy) with h | h
          · rcases List.mem_append.1 h with h | h
            · exact List.mem_append_right _ (s1 (ht2 h))
            · exact List.mem_append_left _ h
          · exact List.mem_append_right _ (s0 h)
        · rcases List.mem_append.1 (p4.within x pth y hy) with h | h
          · exact List.mem_append_right _ (s0 (jl h))
          · exact List.mem_append_right _ (s2 h)
      · exact (((ac.mono (List.nil_subset _)).trans (p2.changes.mono s1)).trans (jc.mono s0)).trans (p4.changes.mono s2)
      · exact (hfirst.keep p2.unused jc fun _ _ _ _ => dq _ (List.subset_append_left _ _)).keep ju p4.changes fun _ _ _ _ => d1
      · rw [hlow, ← hcut, GoodIn.append, low_cut]
        refine ⟨?_, p4.good⟩
        exact (((hR1 ▸ p2.good : GoodIn w sp2 (low w q.2.1 rest) R1).keep p2.unused jc hchead low_below (dq _ (List.subset_append_left _ _))).keep ju p4.changes hchead low_below d1)
      · intro hF
        have h2 := hwork2 hF
        have h4 := p4.work (by rw [← hR1]; exact flag_cut hc.sub hb.part hF)
        rw [cnt_flag hF, ← hcut]
        simp only
        omega
    · rw [if_neg hcond] at ho0; cases ho0
theorem conv_post {w : End} {suf a : List (HPt E)} {Wd : List (HPt E) → Prop} {U : Name → Prop} {σ : RMem E M} (hc : Ctx w suf a Wd U σ) {sp : FSpace E M}
    (hu : Unused sp.mem) (ht : TableOK w Wd U sp) (hh : Hyp w suf sp a) (hn : (pn a).Nodup) {n : Nat} {cur : List E} {o}
    (ho : memoFromRun w σ n ⟨cur, hd a⟩ sp = some (.ok o)) :
    Unused o.space.mem ∧ TableOK w Wd U o.space ∧ Deep w o.space a ∧ o.work ≤ cnt w suf a := by
  unfold memoFromRun memoFromProg at ho
  have hva : PView σ a := hc.view a (hc.world a List.suffix_rfl)
  obtain ⟨rd0, s', ov, o1, -, ho1, rfl, hm⟩ := next_ok hva ho
  obtain ⟨ac, au, at', -, -⟩ := alloc_ok hu none (.node (.leaf (w.vec cur)) none none)
  cases a with
  | nil =>
    rcases hm with rfl | ⟨rfl, rfl⟩
    · simp only [amexec, Option.some.injEq, Except.ok.injEq] at ho1
      subst ho1
      exact ⟨hu, ht, trivial, Nat.zero_le _⟩
    · simp only [leafProg, amexec, after, Option.some.injEq, Except.ok.injEq] at ho1
      subst ho1
      exact ⟨au, fun m' e' he' => ht m' e' (by rw [← at']; exact he'), trivial, Nat.zero_le _⟩
  | cons q rest =>
    obtain ⟨rfl, rfl⟩ := hm
    simp only [leafProg, amexec] at ho1
    obtain ⟨o2, ho2, rfl⟩ := after_ok ho1
    obtain ⟨k, hk1, hleaf⟩ := leaf_put hu (w.vec cur)
    simp only [hk1] at ho2
    generalize (Space.alloc sp none (.node (.leaf (w.vec cur)) none none)).1 = sp1 at *
    have ht1 : TableOK w Wd U sp1 := by intro m' e' he'; rw [at'] at he'; exact ht m' e' he'
    have hyp1 := hh.keep hu ac (fun x _ hx => by cases hx)
    obtain ⟨rd, fs, wk, sp', r, o3, p, h2, h3, -, h5, rfl⟩ := call_ok hc (run_post hc n) (q := q) (rest := rest) (tr := ⟨0, none, .anon k⟩) (m := u32Max)
      ⟨List.suffix_rfl, au, ht1, hyp1, hn, fun x hx => by cases hx⟩ ho2
    obtain ⟨t, rfl, -⟩ := p.val
    split at h5
    · next hcond =>
      simp only [amexec, Option.some.injEq, Except.ok.injEq] at h5
      subst h5
      have hR : cut w u32Max rest = [] := by
        cases hR : cut w u32Max rest with
        | nil => rfl
        | cons q2 r2 => rw [hR] at hcond; simp [resOf] at hcond
      have hL := low_cut w u32Max rest
      have hg := p.good
      have hw := p.work (by
        intro q' r' u hq hs e he
        have := hc.sub.length_le
        rw [hs] at this
        simp only [List.length_append] at this
        have : u = [] := List.length_eq_zero_iff.1 (by omega)
        subst this; cases he)
      rw [hR] at hL hg hw
      rw [List.append_nil] at hL
      rw [hL] at hg
      have hdeep : Deep w sp' (q :: rest) := by
        unfold Deep GoodIn
        rw [List.append_nil]
        exact ⟨p.first, h2, hg⟩
      refine ⟨p.unused, p.table, hdeep, ?_⟩
      simp only [cnt] at hw ⊢
      omega
    · cases h5

/-- What is known about a namespace after the conversions of a history. -/
structure KeptConv (w : End) (sp : FSpace E M) (H : List (List (HPt E))) : Prop where
  unused : Unused sp.mem
  table : TableOK w (fun r => ∃ b ∈ H, r <:+ b) (fun x => ∃ b ∈ H, x ∈ pn b) sp
  last : ∀ b, H.head? = some b → Deep w sp b

omit [RazMeta E M] [DecidableEq E] [DecidableEq M] in
theorem Deep.same {w : End} {sp : FSpace E M} {q q1 : HPt E} {r : List (HPt E)} (h : Deep w sp (q1 :: r)) (e1 : q.1.name = q1.1.name) (e2 : q.2 = q1.2) :
    Deep w sp (q :: r) := by
  obtain ⟨h1, h2, h3⟩ := h
  refine ⟨?_, ?_, h3⟩
  · unfold First at h1 ⊢; rw [e2]; exact h1
  · unfold Owned at h2 ⊢; rw [e1, e2]; exact h2

omit [RazMeta E M] [DecidableEq E] [DecidableEq M] in
theorem pn_mem {x : Name} : ∀ {l : List (HPt E)}, x ∈ pn l → ∃ q r, q :: r <:+ l ∧ q.1.name = some x := by
  intro l h
  induction l with
  | nil => cases h
  | cons p l ih =>
    rw [pn_cons] at h
    rcases List.mem_append.1 h with h | h
    · exact ⟨p, l, List.suffix_rfl, by simpa using h⟩
    · obtain ⟨q, r, h1, h2⟩ := ih h
      exact ⟨q, r, h1.trans (List.suffix_cons _ _), h2⟩

omit [RazMeta E M] [DecidableEq E] [DecidableEq M] in
theorem KeptConv.hyp {w : End} {sp : FSpace E M} {H : List (List (HPt E))} (hk : KeptConv w sp H) {σ : RMem E M} {a suf : List (HPt E)} (hv : PView σ a)
    (hall : ∀ b ∈ H, PView σ b) (hr : ∀ x ∈ pn a, ∀ b ∈ H, x ∈ pn b → ∃ b, H.head? = some b ∧ x ∈ pn b)
    (hs : suf = [] ∨ ∃ b, H.head? = some b ∧ suf <:+ b) : ∀ {L : List (HPt E)}, L <:+ a → Hyp w suf sp L := by
  intro L
  induction L with
  | nil => intro _; trivial
  | cons q r ih =>
    intro hL
    refine ⟨fun hq => ?_, ?_, ih ((List.suffix_cons q r).trans hL)⟩
    · rcases hs with rfl | ⟨b, hb, hsb⟩
      · simp at hq
      · have := (hk.last b hb).suffix (hq.trans hsb)
        have := this.1
        rwa [List.append_nil] at this
    · intro x e hx he e1 e2
      obtain ⟨y, -, hxy, ⟨b, hb, hyb⟩, -, -⟩ := hk.table _ _ he
      cases hxy
      have hxa : x ∈ pn a := pn_suffix hL (by rw [pn_cons, hx]; simp)
      obtain ⟨b0, hb0, hx0⟩ := hr x hxa b hb hyb
      have hb0H : b0 ∈ H := List.mem_of_head? hb0
      obtain ⟨q1, r1, hq1, hn1⟩ := pn_mem hx0
      have hd := (hk.last b0 hb0).suffix hq1
      have ho := hd.2.1 x e hn1 he
      rw [List.append_nil] at ho
      rw [e1, e2] at ho
      obtain ⟨o1, o2⟩ := ho
      injection o1 with o1 o3
      have hrr : r = r1 := PView.fun (hv.suffix ((List.suffix_cons q r).trans hL)) ((hall b0 hb0H).suffix ((List.suffix_cons q1 r1).trans hq1)) o3
      subst hrr
      exact hd.same (by rw [hx, hn1]) (Prod.ext o2 o1)

theorem KeptConv.next {w : End} {sp : FSpace E M} {H : List (List (HPt E))} (hk : KeptConv w sp H) {σ : RMem E M} {a suf : List (HPt E)} (hv : PView σ a)
    (hall : ∀ b ∈ H, PView σ b) (hn : (pn a).Nodup) (hr : ∀ x ∈ pn a, ∀ b ∈ H, x ∈ pn b → ∃ b, H.head? = some b ∧ x ∈ pn b)
    (hs : suf = [] ∨ ∃ b, H.head? = some b ∧ suf <:+ b) (hsa : suf <:+ a) (hnm : ∀ p ∈ suf, p.1.name ≠ none) {n : Nat} {cur : List E} {o}
    (ho : memoFromRun w σ n ⟨cur, hd a⟩ sp = some (.ok o)) : KeptConv w o.space (a :: H) ∧ o.work ≤ cnt w suf a := by
  have hc : Ctx w suf a (fun r => ∃ b ∈ a :: H, r <:+ b) (fun x => ∃ b ∈ a :: H, x ∈ pn b) σ := by
    refine ⟨hsa, hnm, ?_, fun r hr => ⟨a, List.mem_cons_self, hr⟩, fun x hx => ⟨a, List.mem_cons_self, hx⟩⟩
    rintro r ⟨b, hb, hrb⟩
    rcases List.mem_cons.1 hb with rfl | hb
    · exact hv.suffix hrb
    · exact (hall b hb).suffix hrb
  have ht : TableOK w (fun r => ∃ b ∈ a :: H, r <:+ b) (fun x => ∃ b ∈ a :: H, x ∈ pn b) sp := by
    intro m e he
    obtain ⟨x, r, h1, ⟨b, h2, h3⟩, ⟨c, h4, h5⟩, h6⟩ := hk.table m e he
    exact ⟨x, r, h1, ⟨b, List.mem_cons_of_mem _ h2, h3⟩, ⟨c, List.mem_cons_of_mem _ h4, h5⟩, h6⟩
  obtain ⟨h1, h2, h3, h4⟩ := conv_post hc hk.unused ht (hk.hyp hv hall hr hs List.suffix_rfl) hn ho
  exact ⟨⟨h1, h2, fun b hb => by cases hb; exact h3⟩, h4⟩

theorem ConvHistory.kept {w : End} {sp : FSpace E M} {H : List (List (HPt E))} (h : ConvHistory w sp H) : KeptConv w sp H := by
  induction h with
  | start => exact ⟨FInv.empty.fresh.unused, (fun m e he => by cases he), (fun b hb => by cases hb)⟩
  | conv _ hv hall hn hr ho ih => exact (ih.next (suf := []) hv hall hn hr (.inl rfl) (List.nil_suffix) (fun p hp => by cases hp) ho).1
end

theorem cnt_records_aux {w : End} {suf : List (HPt E)} : ∀ {L u : List (HPt E)} {above : List Nat}, suf = u ++ L → (∀ l ∈ above, ∃ e ∈ u, e.2.1 = l) →
    cnt w suf L ≤ records w above L := by
  intro L
  induction L with
  | nil => intro u above _ _; exact Nat.zero_le _
  | cons q r ih =>
    intro u above hs ha
    have h1 := ih (u := u ++ [q]) (above := q.2.1 :: above) (by rw [hs]; simp) (by
      intro l hl
      rcases List.mem_cons.1 hl with rfl | hl
      · exact ⟨q, by simp, rfl⟩
      · obtain ⟨e, he, h⟩ := ha l hl
        exact ⟨e, List.mem_append_left _ he, h⟩)
    simp only [cnt, records]
    by_cases hF : Flag w suf (q :: r)
    · rw [if_pos hF, if_pos]
      · omega
      · rw [List.all_eq_true]
        intro l hl
        obtain ⟨e, he, rfl⟩ := ha l hl
        rw [hF q r u rfl hs e he]
        rfl
    · rw [if_neg hF]
      omega

theorem cnt_records (w : End) (pre suf : List (HPt E)) : cnt w suf (pre ++ suf) ≤ pre.length + records w [] suf := by
  induction pre with
  | nil =>
    have := cnt_records_aux (w := w) (suf := suf) (L := suf) (u := []) (above := []) rfl (fun l hl => by cases hl)
    simpa using this
  | cons q pre ih =>
    simp only [List.cons_append, cnt, List.length_cons]
    split <;> omega

end Iodyn.Incr
