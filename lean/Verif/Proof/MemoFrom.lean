import Verif.Proof.Tidy
import Verif.Spec.Stacks
import Verif.Model.MemoFrom
/-
`memo_from` for both directions.
-/
namespace Iodyn
variable {E M : Type}

/-- Everything archived satisfies `ok` and is not empty. -/
def StackP {N : Type} (ok : N → Prop) (s : AStack E N) : Prop := ∀ p ∈ s.archived, ok p.2.1 ∧ p.2.2 ≠ []

theorem keep_elems (v : List E) : (v.map Item.elem).map Item.keep = v.map Item.elem := by
  simp [Item.keep]

theorem bottomUp_mk (cur : List E) (arch) :
    AStack.bottomUp (⟨cur, arch⟩ : AStack E Nat) = AStack.bottomUp ⟨[], arch⟩ ++ cur.map .elem := by
  simp [AStack.bottomUp, side_mk cur, Item.keep, Function.comp_def]
theorem bottomUp_arch (nm lev) (v : List E) (rest) :
    AStack.bottomUp (⟨[], (nm, (lev, v)) :: rest⟩ : AStack E Nat) = AStack.bottomUp ⟨v, rest⟩ ++ [.mark lev nm] := by
  simp [AStack.bottomUp, side_arch, Item.keep]
theorem topDown_mk (cur : List E) (arch) :
    AStack.topDown (⟨cur, arch⟩ : AStack E Nat) = cur.reverse.map .elem ++ AStack.topDown ⟨[], arch⟩ := by
  simp [AStack.topDown, side_mk cur, Item.keep, Function.comp_def]
theorem topDown_arch (nm lev) (v : List E) (rest) :
    AStack.topDown (⟨[], (nm, (lev, v)) :: rest⟩ : AStack E Nat) = .mark lev nm :: AStack.topDown ⟨v, rest⟩ := by
  simp [AStack.topDown, side_arch, Item.keep]
@[simp] theorem bottomUp_nil : AStack.bottomUp (⟨[], []⟩ : AStack E Nat) = [] := rfl
@[simp] theorem topDown_nil : AStack.topDown (⟨[], []⟩ : AStack E Nat) = [] := rfl

section
variable [RazMeta E M]

theorem WF.lev {t : Tree (TreeData E M)} (h : WF t) : t.level? = some (levelOr0 t) := by
  cases h <;> rfl

theorem bin_wf {l r : Tree (TreeData E M)} (hl : WF l) (hr : WF r) {lv : Nat} (h : 1 ≤ lv) (nm) :
    ∃ t, bin l lv nm r = .ok t ∧ WF t ∧ levelOr0 t = lv ∧ t.items = l.items ++ .mark lv nm :: r.items ∧
      (levelOr0 l < lv → levelOr0 r ≤ lv → Canon l → Canon r → Canon t) := by
  refine ⟨_, bin_eq hl.peek_ne hr.peek_ne lv nm, WF.branch h hl hr, rfl, rfl, ?_⟩
  intro h1 h2 h3 h4
  refine ⟨?_, ?_, h3, h4⟩
  · intro x hx; rw [hl.lev] at hx; simp at hx; omega
  · intro x hx; rw [hr.lev] at hx; simp at hx; omega

/-- Result of `from_stack`. -/
structure TailRes (ok : Nat → Prop) (n max : Nat) (items : List (Item E)) (r : FromStackRes E M) : Prop where
  wf : WF r.2.2.2
  canon : Canon r.2.2.2
  lev : levelOr0 r.2.2.2 < max
  rest : match r.2.1 with
    | none => r.1 = ⟨[], []⟩ ∧ r.2.2.1 = none ∧ r.2.2.2.items = items
    | some lev => max ≤ lev ∧ ok lev ∧ r.1.current ≠ [] ∧ StackP ok r.1 ∧ r.1.archived.length < n ∧
      r.1.bottomUp ++ .mark lev r.2.2.1 :: r.2.2.2.items = items

/-- The end of `from_stack`, after the small tree has been built. -/
def kTail (fuel first : Nat) (nm : Option Name) (accum : Tree (TreeData E M)) (max : Nat) (r0 : FromStackRes E M) :
    P (FromStackRes E M) := do
  let newTree ← bin r0.2.2.2 first nm accum
  match r0.2.1 with
  | none => return (AStack.new, none, none, newTree)
  | some lev =>
    if lev < max then fromStackTail fuel r0.1 lev r0.2.2.1 newTree max
    else return (r0.1, some lev, r0.2.2.1, newTree)

theorem fromStackTail_last (fuel : Nat) {cur : List E} (hcur : cur ≠ []) {first : Nat} {nm : Option Name}
    {accum : Tree (TreeData E M)} {max : Nat} (h1 : levelOr0 accum ≤ first) (h2 : first < max) :
    fromStackTail (fuel + 1) (⟨cur, []⟩ : AStack E Nat) first nm accum max =
      kTail fuel first nm accum max (AStack.new, none, none, leaf cur none) := by
  conv => lhs; unfold fromStackTail
  simp only [assert, h1, h2, decide_true, if_true, nextArchive_last hcur]
  rfl
theorem fromStackTail_cons (fuel : Nat) {cur : List E} {anm : Option Name} {alev : Nat} {av : List E} {rest}
    {first : Nat} {nm : Option Name}
    {accum : Tree (TreeData E M)} {max : Nat} (h1 : levelOr0 accum ≤ first) (h2 : first < max) :
    fromStackTail (fuel + 1) (⟨cur, (anm, alev, av) :: rest⟩ : AStack E Nat) first nm accum max =
      (if alev < first then fromStackTail fuel ⟨av, rest⟩ alev anm (leaf cur none) first
        else .ok (⟨av, rest⟩, some alev, anm, leaf cur none)) >>= kTail fuel first nm accum max := by
  conv => lhs; unfold fromStackTail
  simp only [assert, h1, h2, decide_true, if_true, nextArchive_cons]
  rfl

theorem fromStackTail_ok {ok : Nat → Prop} (hok : ∀ n, ok n → 1 ≤ n) : ∀ (fuel : Nat) (stack : AStack E Nat)
    (first : Nat) (nm : Option Name) (accum : Tree (TreeData E M)) (max : Nat),
    stack.archived.length + 1 ≤ fuel → stack.current ≠ [] → StackP ok stack → 1 ≤ first →
    levelOr0 accum ≤ first → first < max → WF accum → Canon accum →
    ∃ r, fromStackTail fuel stack first nm accum max = .ok r ∧
      TailRes ok (stack.archived.length + 1) max (stack.bottomUp ++ .mark first nm :: accum.items) r := by
  intro fuel
  induction fuel with
  | zero => intro stack first nm accum max h; omega
  | succ fuel ih =>
    intro stack first nm accum max hfuel hcur hs hfirst hlev hmax hwf hcan
    obtain ⟨cur, arch⟩ := stack
    simp only at hcur hfuel
    -- finishing step, given the small tree
    have finish : ∀ (r0 : FromStackRes E M) (n0 : Nat), n0 ≤ fuel → n0 ≤ arch.length + 1 →
        TailRes ok n0 first (AStack.bottomUp (⟨cur, arch⟩ : AStack E Nat)) r0 →
        ∃ r : FromStackRes E M, kTail fuel first nm accum max r0 = .ok r ∧
          TailRes ok (arch.length + 1) max (AStack.bottomUp (⟨cur, arch⟩ : AStack E Nat) ++ .mark first nm :: accum.items) r := by
      intro r0 n0 hn0 hn1 h0
      obtain ⟨rs, rl, rn, rt⟩ := r0
      obtain ⟨w, c, lv, rest⟩ := h0
      simp only at w c lv rest
      obtain ⟨t, b1, b2, b3, b4, b5⟩ := bin_wf w hwf hfirst nm
      have b5 := b5 lv hlev c hcan
      simp only [kTail, b1, bind, Except.bind]
      cases rl with
      | none =>
        obtain ⟨e1, e2, e3⟩ := rest
        refine ⟨_, rfl, b2, b5, by simp only; omega, rfl, rfl, ?_⟩
        simp only
        rw [b4, e3]
      | some lev =>
        obtain ⟨e1, e2, e3, e4, e5, e6⟩ := rest
        simp only
        split
        · rename_i hlt
          obtain ⟨r, f1, f2⟩ := ih rs lev rn t max (by omega) e3 e4 (hok _ e2) (by omega) hlt b2 b5
          refine ⟨r, f1, f2.wf, f2.canon, f2.lev, ?_⟩
          have := f2.rest
          rw [b4] at this
          have e6' : rs.bottomUp ++ Item.mark lev rn :: (rt.items ++ Item.mark first nm :: accum.items) =
            AStack.bottomUp (⟨cur, arch⟩ : AStack E Nat) ++ Item.mark first nm :: accum.items := by
            rw [← e6]; simp
          rw [e6'] at this
          cases hr : r.2.1 with
          | none => rw [hr] at this; exact this
          | some l =>
            rw [hr] at this
            obtain ⟨g1, g2, g3, g4, g5, g6⟩ := this
            exact ⟨g1, g2, g3, g4, by omega, g6⟩
        · rename_i hlt
          refine ⟨_, rfl, b2, b5, by simp only; omega, by omega, e2, e3, e4, by simp only at e5 ⊢; omega, ?_⟩
          simp only
          rw [b4, ← e6]; simp
    rcases arch with _ | ⟨⟨anm, alev, av⟩, rest⟩
    · rw [fromStackTail_last fuel hcur hlev hmax]
      exact finish (AStack.new, none, none, leaf cur none) 0 (by omega) (by omega)
        ⟨WF.leaf cur, canon_leaf cur none, by simp only [levelOr0, leaf, Tree.level?, Option.getD]; omega, rfl, rfl, by rw [bottomUp_mk cur]; simp [leaf]⟩
    · rw [fromStackTail_cons fuel hlev hmax]
      have ha := hs (anm, alev, av) (by simp)
      have hs' : StackP ok (⟨av, rest⟩ : AStack E Nat) := fun p hp => hs p (by simp at hp ⊢; exact .inr hp)
      simp only [List.length_cons] at hfuel
      split
      · rename_i hlt
        obtain ⟨r, f1, f2⟩ := ih ⟨av, rest⟩ alev anm (leaf cur none) first (by simp only; omega) ha.2 hs'
          (hok _ ha.1) (by simp [levelOr0, leaf, Tree.level?]) hlt (WF.leaf cur) (canon_leaf cur none)
        rw [f1]; simp only [bind, Except.bind]
        refine finish r (rest.length + 1) (by omega) (by simp) ?_
        have : AStack.bottomUp (⟨av, rest⟩ : AStack E Nat) ++ Item.mark alev anm :: (leaf cur none : Tree (TreeData E M)).items =
            AStack.bottomUp (⟨cur, (anm, alev, av) :: rest⟩ : AStack E Nat) := by
          rw [bottomUp_mk cur, bottomUp_arch]; simp [leaf]
        rw [this] at f2
        exact f2
      · rename_i hlt
        simp only [bind, Except.bind]
        refine finish (⟨av, rest⟩, some alev, anm, leaf cur none) (rest.length + 1) (by omega) (by simp) ?_
        refine ⟨WF.leaf cur, canon_leaf cur none, by simp only [levelOr0, leaf, Tree.level?, Option.getD]; omega, by omega,
          ha.1, ha.2, hs', by simp, ?_⟩
        rw [bottomUp_mk cur, bottomUp_arch]; simp [leaf]

/-- `memo_from(AtTail)`: no panic, the stack bottom to top, heap ordered. -/
theorem memoFromTail_ok {s : AStack E Nat} (hs : StackP (fun n => 1 ≤ n ∧ n < u32Max) s) :
    ∃ t : Tree (TreeData E M), memoFromTail s = .ok { info := metaOf 0 none t, tree := t } ∧ WFo t ∧ Canon t ∧
      t.items = s.bottomUp := by
  obtain ⟨cur, arch⟩ := s
  rcases arch with _ | ⟨⟨anm, alev, av⟩, rest⟩
  · by_cases hc : cur = []
    · subst hc
      refine ⟨.nil, ?_, .inl rfl, trivial, rfl⟩
      simp only [memoFromTail, nextArchive_nil]
      exact mkRazTree_wf (.inl rfl)
    · refine ⟨leaf cur none, ?_, .inr (WF.leaf cur), canon_leaf cur none, by rw [bottomUp_mk cur]; simp [leaf]⟩
      simp only [memoFromTail, nextArchive_last hc]
      exact mkRazTree_wf (.inr (WF.leaf cur))
  · have ha := hs (anm, alev, av) (by simp)
    have hs' : StackP (fun n => 1 ≤ n ∧ n < u32Max) (⟨av, rest⟩ : AStack E Nat) := fun p hp => hs p (by simp at hp ⊢; exact .inr hp)
    obtain ⟨r, f1, f2⟩ := fromStackTail_ok (M := M) (fun n h => h.1) (rest.length + 1 + 1) ⟨av, rest⟩ alev anm
      (leaf cur none) u32Max (by simp) ha.2 hs' ha.1.1 (by simp [levelOr0, leaf, Tree.level?]) ha.1.2
      (WF.leaf cur) (canon_leaf cur none)
    obtain ⟨rs, rl, rn, rt⟩ := r
    obtain ⟨w, c, lv, rest'⟩ := f2
    simp only at w c lv rest'
    cases rl with
    | some lev =>
      obtain ⟨g1, g2, -⟩ := rest'
      omega
    | none =>
      obtain ⟨rfl, rfl, hi⟩ := rest'
      refine ⟨rt, ?_, .inr w, c, ?_⟩
      · simp only [memoFromTail, nextArchive_cons, List.length_cons]
        have hname : AStack.name (⟨cur, (anm, alev, av) :: rest⟩ : AStack E Nat) = anm := rfl
        rw [hname, f1]
        simp only [bind, Except.bind, assert, Option.isNone_none, if_true]
        exact mkRazTree_wf (.inr w)
      · rw [hi, bottomUp_mk cur, bottomUp_arch]; simp [leaf]

/-- Result of `from_stack` for `AtHead`. -/
structure HeadRes (ok : Nat → Prop) (n max : Nat) (items : List (Item E)) (r : FromStackRes E M) : Prop where
  wf : WF r.2.2.2
  canon : Canon r.2.2.2
  lev : levelOr0 r.2.2.2 ≤ max
  rest : match r.2.1 with
    | none => r.1 = ⟨[], []⟩ ∧ r.2.2.1 = none ∧ r.2.2.2.items = items
    | some lev => max < lev ∧ ok lev ∧ r.1.current ≠ [] ∧ StackP ok r.1 ∧ r.1.archived.length < n ∧
      r.2.2.2.items ++ .mark lev r.2.2.1 :: r.1.topDown = items

/-- The end of `from_stack`, after the small tree has been built. -/
def kHead (fuel first : Nat) (nm : Option Name) (accum : Tree (TreeData E M)) (max : Nat) (r0 : FromStackRes E M) :
    P (FromStackRes E M) := do
  let newTree ← bin accum first nm r0.2.2.2
  match r0.2.1 with
  | none => return (AStack.new, none, none, newTree)
  | some lev =>
    if lev ≤ max then fromStackHead fuel r0.1 lev r0.2.2.1 newTree max
    else return (r0.1, some lev, r0.2.2.1, newTree)

theorem fromStackHead_last (fuel : Nat) {cur : List E} (hcur : cur ≠ []) {first : Nat} {nm : Option Name}
    {accum : Tree (TreeData E M)} {max : Nat} (h1 : levelOr0 accum < first) (h2 : first ≤ max) :
    fromStackHead (fuel + 1) (⟨cur, []⟩ : AStack E Nat) first nm accum max =
      kHead fuel first nm accum max (AStack.new, none, none, leaf cur.reverse none) := by
  conv => lhs; unfold fromStackHead
  simp only [assert, h1, h2, decide_true, if_true, nextArchive_last hcur]
  rfl
theorem fromStackHead_cons (fuel : Nat) {cur : List E} {anm : Option Name} {alev : Nat} {av : List E} {rest}
    {first : Nat} {nm : Option Name}
    {accum : Tree (TreeData E M)} {max : Nat} (h1 : levelOr0 accum < first) (h2 : first ≤ max) :
    fromStackHead (fuel + 1) (⟨cur, (anm, alev, av) :: rest⟩ : AStack E Nat) first nm accum max =
      (if alev ≤ first then fromStackHead fuel ⟨av, rest⟩ alev anm (leaf cur.reverse none) first
        else .ok (⟨av, rest⟩, some alev, anm, leaf cur.reverse none)) >>= kHead fuel first nm accum max := by
  conv => lhs; unfold fromStackHead
  simp only [assert, h1, h2, decide_true, if_true, nextArchive_cons]
  rfl

theorem fromStackHead_ok {ok : Nat → Prop} (hok : ∀ n, ok n → 1 ≤ n) : ∀ (fuel : Nat) (stack : AStack E Nat)
    (first : Nat) (nm : Option Name) (accum : Tree (TreeData E M)) (max : Nat),
    stack.archived.length + 1 ≤ fuel → stack.current ≠ [] → StackP ok stack → 1 ≤ first →
    levelOr0 accum < first → first ≤ max → WF accum → Canon accum →
    ∃ r, fromStackHead fuel stack first nm accum max = .ok r ∧
      HeadRes ok (stack.archived.length + 1) max (accum.items ++ .mark first nm :: stack.topDown) r := by
  intro fuel
  induction fuel with
  | zero => intro stack first nm accum max h; omega
  | succ fuel ih =>
    intro stack first nm accum max hfuel hcur hs hfirst hlev hmax hwf hcan
    obtain ⟨cur, arch⟩ := stack
    simp only at hcur hfuel
    have finish : ∀ (r0 : FromStackRes E M) (n0 : Nat), n0 ≤ fuel → n0 ≤ arch.length + 1 →
        HeadRes ok n0 first (AStack.topDown (⟨cur, arch⟩ : AStack E Nat)) r0 →
        ∃ r : FromStackRes E M, kHead fuel first nm accum max r0 = .ok r ∧
          HeadRes ok (arch.length + 1) max (accum.items ++ .mark first nm :: AStack.topDown (⟨cur, arch⟩ : AStack E Nat)) r := by
      intro r0 n0 hn0 hn1 h0
      obtain ⟨rs, rl, rn, rt⟩ := r0
      obtain ⟨w, c, lv, rest⟩ := h0
      simp only at w c lv rest
      obtain ⟨t, b1, b2, b3, b4, b5⟩ := bin_wf hwf w hfirst nm
      have b5 := b5 hlev lv hcan c
      simp only [kHead, b1, bind, Except.bind]
      cases rl with
      | none =>
        obtain ⟨e1, e2, e3⟩ := rest
        refine ⟨_, rfl, b2, b5, by simp only; omega, rfl, rfl, ?_⟩
        simp only
        rw [b4, e3]
      | some lev =>
        obtain ⟨e1, e2, e3, e4, e5, e6⟩ := rest
        simp only
        split
        · rename_i hlt
          obtain ⟨r, f1, f2⟩ := ih rs lev rn t max (by omega) e3 e4 (hok _ e2) (by omega) hlt b2 b5
          refine ⟨r, f1, f2.wf, f2.canon, f2.lev, ?_⟩
          have := f2.rest
          rw [b4] at this
          have e6' : (accum.items ++ Item.mark first nm :: rt.items) ++ Item.mark lev rn :: rs.topDown =
            accum.items ++ Item.mark first nm :: AStack.topDown (⟨cur, arch⟩ : AStack E Nat) := by
            rw [← e6]; simp
          rw [e6'] at this
          cases hr : r.2.1 with
          | none => rw [hr] at this; exact this
          | some l =>
            rw [hr] at this
            obtain ⟨g1, g2, g3, g4, g5, g6⟩ := this
            exact ⟨g1, g2, g3, g4, by omega, g6⟩
        · rename_i hlt
          refine ⟨_, rfl, b2, b5, by simp only; omega, by omega, e2, e3, e4, by simp only at e5 ⊢; omega, ?_⟩
          simp only
          rw [b4, ← e6]; simp
    rcases arch with _ | ⟨⟨anm, alev, av⟩, rest⟩
    · rw [fromStackHead_last fuel hcur hlev hmax]
      exact finish (AStack.new, none, none, leaf cur.reverse none) 0 (by omega) (by omega)
        ⟨WF.leaf cur.reverse, canon_leaf cur.reverse none, by simp [levelOr0, leaf, Tree.level?], rfl, rfl, by rw [topDown_mk cur]; simp [leaf]⟩
    · rw [fromStackHead_cons fuel hlev hmax]
      have ha := hs (anm, alev, av) (by simp)
      have hs' : StackP ok (⟨av, rest⟩ : AStack E Nat) := fun p hp => hs p (by simp at hp ⊢; exact .inr hp)
      simp only [List.length_cons] at hfuel
      have halev : 1 ≤ alev := hok _ ha.1
      split
      · rename_i hlt
        obtain ⟨r, f1, f2⟩ := ih ⟨av, rest⟩ alev anm (leaf cur.reverse none) first (by simp only; omega) ha.2 hs'
          (hok _ ha.1) (by simp only [levelOr0, leaf, Tree.level?, Option.getD]; omega) hlt (WF.leaf cur.reverse) (canon_leaf cur.reverse none)
        rw [f1]; simp only [bind, Except.bind]
        refine finish r (rest.length + 1) (by omega) (by simp) ?_
        have : (leaf cur.reverse none : Tree (TreeData E M)).items ++ Item.mark alev anm :: AStack.topDown (⟨av, rest⟩ : AStack E Nat) =
            AStack.topDown (⟨cur, (anm, alev, av) :: rest⟩ : AStack E Nat) := by
          rw [topDown_mk cur, topDown_arch]; simp [leaf]
        rw [this] at f2
        exact f2
      · rename_i hlt
        simp only [bind, Except.bind]
        refine finish (⟨av, rest⟩, some alev, anm, leaf cur.reverse none) (rest.length + 1) (by omega) (by simp) ?_
        refine ⟨WF.leaf cur.reverse, canon_leaf cur.reverse none, by simp [levelOr0, leaf, Tree.level?], by omega,
          ha.1, ha.2, hs', by simp, ?_⟩
        rw [topDown_mk cur, topDown_arch]; simp [leaf]

/-- `memo_from(AtHead)`: no panic, the stack top to bottom, heap ordered. -/
theorem memoFromHead_ok {s : AStack E Nat} (hs : StackP (fun n => 1 ≤ n ∧ n ≤ u32Max) s) :
    ∃ t : Tree (TreeData E M), memoFromHead s = .ok { info := metaOf 0 none t, tree := t } ∧ WFo t ∧ Canon t ∧
      t.items = s.topDown := by
  obtain ⟨cur, arch⟩ := s
  rcases arch with _ | ⟨⟨anm, alev, av⟩, rest⟩
  · by_cases hc : cur = []
    · subst hc
      refine ⟨.nil, ?_, .inl rfl, trivial, rfl⟩
      simp only [memoFromHead, nextArchive_nil]
      exact mkRazTree_wf (.inl rfl)
    · refine ⟨leaf cur.reverse none, ?_, .inr (WF.leaf cur.reverse), canon_leaf cur.reverse none, by rw [topDown_mk cur]; simp [leaf]⟩
      simp only [memoFromHead, nextArchive_last hc]
      exact mkRazTree_wf (.inr (WF.leaf cur.reverse))
  · have ha := hs (anm, alev, av) (by simp)
    have hs' : StackP (fun n => 1 ≤ n ∧ n ≤ u32Max) (⟨av, rest⟩ : AStack E Nat) := fun p hp => hs p (by simp at hp ⊢; exact .inr hp)
    obtain ⟨r, f1, f2⟩ := fromStackHead_ok (M := M) (fun n h => h.1) (rest.length + 1 + 1) ⟨av, rest⟩ alev anm
      (leaf cur.reverse none) u32Max (by simp) ha.2 hs' ha.1.1 (by have : 1 ≤ alev := ha.1.1; simp only [levelOr0, leaf, Tree.level?, Option.getD]; omega) ha.1.2
      (WF.leaf cur.reverse) (canon_leaf cur.reverse none)
    obtain ⟨rs, rl, rn, rt⟩ := r
    obtain ⟨w, c, lv, rest'⟩ := f2
    simp only at w c lv rest'
    cases rl with
    | some lev =>
      obtain ⟨g1, g2, -⟩ := rest'
      omega
    | none =>
      obtain ⟨rfl, rfl, hi⟩ := rest'
      refine ⟨rt, ?_, .inr w, c, ?_⟩
      · simp only [memoFromHead, nextArchive_cons, List.length_cons]
        have hname : AStack.name (⟨cur, (anm, alev, av) :: rest⟩ : AStack E Nat) = anm := rfl
        rw [hname, f1]
        simp only [bind, Except.bind, assert, Option.isNone_none, if_true]
        exact mkRazTree_wf (.inr w)
      · rw [hi, topDown_mk cur, topDown_arch]; simp [leaf]

end
end Iodyn
