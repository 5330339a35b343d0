import Verif.Proof.IncrCost
import Verif.Props.Heap
/-
C56 memoised folds after edits, C57 two functions in one namespace, C58 and C59 the work of folding again.
-/
namespace Iodyn.Incr
open Iodyn.Heap
variable {E M R C D X : Type}

/-! ### C56 -/

theorem safe_fine [RazMeta E M] {e : Engine} {cs : List (Cmd E (RazMeta.Index E M))} (h : Safe e cs) : Fine e ([] : Vars E M) cs := by
  rcases h with rfl | h | ⟨h, h'⟩
  · exact fine_naive cs
  · cases e
    · exact fine_naive cs
    · exact fine_noNames cs h
  · cases e
    · exact fine_naive cs
    · exact fine_goodNames cs h h'

/-- **C56.** A client edits sequences and folds them, in any order. Every fold is memoised and reuses the calls that earlier folds
have stored. If each namespace is used with one function then every answer, and a panic at the end, is that of folding from scratch. -/
theorem C56_memo_folds [RazMeta E M] [DecidableEq E] [DecidableEq M] [DecidableEq R] {e : Engine} {F : C → Fns (TreeData E M) R}
    {l : List (Ev E (RazMeta.Index E M) R C)} (hs : Safe e (Ev.stmts l)) {g : Name → C} (hg : ∀ ev ∈ l, ev.UsesNs g) :
    EvAnswers (M := M) e F l (evAnswers (M := M) F l) :=
  evAnswers_of_fine l hg (safe_fine hs)

/-- A client has one result. -/
theorem evAnswers_unique [RazMeta E M] [DecidableEq E] [DecidableEq M] [DecidableEq R] {e : Engine} {F : C → Fns (TreeData E M) R}
    {l : List (Ev E (RazMeta.Index E M) R C)} {r r' : P (List (Ans E R))} (h : EvAnswers (M := M) e F l r)
    (h' : EvAnswers (M := M) e F l r') : r = r' := by
  obtain ⟨f, hf⟩ := h
  obtain ⟨g, hg⟩ := h'
  rw [← hf (max f g) (Nat.le_max_left _ _), hg (max f g) (Nat.le_max_right _ _)]

/-- **C56, the folds of src/raz.rs** are the tree folds with these functions. -/
theorem C56_raz_folds [RazMeta E M] (t : RazTree E M) (init : E → R) (bin : R → R → R) (binnl : R → Nat → Option Name → R → R)
    (ini : List E → P R) (big : R → Nat → Option Name → R → P R) (st : R → E → R) (mt : R → Nat × Option Name → R)
    (fin : R → Option Name → R) (mt' : R → Nat → R) (a : R) :
    t.tree.foldUpMeta (upNode init bin) = t.foldUp init bin ∧
    t.tree.foldUpMeta (nlNode init bin binnl) = t.foldUpNl init bin binnl ∧
    t.tree.foldUpMeta (gaugedNode ini big) = t.foldUpGauged ini big ∧
    t.tree.foldLrMeta (lrNode st mt) startName a = t.foldLrMeta a st mt ∧
    t.tree.foldLrMeta (archiveNode st fin mt') startName a = t.foldLrArchive a st fin mt' :=
  ⟨rfl, rfl, rfl, rfl, rfl⟩

/-- What a client passes to `fold_up` and `fold_lr`. -/
structure Fun (E R : Type) where
  init : E → R
  bin : R → R → R
  step : R → E → R

/-- The closures made from it. -/
def Fun.fns (c : Fun E R) : Fns (TreeData E M) R := ⟨upNode c.init c.bin, lrNode c.step (fun a _ => a)⟩

/-- An event with plain lists. -/
inductive LEv {I : Type} : LVars E → Ev E I R (Fun E R) → Ans E R → LVars E → Prop
  | stmt {vs vs' c o} : LVStep vs c o vs' → LEv vs (.stmt c) (.out o) vs'
  | up {vs p c i l} : vs.IsTree i l → LEv vs (.up p c i) (.up (fold1 c.bin (l.map c.init))) vs
  | lr {vs p c i l a} : vs.IsTree i l → LEv vs (.lr p c i a) (.lr (l.foldl c.step a)) vs
  | badUp {vs p c i} : (∀ l, ¬ vs.IsTree i l) → LEv vs (.up p c i) .bad vs
  | badLr {vs p c i a} : (∀ l, ¬ vs.IsTree i l) → LEv vs (.lr p c i a) .bad vs

/-- Events with plain lists. -/
inductive LEvs {I : Type} : LVars E → List (Ev E I R (Fun E R)) → List (Ans E R) → LVars E → Prop
  | nil (vs) : LEvs vs [] [] vs
  | cons {vs vs' vs'' ev l a as} : LEv vs ev a vs' → LEvs vs' l as vs'' → LEvs vs (ev :: l) (a :: as) vs''

/-- The function may be used by this event: `fold_up` needs an associative one. -/
def evOK {I : Type} : Ev E I R (Fun E R) → Prop
  | .stmt c => c.LevelOK
  | .up _ c _ => ∀ x y z, c.bin (c.bin x y) z = c.bin x (c.bin y z)
  | .lr .. => True

theorem lists_ev [RazMeta E M] [LawfulMeta E M] {vs vs' : Vars E M} {ev : Ev E (RazMeta.Index E M) R (Fun E R)} {a : Ans E R} (h : AllReach vs)
    (hl : evOK ev) (hs : vs.ev Fun.fns ev = .ok (vs', a)) : LEv (readVars vs) ev a (readVars vs') ∧ AllReach vs' := by
  cases ev with
  | stmt c =>
    obtain ⟨⟨vs1, o⟩, h1, h2⟩ := bind_ok.1 hs
    cases h2
    obtain ⟨k1, k2⟩ := lists_step h hl h1
    exact ⟨.stmt k1, k2⟩
  | up p c i =>
    simp only [Vars.ev] at hs
    split at hs
    · next t ht =>
      obtain ⟨x, h1, h2⟩ := bind_ok.1 hs
      cases h2
      have h3 : t.foldUp c.init c.bin = .ok x := h1
      rw [C10_fold_up_edited_partial (h i _ ht) c.init c.bin hl] at h3
      cases h3
      exact ⟨.up (isTree_iff.2 ⟨t, ht, rfl⟩), h⟩
    · next hn =>
      cases hs
      exact ⟨.badUp fun l hc => by obtain ⟨t, ht, -⟩ := isTree_iff.1 hc; exact hn t ht, h⟩
  | lr p c i a0 =>
    simp only [Vars.ev] at hs
    split at hs
    · next t ht =>
      cases hs
      have h3 : t.tree.foldLrMeta (Fun.fns (M := M) c).lr startName a0 = t.elems.foldl c.step a0 :=
        C12_fold_lr (Reach.any (h i _ ht)) a0 c.step
      rw [h3]
      exact ⟨.lr (isTree_iff.2 ⟨t, ht, rfl⟩), h⟩
    · next hn =>
      cases hs
      exact ⟨.badLr fun l hc => by obtain ⟨t, ht, -⟩ := isTree_iff.1 hc; exact hn t ht, h⟩

theorem lists_evs [RazMeta E M] [LawfulMeta E M] (l : List (Ev E (RazMeta.Index E M) R (Fun E R))) : ∀ {vs vs' : Vars E M} {as : List (Ans E R)},
    AllReach vs → (∀ ev ∈ l, evOK ev) → vs.evs Fun.fns l = .ok (vs', as) → LEvs (readVars vs) l as (readVars vs') := by
  induction l with
  | nil =>
    intro vs vs' as h _ hr
    cases hr
    exact .nil _
  | cons ev l ih =>
    intro vs vs' as h hl hr
    obtain ⟨⟨s1, a⟩, h1, hr⟩ := bind_ok.1 hr
    obtain ⟨⟨s2, as⟩, h2, hr⟩ := bind_ok.1 hr
    cases hr
    obtain ⟨k1, k2⟩ := lists_ev h (hl ev List.mem_cons_self) h1
    exact .cons k1 (ih k2 (fun ev h => hl ev (List.mem_cons_of_mem _ h)) h2)

/-- **C56, on plain lists.** With `fold_up` and `fold_lr` the answers are those of editing and folding plain lists. -/
theorem C56_lists [RazMeta E M] [LawfulMeta E M] [DecidableEq E] [DecidableEq M] [DecidableEq R] {e : Engine}
    {l : List (Ev E (RazMeta.Index E M) R (Fun E R))} (hs : Safe e (Ev.stmts l)) {g : Name → Fun E R} (hg : ∀ ev ∈ l, ev.UsesNs g)
    (hl : ∀ ev ∈ l, evOK ev) {as : List (Ans E R)} (ha : EvAnswers (M := M) e Fun.fns l (.ok as)) : ∃ vs, LEvs [] l as vs := by
  have := evAnswers_unique ha (C56_memo_folds hs hg)
  unfold evAnswers at this
  cases hr : Vars.evs (M := M) Fun.fns [] l with
  | error p => rw [hr] at this; cases this
  | ok x =>
    obtain ⟨vs, as'⟩ := x
    rw [hr] at this
    cases this
    exact ⟨readVars vs, lists_evs l (vs := []) (fun i s hi => by simp at hi) hl hr⟩

/-- Sum. -/
def sumF : Fun Nat Nat := ⟨id, (· + ·), (· + ·)⟩
/-- Maximum, and the last element. -/
def maxF : Fun Nat Nat := ⟨id, max, fun _ x => x⟩

/-- A client that folds, edits and folds again, with two functions in two namespaces. -/
def exEvents : List (Ev Nat (RazMeta.Index Nat Count) Nat (Fun Nat Nat)) :=
  [.stmt .new, .stmt (.op 0 (.pushL 1)), .stmt (.op 0 (.pushL 2)), .stmt (.op 0 (.archL 3 (some (.usize 1)))), .stmt (.op 0 (.pushL 5)),
    .stmt (.op 0 (.archL 1 (some (.usize 2)))), .stmt (.op 0 (.pushL 1)), .stmt (.op 0 .unfocus),
    .up (.str "s") sumF 0, .up (.str "m") maxF 0, .lr (.str "s") sumF 0 10,
    .stmt (.op 0 .focusLeft), .stmt (.op 0 (.pushR 7)), .stmt (.op 0 .unfocus),
    .up (.str "s") sumF 0, .up (.str "m") maxF 0, .lr (.str "s") sumF 0 10, .lr (.str "m") maxF 0 0, .up (.str "s") sumF 1]

example : Safe .dcg (Ev.stmts exEvents) ∧ (∀ ev ∈ exEvents, ev.UsesNs (fun p => if p = .str "s" then sumF else maxF)) ∧
    (∀ ev ∈ exEvents, evOK ev) ∧ ∃ as, EvAnswers (M := Count) .dcg Fun.fns exEvents (.ok as) ∧
      as.drop 8 = [.up (some 9), .up (some 5), .lr 19, .out .unit, .out (.count 3), .out .unit,
        .up (some 16), .up (some 7), .lr 26, .lr 1, .bad] := by
  have h1 : Safe .dcg (Ev.stmts exEvents) := by
    refine .inr (.inr ⟨⟨?_, ?_⟩, ?_⟩)
    · simp [exEvents, Ev.stmts, Cmd.names]
    · simp [exEvents, Ev.stmts, Cmd.names]
    · intro c; revert c; simp [exEvents, Ev.stmts, Cmd.isClone]
  have h2 : ∀ ev ∈ exEvents, ev.UsesNs (fun p => if p = .str "s" then sumF else maxF) := by simp [exEvents, Ev.UsesNs]
  have h3 : ∀ ev ∈ exEvents, evOK ev := by
    simp [exEvents, evOK, Cmd.LevelOK, ApiOp.LevelOK, sumF, maxF, Nat.add_assoc, Nat.max_assoc]
  have he : evAnswers (M := Count) Fun.fns exEvents = .ok (((evAnswers (M := Count) Fun.fns exEvents).toOption).getD []) := by
    decide +kernel
  exact ⟨h1, h2, h3, _, he ▸ C56_memo_folds h1 h2, by decide +kernel⟩

/-! ### C57 -/

/-- A client that uses two functions in one namespace. -/
def exMixed : List (Ev Nat (RazMeta.Index Nat Count) Nat (Fun Nat Nat)) :=
  [.stmt .new, .stmt (.op 0 (.pushL 1)), .stmt (.op 0 (.pushL 2)), .stmt (.op 0 (.archL 3 (some (.usize 1)))), .stmt (.op 0 (.pushL 1)),
    .stmt (.op 0 .unfocus), .up .unit sumF 0, .up .unit maxF 0]

/-- **C57, false in general.** The stored calls do not know the function: the maximum of 1, 2, 1 after their sum, in the same
namespace, is the maximum 3 of the stored sums. -/
theorem C57_two_functions : Safe .dcg (Ev.stmts exMixed) ∧
    (∃ as, EvAnswers (M := Count) .dcg Fun.fns exMixed (.ok as) ∧ as.getLast? = some (.up (some 3))) ∧
    (∃ as, evAnswers (M := Count) Fun.fns exMixed = .ok as ∧ as.getLast? = some (.up (some 2))) := by
  refine ⟨.inr (.inr ⟨⟨?_, ?_⟩, ?_⟩), ?_, ?_⟩
  · simp [exMixed, Ev.stmts, Cmd.names]
  · simp [exMixed, Ev.stmts, Cmd.names]
  · intro c; revert c; simp [exMixed, Ev.stmts, Cmd.isClone]
  · refine ⟨[.out .unit, .out (.count 1), .out (.count 2), .out .unit, .out (.count 1), .out .unit, .up (some 4), .up (some 3)], ⟨100, fun f hf => ?_⟩, rfl⟩
    obtain ⟨k, rfl⟩ := Nat.exists_eq_add_of_le hf
    rw [Nat.add_comm]
    rfl
  · exact ⟨((evAnswers (M := Count) Fun.fns exMixed).toOption).getD [], by decide +kernel, by decide +kernel⟩

/-- **C57, partial.** Functions that give the same results may share a namespace. Missing: different functions in one namespace, for
which it is false (`C57_two_functions`). -/
theorem C57_same_results_partial [RazMeta E M] [DecidableEq E] [DecidableEq M] [DecidableEq R] {e : Engine} {F : C → Fns (TreeData E M) R}
    {l : List (Ev E (RazMeta.Index E M) R C)} (hs : Safe e (Ev.stmts l)) {g : Name → Fns (TreeData E M) R}
    (hg : ∀ ev ∈ l, ∀ p c i, (ev = .up p c i → F c = g p) ∧ ∀ a, ev = .lr p c i a → F c = g p) :
    EvAnswers (M := M) e F l (evAnswers (M := M) F l) := by
  let ch : Ev E (RazMeta.Index E M) R C → Ev E (RazMeta.Index E M) R (Fns (TreeData E M) R) := fun ev =>
    match ev with
    | .stmt c => .stmt c
    | .up p c i => .up p (F c) i
    | .lr p c i a => .lr p (F c) i a
  have e1 : ∀ l : List (Ev E (RazMeta.Index E M) R C), Ev.stmts (l.map ch) = Ev.stmts l := by
    intro l
    induction l with
    | nil => rfl
    | cons ev l ih => cases ev <;> simp only [List.map_cons, ch, Ev.stmts, ih]
  have e2 : ∀ (l : List (Ev E (RazMeta.Index E M) R C)) (vs : Vars E M), vs.evs id (l.map ch) = vs.evs F l := by
    intro l
    induction l with
    | nil => intro vs; rfl
    | cons ev l ih =>
      intro vs
      have h1 : vs.ev id (ch ev) = vs.ev F ev := by cases ev <;> rfl
      simp only [List.map_cons, Vars.evs, h1, ih]
  have e3 : ∀ (l : List (Ev E (RazMeta.Index E M) R C)) (vs : HVars E M) (T : RTable E M R),
      HVars.evs e id vs T (l.map ch) = HVars.evs e F vs T l := by
    intro l
    induction l with
    | nil => intro vs T; rfl
    | cons ev l ih =>
      intro vs T
      have h1 : HVars.ev e id vs T (ch ev) = HVars.ev e F vs T ev := by cases ev <;> rfl
      simp only [List.map_cons, HVars.evs, h1, ih]
  have key := C56_memo_folds (M := M) (e := e) (F := id) (l := l.map ch) (by rw [e1]; exact hs) (g := g) (by
    intro ev hev
    obtain ⟨ev', hm, rfl⟩ := List.mem_map.1 hev
    cases ev' with
    | stmt c => trivial
    | up p c i => exact (hg _ hm p c i).1 rfl
    | lr p c i a => exact (hg _ hm p c i).2 a rfl)
  unfold EvAnswers evAnswers at key ⊢
  rw [e2] at key
  obtain ⟨f0, hf⟩ := key
  exact ⟨f0, fun f h => by rw [← e3]; exact hf f h⟩

/-! ### C58 -/

section
variable [DecidableEq D] [DecidableEq X] [DecidableEq R]

/-- **C58.** The first fold in a namespace runs the function at every node once. After that, whatever happened to the store and to the
handle, folding again gives the right result and runs the function only at the nodes that are not below an unchanged branch: one
that was in the old tree below a node of the same name on the same side. Both trees have their names once. In between other folds
may run in other namespaces. -/
theorem C58_update {F : Name → Fns D R} {T : Table (Cell D X) (Key R) R} {p : Name}
    (hp : ∀ m, T p m = none) {σ : Mem D X} {h : Tr} {v : Tree (Tr × D)} (hv : View σ (some h) v) (hn : (nodeNames v).Nodup) {x : R}
    (hx : (plain v).foldUpMeta (F p).up = .ok (some x)) :
    ∃ o, (∀ n, v.size ≤ n → mrun (foldBody (F p)) p σ n (.up h) T = some (.ok o)) ∧ o.val = x ∧ o.work = v.size ∧
      ∀ (T' : Table (Cell D X) (Key R) R), Made (fun p => foldBody (F p)) T' → T' p = o.table p →
      ∀ (σ' : Mem D X) (h' : Tr) (v' : Tree (Tr × D)) (x' : R), View σ' (some h') v' → (nodeNames v').Nodup →
        (plain v').foldUpMeta (F p).up = .ok (some x') →
        ∃ o', (∀ n, v'.size ≤ n → mrun (foldBody (F p)) p σ' n (.up h') T' = some (.ok o')) ∧ o'.val = x' ∧
          o'.work ≤ cost (points v) v' := by
  obtain ⟨c, hc, hcr⟩ := ctUp_exists (X := X) hx
  obtain ⟨w1, i1, s1⟩ := ctUp_wf hv hc
  have nd := memos_nodup hn
  rw [← ctUp_memos hc] at nd
  obtain ⟨loc, cell, nl, nr, cl, cr, he⟩ : ∃ loc cell nl nr cl cr, c = .node (.up h) loc cell nl nr x cl cr := by
    cases hv with
    | node =>
      obtain ⟨cl, cr, y, -, -, -, rfl⟩ := ctUp_node hc
      simp only [CT.res?, Option.some.injEq] at hcr
      subst hcr
      exact ⟨_, _, _, _, _, _, rfl⟩
  obtain ⟨rd, T1, h1, h2, h3⟩ := first_run (p := p) w1 i1 nd c.size T (Nat.le_refl _) (fun m _ => hp m) _ _ _ _ _ _ _ _ he
  refine ⟨⟨x, rd, T1, c.size⟩, fun n hn => mrun_mono (s1 ▸ hn) h1, rfl, s1, ?_⟩
  intro T' hT' hT1 σ' h' v' x' hv' hn' hx'
  obtain ⟨c', hc', hcr'⟩ := ctUp_exists (X := X) hx'
  obtain ⟨w1', i1', s1'⟩ := ctUp_wf hv' hc'
  have nd' := memos_nodup hn'
  rw [← ctUp_memos hc'] at nd'
  obtain ⟨loc', cell', nl', nr', cl', cr', he'⟩ : ∃ loc cell nl nr cl cr, c' = .node (.up h') loc cell nl nr x' cl cr := by
    cases hv' with
    | node =>
      obtain ⟨cl, cr, y, -, -, -, rfl⟩ := ctUp_node hc'
      simp only [CT.res?, Option.some.injEq] at hcr'
      subst hcr'
      exact ⟨_, _, _, _, _, _, rfl⟩
  classical
  let oldc : Name → CT (Cell D X) (Key R) R → Bool := fun m w => decide ((m, w) ∈ c.points)
  obtain ⟨rd', T2, w, k1, k2, -⟩ := later_run (body := fun p => foldBody (F p)) (p := p) (old := oldc) w1' i1' nd' c'.size T'
    (Nat.le_refl _) hT'.valid (fun m _ w hw => by
      have h4 := h3 (m, w) (by simpa [oldc] using hw)
      unfold Has at h4 ⊢
      rw [hT1]; exact h4) _ _ _ _ _ _ _ _ he'
  refine ⟨⟨x', rd', T2, w⟩, fun n hn => mrun_mono (s1' ▸ hn) k1, rfl, Nat.le_trans k2 (ctUp_cost (old := points v) ?_ hc')⟩
  intro m w cw hm hw
  have h5 := ctUp_points hc
  have h6 : (m, some cw) ∈ (points v).map (fun q => (q.1, (ctUp (F p) q.2 : Option (CT (Cell D X) (Key R) R)))) :=
    List.mem_map.2 ⟨(m, w), hm, by simp only [hw]⟩
  rw [← h5] at h6
  obtain ⟨q, hq, hq'⟩ := List.mem_map.1 h6
  simp only [Prod.mk.injEq, Option.some.injEq] at hq'
  obtain ⟨q1, q2⟩ := q
  simp only at hq'
  obtain ⟨rfl, rfl⟩ := hq'
  simpa [oldc] using hq

omit [DecidableEq X] [DecidableEq R] in
/-- **C58, one place.** If one subtree was replaced, below named nodes, then these nodes and those of the new subtree are all that is
run. -/
theorem C58_one_place {v w : Tree (Tr × D)} {k : Nat} (h : Near v w k) : cost (points v) w ≤ k :=
  near_cost h _ (fun _ h => h)

omit [DecidableEq X] [DecidableEq R] in
/-- **C58, no change.** If nothing was changed and the root has a name then only the root is run. -/
theorem C58_unchanged {lv : Nat} {n : Name} {d : Tr × D} {l r : Tree (Tr × D)} :
    cost (points (.node lv (some n) d l r)) (.node lv (some n) d l r) = 1 := by
  have h1 : ∀ (f : Name → Name) (c : Tree (Tr × D)), (∀ q ∈ point (some (f n)) c, q ∈ points (.node lv (some n) d l r)) →
      (if (point (some (f n)) c).any (· ∈ points (.node lv (some n) d l r)) then 0 else cost (points (.node lv (some n) d l r)) c) = 0 := by
    intro f c h
    cases c with
    | nil => simp [point, cost]
    | node => rw [if_pos]; simpa [point] using h
  rw [cost]
  simp only [Option.map_some]
  rw [h1 .forkL l (fun q hq => by simp only [points, Option.map_some, List.mem_append]; exact .inl (.inl (.inl hq))),
    h1 .forkR r (fun q hq => by simp only [points, Option.map_some, List.mem_append]; exact .inl (.inl (.inr hq)))]

/-! ### C59 -/

/-- **C59.** The same for the left fold, where a branch is unchanged only if the value and the name that reach it are too. -/
theorem C59_update_lr {F : Name → Fns D R} {T : Table (Cell D X) (Key R) R} {p : Name}
    (hp : ∀ m, T p m = none) {σ : Mem D X} {h : Tr} {v : Tree (Tr × D)} (hv : View σ (some h) v) (hn : (nodeNames v).Nodup)
    (start : Option Name) (a : R) :
    ∃ o, (∀ n, v.size ≤ n → mrun (foldBody (F p)) p σ n (.lr h start a) T = some (.ok o)) ∧
      o.val = (plain v).foldLrMeta (F p).lr start a ∧ o.work = v.size ∧
      ∀ (T' : Table (Cell D X) (Key R) R), Made (fun p => foldBody (F p)) T' → T' p = o.table p →
      ∀ (σ' : Mem D X) (h' : Tr) (v' : Tree (Tr × D)) (start' : Option Name) (a' : R), View σ' (some h') v' → (nodeNames v').Nodup →
        ∃ o', (∀ n, v'.size ≤ n → mrun (foldBody (F p)) p σ' n (.lr h' start' a') T' = some (.ok o')) ∧
          o'.val = (plain v').foldLrMeta (F p).lr start' a' ∧
          o'.work ≤ costLr (F p).lr (pointsLr (F p).lr start a v) start' a' v' := by
  have shape : ∀ {σ : Mem D X} {h : Tr} {v : Tree (Tr × D)} (start : Option Name) (a : R), View σ (some h) v →
      ∃ loc cell nl nr cl cr, (ctLr (F p) start a v : CT (Cell D X) (Key R) R) =
        .node (.lr h start a) loc cell nl nr ((plain v).foldLrMeta (F p).lr start a) cl cr := by
    intro σ h v start a hv
    cases hv with
    | @node _ d _ _ l r =>
      obtain ⟨loc, cell, nl, nr, res, cl, cr, he⟩ := ctLr_key (F := F p) (X := X) (h := h) (d := d) (lv := h.level) (n := h.name)
        (l := l) (r := r) (start := start) (a := a)
      have := ctLr_res (F := F p) (X := X) (.node h.level h.name (h, d) l r) start a
      rw [he] at this
      simp only [CT.resOr] at this
      subst this
      exact ⟨_, _, _, _, _, _, he⟩
  obtain ⟨w1, i1, s1⟩ := ctLr_wf (F := F p) start a hv
  have nd := memos_nodup hn
  rw [← ctLr_memos (F := F p) (X := X) v start a] at nd
  obtain ⟨loc, cell, nl, nr, cl, cr, he⟩ := shape start a hv
  obtain ⟨rd, T1, h1, h2, h3⟩ := first_run (p := p) w1 i1 nd _ T (Nat.le_refl _) (fun m _ => hp m) _ _ _ _ _ _ _ _ he
  refine ⟨⟨_, rd, T1, _⟩, fun n hn => mrun_mono (s1 ▸ hn) h1, rfl, s1, ?_⟩
  intro T' hT' hT1 σ' h' v' start' a' hv' hn'
  obtain ⟨w1', i1', s1'⟩ := ctLr_wf (F := F p) start' a' hv'
  have nd' := memos_nodup hn'
  rw [← ctLr_memos (F := F p) (X := X) v' start' a'] at nd'
  obtain ⟨loc', cell', nl', nr', cl', cr', he'⟩ := shape start' a' hv'
  classical
  let oldc : Name → CT (Cell D X) (Key R) R → Bool := fun m w => decide ((m, w) ∈ (ctLr (F p) start a v).points)
  obtain ⟨rd', T2, w, k1, k2, -⟩ := later_run (body := fun p => foldBody (F p)) (p := p) (old := oldc) w1' i1' nd' _ T'
    (Nat.le_refl _) hT'.valid (fun m _ w hw => by
      have h4 := h3 (m, w) (by simpa [oldc] using hw)
      unfold Has at h4 ⊢
      rw [hT1]; exact h4) _ _ _ _ _ _ _ _ he'
  refine ⟨⟨_, rd', T2, w⟩, fun n hn => mrun_mono (s1' ▸ hn) k1, rfl, Nat.le_trans k2 (ctLr_cost ?_ v' start' a')⟩
  intro m s b w hm
  have h5 := ctLr_points (F := F p) (X := X) v start a
  simp only [oldc, decide_eq_true_eq]
  rw [h5]
  exact List.mem_map.2 ⟨(m, s, b, w), hm, rfl⟩

omit [DecidableEq X] in
/-- **C59, one place.** If one subtree was replaced then what is to the left of it is not run again. -/
theorem C59_one_place {f : R → D → Nat → Option Name → R} {v w : Tree (Tr × D)} {k : Nat} (h : NearLr f v w k) (start : Option Name)
    (a : R) : costLr f (pointsLr f start a v) start a w ≤ k :=
  nearLr_cost h _ start a (fun _ h => h)
end

/-- **C58, C59, the trees of clients.** After a program that uses each name once and makes no clones, the handle of every tree shows
the tree of the functional semantics, with its names once. -/
theorem C58_reachable [RazMeta E M] {cs : List (Cmd E (RazMeta.Index E M))} (hg : GoodNames cs) (hc : NoClones cs) {vs : Vars E M}
    {os : List (Out E)} (hr : Vars.run [] cs = .ok (vs, os)) :
    ∃ hvs σ, (∃ f0, ∀ f, f0 ≤ f → HVars.run (M := M) .dcg [] cs f Store.empty = .ok ((hvs, os), σ)) ∧
      ∀ (i : Nat) (t : RazTree E M), vs[i]? = some (some (.tree t)) → ∃ mt h v, hvs[i]? = some (some (.tree ⟨mt, h⟩)) ∧
        View σ h v ∧ plain v = t.tree ∧ (nodeNames v).Nodup := by
  have key : ∀ (cs : List (Cmd E (RazMeta.Index E M))) {σ : RMem E M} {hvs : HVars E M} {vs : Vars E M}, RepV .dcg σ hvs vs →
      NoClones cs → (vN .dcg vs ++ cs.flatMap (cmdN .dcg)).Nodup → Sim (HVars.run .dcg hvs cs) σ (vs.run cs) (fun b a σ' =>
        RepV .dcg σ' a.1 b.1 ∧ a.2 = b.2 ∧ (vN .dcg b.1).Nodup) := by
    intro cs
    induction cs with
    | nil => intro σ hvs vs h _ hn; exact Sim.pure ⟨h, rfl, by simpa using hn⟩
    | cons c cs ih =>
      intro σ hvs vs h hcl hn
      have hf : Fine .dcg vs (c :: cs) := .inr ⟨hcl, hn⟩
      unfold HVars.run Vars.run
      refine (vars_step_sim h c hf.head).bind ?_
      rintro ⟨vs', o⟩ ⟨hvs', o'⟩ σ' - ⟨k1, k2, k3⟩
      simp only at k1 k2 k3; subst k2
      have hn' : (vN .dcg vs' ++ cs.flatMap (cmdN .dcg)).Nodup := by
        refine count_nodup fun x => ?_
        rw [hcl c List.mem_cons_self] at k3
        have := k3 x
        have := nodup_count hn x
        simp only [List.flatMap_cons, List.count_append, Bool.false_eq_true, if_false, List.count_nil] at *; omega
      refine (ih k1 (fun x hx => hcl x (List.mem_cons_of_mem _ hx)) hn').bind ?_
      rintro ⟨vs'', os⟩ ⟨hvs'', os'⟩ σ'' - ⟨q1, q2, q3⟩
      simp only at q1 q2 q3; subst q2
      exact Sim.pure ⟨q1, rfl, q3⟩
  have hn : (cs.flatMap (cmdN .dcg)).Nodup := by
    rcases fine_goodNames (M := M) cs hg hc with ⟨-, h⟩ | ⟨-, h⟩
    · rw [h]; exact List.nodup_nil
    · simpa [vN] using h
  have h1 := key cs (σ := Store.empty) (hvs := []) (vs := []) ⟨rfl, fun i h1 _ => by simp at h1⟩ hc (by simpa [vN] using hn)
  unfold Sim at h1
  rw [hr] at h1
  obtain ⟨⟨hvs, os'⟩, σ, h2, h3, h4, h5⟩ := h1
  simp only at h3 h4 h5
  subst h4
  refine ⟨hvs, σ, h2, fun i t ht => ?_⟩
  rcases h3.lookup i with ⟨-, k⟩ | ⟨-, k⟩ | ⟨hs, s, k1, k2, k3, hi, k4⟩
  · rw [k] at ht; cases ht
  · rw [k] at ht; cases ht
  · rw [k2] at ht
    simp only [Option.some.injEq] at ht
    subst ht
    cases hs with
    | cursor z => exact k3.elim
    | tree ht =>
      obtain ⟨v, a1, a2, a3⟩ := view_exists (RepRT.tree k3)
      refine ⟨ht.info, ht.tree, v, k1, a1, a2, ?_⟩
      rw [a3]
      refine count_nodup fun x => ?_
      rw [names_count]
      have q1 := vN_get (e := .dcg) vs i hi x
      rw [k4] at q1
      exact Nat.le_trans q1 (nodup_count h5 x)

theorem plain_size : ∀ v : Tree (Tr × D), (plain v).size = v.size := by
  intro v
  induction v with
  | nil => rfl
  | node lv n d l r ihl ihr => simp only [plain, Tree.size, ihl, ihr]

theorem work_pos {V K : Type} [DecidableEq V] [DecidableEq K] {body : K → Prog V K R R} {p : Name} {σ : Store V} {n : Nat} {key : K}
    {T : Table V K R} {o : MOut V K R R} (h : mrun body p σ n key T = some (.ok o)) : 1 ≤ o.work := by
  cases n with
  | zero => cases h
  | succ n =>
    unfold mrun at h
    cases h1 : mexec (mrun body p σ n) p σ (body key) T with
    | none => simp only [h1] at h; cases h
    | some y =>
      simp only [h1] at h
      cases y with
      | error q => cases h
      | ok o1 => cases h; exact Nat.le_add_left 1 _

/-- **C58, clients.** After a program that uses each name once and makes no clones, the first fold over a tree runs the function at each
of its nodes, and a second one runs it once if the top of the tree has a name. -/
theorem C58_client [RazMeta E M] [DecidableEq E] [DecidableEq M] [DecidableEq R] {cs : List (Cmd E (RazMeta.Index E M))}
    (hg : GoodNames cs) (hc : NoClones cs) {vs : Vars E M} {os : List (Out E)} (hr : Vars.run [] cs = .ok (vs, os)) {i : Nat}
    {t : RazTree E M} (ht : vs[i]? = some (some (.tree t))) {F : Fns (TreeData E M) R} {x : R}
    (hx : t.tree.foldUpMeta F.up = .ok (some x)) (p : Name) :
    ∃ hvs σ mt h, (∃ f0, ∀ f, f0 ≤ f → HVars.run (M := M) .dcg [] cs f Store.empty = .ok ((hvs, os), σ)) ∧
      hvs[i]? = some (some (.tree ⟨mt, some h⟩)) ∧
      ∃ o, (∀ n, t.tree.size ≤ n → mrun (foldBody F) p σ n (.up h) Table.empty = some (.ok o)) ∧ o.val = x ∧ o.work = t.tree.size ∧
        ((∃ lv m d l r, t.tree = .node lv (some m) d l r) →
          ∃ o', (∀ n, t.tree.size ≤ n → mrun (foldBody F) p σ n (.up h) o.table = some (.ok o')) ∧ o'.val = x ∧ o'.work = 1) := by
  obtain ⟨hvs, σ, h1, h2⟩ := C58_reachable hg hc hr
  obtain ⟨mt, h, v, k1, k2, k3, k4⟩ := h2 i t ht
  rw [← k3] at hx
  cases h with
  | none => cases k2; cases hx
  | some h =>
    obtain ⟨o, a1, a2, a3, a4⟩ := C58_update (F := fun _ => F) (T := Table.empty) (p := p) (fun _ => rfl) k2 k4 hx
    refine ⟨hvs, σ, mt, h, h1, k1, o, ?_, a2, ?_, ?_⟩
    · rw [← k3, plain_size]; exact a1
    · rw [← k3, plain_size]; exact a3
    · rintro ⟨lv, m, d, l, r, hnode⟩
      obtain ⟨o', b1, b2, b3⟩ := a4 o.table (.run (p := p) .empty (a1 _ (Nat.le_refl _))) rfl σ h v x k2 k4 hx
      have hcost : cost (points v) v = 1 := by
        cases v with
        | nil => rw [← k3] at hnode; cases hnode
        | node lv' n' d' l' r' =>
          have : n' = some m := by
            rw [← k3] at hnode
            obtain ⟨hh, dd⟩ := d'
            simp only [plain, Tree.node.injEq] at hnode
            exact hnode.2.1
          subst this
          exact C58_unchanged
      refine ⟨o', by rw [← k3, plain_size]; exact b1, b2, Nat.le_antisymm (hcost ▸ b3) (work_pos (b1 _ (Nat.le_refl _)))⟩

/-- A program with an edit; the names are used once. -/
def exBuild : List (Cmd Nat (RazMeta.Index Nat Count)) :=
  [.new, .op 0 (.pushL 1), .op 0 (.archL 2 (some (.usize 1))), .op 0 (.pushL 2), .op 0 (.archL 5 (some (.usize 2))), .op 0 (.pushL 3),
    .op 0 (.archL 3 (some (.usize 3))), .op 0 (.pushL 4), .op 0 (.archL 1 (some (.usize 4))), .op 0 (.pushL 5), .op 0 .unfocus]

/-- The edit. -/
def exEdit : List (Cmd Nat (RazMeta.Index Nat Count)) := [.op 0 .focusLeft, .op 0 (.pushR 7), .op 0 .unfocus]

example : GoodNames (exBuild ++ exEdit) ∧ NoClones (exBuild ++ exEdit) ∧ (∃ r, Vars.run (M := Count) [] (exBuild ++ exEdit) = .ok r) ∧
    GoodNames exBuild ∧ NoClones exBuild := by
  refine ⟨⟨?_, ?_⟩, ?_, ?_,
    ⟨?_, ?_⟩, ?_⟩
  · simp [exBuild, exEdit, Cmd.names]
  · simp [exBuild, exEdit, Cmd.names]
  · intro c; revert c; simp [exBuild, exEdit, Cmd.isClone]
  · have : (Vars.run (M := Count) [] (exBuild ++ exEdit)).toBool = true := by decide +kernel
    cases h : Vars.run (M := Count) [] (exBuild ++ exEdit) with
    | error p => rw [h] at this; cases this
    | ok r => exact ⟨r, rfl⟩
  · simp [exBuild, Cmd.names]
  · simp [exBuild, Cmd.names]
  · intro c; revert c; simp [exBuild, Cmd.isClone]

/-- The root of the first variable. -/
def root0 (vs : HVars E M) : Option Tr :=
  match vs with
  | some (.tree ⟨_, h⟩) :: _ => h
  | _ => none

/-- The work of a fold over the first variable after a program, then after an edit, and after no edit. -/
def works (F : Fns (TreeData Nat Count) Nat) (k : Tr → Key Nat) (a b : List (Cmd Nat (RazMeta.Index Nat Count))) : Option (List Nat) := do
  let ((vs, _), σ) ← (HVars.run (M := Count) .dcg [] a 60 Store.empty).toOption
  let h ← root0 vs
  let o ← (← mrun (foldBody F) .unit σ 60 (k h) Table.empty).toOption
  let ((vs, _), σ) ← (HVars.run (M := Count) .dcg vs b 60 σ).toOption
  let h ← root0 vs
  let o' ← (← mrun (foldBody F) .unit σ 60 (k h) o.table).toOption
  let o'' ← (← mrun (foldBody F) .unit σ 60 (k h) o'.table).toOption
  return [o.work, o'.work, o''.work]

/-- A tree of nine nodes; an edit at its left end leads to three calls instead of nine for `fold_up`, and to one without an edit. -/
example : works sumF.fns .up exBuild exEdit = some [9, 3, 1] := by decide +kernel

/-- The program meets the conditions of `C58_client`, with a named top. -/
example : ∃ vs os t x, Vars.run (M := Count) [] exBuild = .ok (vs, os) ∧ vs[0]? = some (some (.tree t)) ∧
    t.tree.foldUpMeta sumF.fns.up = .ok (some x) ∧ ∃ lv m d l r, t.tree = .node lv (some m) d l r := by
  have h : (do
      let (vs, _) ← Vars.run (M := Count) [] exBuild
      match (vs[0]? : Option (Option (St Nat Count))) with
      | some (some (.tree t)) =>
        let x ← t.tree.foldUpMeta sumF.fns.up
        match t.tree with
        | .node _ (some _) _ _ _ => return x
        | _ => .error .explicit
      | _ => .error .explicit : P (Option Nat)) = .ok (some 15) := by decide +kernel
  obtain ⟨⟨vs, os⟩, h1, h⟩ := bind_ok.1 h
  simp only at h
  split at h
  · next t ht =>
    obtain ⟨x, h2, h⟩ := bind_ok.1 h
    split at h
    · next lv m d l r hn =>
      cases h
      exact ⟨vs, os, t, 15, h1, ht, h2, _, _, _, _, _, hn⟩
    · cases h
  · cases h

/-- One leaf replaced below two named nodes. -/
example (h : Tr) : Near (D := Tr × Nat) (.node 2 (some .unit) (h, 0) (.node 1 (some (.usize 1)) (h, 1) .nil .nil) (.node 0 none (h, 2) .nil .nil))
    (.node 2 (some .unit) (h, 5) (.node 1 (some (.usize 1)) (h, 6) .nil (.node 0 none (h, 7) .nil .nil)) (.node 0 none (h, 2) .nil .nil)) 3 :=
  .left (.right (.here .nil _))

/-- An edit at the right end and `fold_lr`, and one at the left end. -/
example : works sumF.fns (fun h => .lr h startName 0) exBuild [.op 0 (.focus (5 : Nat)), .op 0 (.pushL 7), .op 0 .unfocus] = some [9, 4, 1] ∧
    works sumF.fns (fun h => .lr h startName 0) exBuild exEdit = some [9, 9, 1] := by
  decide +kernel

/-- The second leaf replaced: the left fold does not visit the first one again. -/
example (h : Tr) : NearLr (R := Nat) (fun a (d : Nat) _ _ => a + d) (.node 2 (some .unit) (h, 0) (.node 0 none (h, 1) .nil .nil) (.node 0 none (h, 2) .nil .nil))
    (.node 2 (some .unit) (h, 0) (.node 0 none (h, 1) .nil .nil) (.node 0 none (h, 3) .nil .nil)) 2 :=
  .right (fun _ => rfl) (.here _ _)

/-- The condition of `C57_same_results_partial`: two functions in one namespace that give the same results, here the same closures
by different means. -/
example : ∀ ev ∈ ([.up .unit true 0, .stmt .new, .up .unit false 0] : List (Ev Nat (RazMeta.Index Nat Count) Nat Bool)), ∀ p c i,
    (ev = .up p c i → (if c then sumF.fns else ⟨upNode (fun x => 0 + x) (fun x y => y + x), lrNode (fun x y => y + x) (fun a _ => a)⟩ :
      Fns (TreeData Nat Count) Nat) = sumF.fns) ∧ ∀ a, ev = .lr p c i a → (if c then sumF.fns else
        ⟨upNode (fun x => 0 + x) (fun x y => y + x), lrNode (fun x y => y + x) (fun a _ => a)⟩ : Fns (TreeData Nat Count) Nat) = sumF.fns := by
  have h : (⟨upNode (fun x => 0 + x) (fun x y => y + x), lrNode (fun x y => y + x) (fun a _ => a)⟩ : Fns (TreeData Nat Count) Nat) = sumF.fns := by
    have e1 : (fun x : Nat => 0 + x) = id := by funext x; simp
    have e2 : (fun x y : Nat => y + x) = (· + ·) := by funext x y; exact Nat.add_comm y x
    rw [e1, e2]; rfl
  intro ev _ p c i
  cases c
  · exact ⟨fun _ => h, fun _ _ => h⟩
  · exact ⟨fun _ => rfl, fun _ _ => rfl⟩

end Iodyn.Incr
