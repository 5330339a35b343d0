import Verif.Proof.IncrLrProg
import Verif.Props.Adder
/-
C74, C75: sequences folded again and again into lists (`to_list`) and the adder run again and again, with the memoised folds.
-/
namespace Iodyn.Incr
open Iodyn.Heap
variable {E M B : Type}

/-! ### C74 -/

section
variable [DecidableEq E] [DecidableEq M]

theorem list_part {s : LSpace E M E Count (ASt E)} (hs : Lr.SInv Lr.listSem s) (old : List (Name × Option Name × Tree (Tr × TreeData E M)))
    {σ : RMem E M} {h : Tr} {v : Tree (Tr × TreeData E M)} (hv : View σ (some h) v) (hn : (nodeNames v).Nodup) (he : EndsInLeaves (plain v)) (mt : M) :
    ∃ o, (∀ n, v.size ≤ n → amrun (lrAccBody toListNode) σ n ⟨h, some (.str "start"), ASt.new⟩ s = some (.ok o)) ∧
      AView o.space.mem o.val (toListScratch ⟨mt, plain v⟩) ∧
      Lr.Part Lr.listSem σ old s (some h) (some (.str "start")) ASt.new v (pointsFrom (some (.str "start")) v) (costFrom old (some (.str "start")) v)
        o.reads o.facts o.work o.space o.val := by
  have key := Lr.fold_run (Lr.list_ok (E := E) (M := M) (X := Nat × List E) (D' := TreeData E Count)) σ old v v.size (Nat.le_refl _) h (some (.str "start"))
    ASt.new AStack.new (fun _ => False) s hv (memos_nodup hn) (Lr.used_nodup _ he hn) hs (Lr.ARel.new _ _) (fun _ _ h => h)
  rw [Lr.foldP_list mt v] at key
  obtain ⟨o, h1, p⟩ := key
  refine ⟨o, fun n hle => amrun_mono hle h1, ?_, p⟩
  obtain ⟨y, b1, b2, -⟩ := p.step o.space.mem (fun _ => False) AStack.new p.inv.fresh p.facts (Lr.ARel.new _ _) (fun _ _ h => h)
  simp only [Lr.foldP_list mt v] at b1
  cases b1
  exact (Lr.ARel.view b2).1

theorem Accumulated.sinv {s : LSpace E M E Count (ASt E)} (hs : Accumulated toListNode ASt.new s) : Lr.SInv Lr.listSem s :=
  Accumulated.inv Lr.list_ok rfl (x := AStack.new) (fun τ => Lr.ARel.new τ _) hs

/-- **C74.** However often `to_list` has run in a namespace, on whatever sequences, with whatever happened to them in between: the next run
gives a list that is, link by link and with names and levels, the list made from scratch. -/
theorem C74_again {s : LSpace E M E Count (ASt E)} (hs : Accumulated toListNode ASt.new s) {σ : RMem E M} {h : Tr}
    {v : Tree (Tr × TreeData E M)} (hv : View σ (some h) v) (hn : (nodeNames v).Nodup) (he : EndsInLeaves (plain v)) (mt : M) :
    ∃ a s', (∀ n, v.size ≤ n → foldAccIn toListNode ASt.new ⟨mt, some h⟩ s n σ = .ok ((a, s'), σ)) ∧
      AView s'.mem a (toListScratch ⟨mt, plain v⟩) := by
  obtain ⟨o, h1, h2, -⟩ := list_part hs.sinv [] hv hn he mt
  refine ⟨o.val, o.space, fun n hle => ?_, h2⟩
  unfold foldAccIn
  simp only [h1 n hle]

theorem AccHistory.kept {s : LSpace E M E Count (ASt E)} {vs : List (Tree (Tr × TreeData E M))} (hs : AccHistory toListNode ASt.new s vs) :
    Lr.Kept Lr.listSem (some (.str "start")) s vs := by
  induction hs with
  | start => exact ⟨Lr.sInv_empty _, (fun _ _ h => by cases h), (fun _ _ h => by cases h)⟩
  | @fold s vs σ h v n o _ hv hn hc hr ho ih =>
    exact Lr.Kept.next (x := AStack.new) (ns := fun _ => False) Lr.list_ok ih hv (memos_nodup hn) (Lr.used_nodup _ hc.ends hn) (Lr.ARel.new _ _)
      (fun _ _ h => h) hc.full hr ho

/-- **C74, the work.** In a session of any number of runs in a namespace, between which the sequences and the store change in any way, every
run gives the right list and visits only the nodes that are not below a branch that the run before has seen unchanged (below a node of
the same name on the same side); in particular after replacing one subtree only the nodes above it and in it (`k`), wherever it is: what
comes after it in the sequence is not visited, although the accumulator is threaded through the fold from left to right. Conditions: all
archive points have names, leaves are not empty, and names that had left the sequence did not come back. -/
theorem C74_session {s : LSpace E M E Count (ASt E)} {v : Tree (Tr × TreeData E M)} {vs : List (Tree (Tr × TreeData E M))}
    (hs : AccHistory toListNode ASt.new s (v :: vs)) {σ : RMem E M} {h : Tr} {v' : Tree (Tr × TreeData E M)} (hv : View σ (some h) v')
    (hn : (nodeNames v').Nodup) (hc : Chunked (plain v')) (mt : M) :
    ∃ o, (∀ n, v'.size ≤ n → amrun (lrAccBody toListNode) σ n ⟨h, some (.str "start"), ASt.new⟩ s = some (.ok o)) ∧
      AView o.space.mem o.val (toListScratch ⟨mt, plain v'⟩) ∧
      o.work ≤ costFrom (pointsFrom (some (.str "start")) v) (some (.str "start")) v' ∧ ∀ k, Near v v' k → o.work ≤ k := by
  have hk := hs.kept
  obtain ⟨o, h1, h2, p⟩ := list_part hk.inv (pointsFrom (some (.str "start")) v) hv hn hc.ends mt
  have hw := p.work hc.full rfl (by
    intro q _ hq
    obtain ⟨fs, hf, hst⟩ := hk.last v vs rfl
    obtain ⟨e, e1, e2, e3, -⟩ := hst q hq
    exact ⟨e, e1, e2, fun x hx => hf x (e3 hx)⟩)
  exact ⟨o, h1, h2, hw, fun k hkn => Nat.le_trans hw (Lr.near_costFrom hkn _ _ (fun _ h => h))⟩

/-- **C74, one run.** Whatever ran before, no node is visited twice. -/
theorem C74_at_most_size {s : LSpace E M E Count (ASt E)} (hs : Accumulated toListNode ASt.new s) {σ : RMem E M} {h : Tr}
    {v : Tree (Tr × TreeData E M)} (hv : View σ (some h) v) (hn : (nodeNames v).Nodup) (he : EndsInLeaves (plain v)) {n : Nat} {o}
    (ho : amrun (lrAccBody toListNode) σ n ⟨h, some (.str "start"), ASt.new⟩ s = some (.ok o)) : o.work ≤ v.size :=
  (Lr.run_part (x := AStack.new) (ns := fun _ => False) Lr.list_ok [] hs.sinv hv (memos_nodup hn) (Lr.used_nodup _ he hn) (Lr.ARel.new _ _)
    (fun _ _ h => h) ho).2.most

/-- A history can be continued with every sequence that meets the conditions. -/
theorem AccHistory.extend {s : LSpace E M E Count (ASt E)} {vs : List (Tree (Tr × TreeData E M))} (hs : AccHistory toListNode ASt.new s vs)
    {σ : RMem E M} {h : Tr} {v : Tree (Tr × TreeData E M)} (hv : View σ (some h) v) (hn : (nodeNames v).Nodup) (hc : Chunked (plain v))
    (hr : NoReturn vs v) (mt : M) : ∃ s' : LSpace E M E Count (ASt E), AccHistory toListNode ASt.new s' (v :: vs) := by
  obtain ⟨o, h1, -⟩ := list_part hs.kept.inv [] hv hn hc.ends mt
  exact ⟨_, .fold hs hv hn hc hr (h1 v.size (Nat.le_refl _))⟩

/-- **C74, clients.** A client edits sequences and makes lists of them, in any order, with the incremental engine. Every run is memoised, in
one of any number of namespaces, and reuses the calls that earlier ones have stored. Every list that it makes, read in full, and a panic
at the end, is that of running from scratch. -/
theorem C74_client [RazMeta E M] [LawfulMeta E M] {l : List (CompEv E (RazMeta.Index E M))} (hs : Safe .dcg (CompEv.stmts l))
    (hl : ∀ c ∈ CompEv.stmts l, c.LevelOK) :
    CompAnswers (M := M) toListRun Space.empty l (compAnswers (M := M) (fun t => .ok (some (toListScratch t))) l) :=
  Lr.compAnswers_of_fine Lr.toList_computes (Lr.sInv_empty _) l hl (safe_fine hs)
end

theorem compAnswers_unique [RazMeta E M] {Sp : Type} {run : HTree M → Sp → HR E M (B × Sp)} {new : Sp} {l : List (CompEv E (RazMeta.Index E M))}
    {r r' : P (List (CompAns E B))} (h : CompAnswers run new l r) (h' : CompAnswers run new l r') : r = r' := by
  obtain ⟨f, hf⟩ := h
  obtain ⟨g, hg⟩ := h'
  rw [← hf (max f g) (Nat.le_max_left _ _), hg (max f g) (Nat.le_max_right _ _)]

/-- An event with plain lists; `R` says what the computation gives for a list. -/
inductive LCompEv {I : Type} (R : List E → B → Prop) : LVars E → CompEv E I → CompAns E B → LVars E → Prop
  | stmt {vs vs' c o} : LVStep vs c o vs' → LCompEv R vs (.stmt c) (.out o) vs'
  | run {vs p i l b} : vs.IsTree i l → R l b → LCompEv R vs (.run p i) (.ran b) vs
  | bad {vs p i} : (∀ l, ¬ vs.IsTree i l) → LCompEv R vs (.run p i) .bad vs

/-- Events with plain lists. -/
inductive LCompEvs {I : Type} (R : List E → B → Prop) : LVars E → List (CompEv E I) → List (CompAns E B) → LVars E → Prop
  | nil (vs) : LCompEvs R vs [] [] vs
  | cons {vs vs' vs'' ev l a as} : LCompEv R vs ev a vs' → LCompEvs R vs' l as vs'' → LCompEvs R vs (ev :: l) (a :: as) vs''

theorem lists_comps [RazMeta E M] [LawfulMeta E M] {scratch : RazTree E M → P B} {R : List E → B → Prop}
    (hR : ∀ t b, t.Reachable .full → scratch t = .ok b → R t.elems b) : ∀ (l : List (CompEv E (RazMeta.Index E M))) {vs vs' : Vars E M} {as : List (CompAns E B)},
    AllReach vs → (∀ c ∈ CompEv.stmts l, c.LevelOK) → vs.comps scratch l = .ok (vs', as) → LCompEvs R (readVars vs) l as (readVars vs') := by
  intro l
  induction l with
  | nil => intro vs vs' as _ _ h; cases h; exact .nil _
  | cons ev l ih =>
    intro vs vs' as hr hl h
    unfold Vars.comps at h
    obtain ⟨⟨vs1, a⟩, h1, h⟩ := bind_ok.1 h
    obtain ⟨⟨vs2, as'⟩, h2, h⟩ := bind_ok.1 h
    cases h
    cases ev with
    | stmt c =>
      unfold Vars.comp at h1
      obtain ⟨⟨vs3, o⟩, h3, h1⟩ := bind_ok.1 h1
      cases h1
      have h4 := lists_step hr (hl c List.mem_cons_self) h3
      exact .cons (.stmt h4.1) (ih h4.2 (fun c hc => hl c (List.mem_cons_of_mem _ hc)) h2)
    | run p i =>
      simp only [Vars.comp] at h1
      split at h1
      · next t ht =>
        obtain ⟨b, h3, h1⟩ := bind_ok.1 h1
        cases h1
        exact .cons (.run (isTree_iff.2 ⟨t, ht, rfl⟩) (hR t b (hr i _ ht) h3)) (ih hr hl h2)
      · next hn =>
        cases h1
        exact .cons (.bad fun l hc => by obtain ⟨t, ht, -⟩ := isTree_iff.1 hc; exact hn t ht) (ih hr hl h2)

theorem lists_answers [RazMeta E M] [LawfulMeta E M] {scratch : RazTree E M → P B} {R : List E → B → Prop}
    (hR : ∀ t b, t.Reachable .full → scratch t = .ok b → R t.elems b) {l : List (CompEv E (RazMeta.Index E M))} (hl : ∀ c ∈ CompEv.stmts l, c.LevelOK)
    {as : List (CompAns E B)} (h : compAnswers scratch l = .ok as) : ∃ vs, LCompEvs R [] l as vs := by
  unfold compAnswers at h
  cases hr : Vars.comps (M := M) scratch [] l with
  | error p => rw [hr] at h; cases h
  | ok x =>
    obtain ⟨vs, as'⟩ := x
    rw [hr] at h
    cases h
    exact ⟨_, lists_comps hR l (fun i s hi => by simp at hi) hl hr⟩

theorem toListScratch_elems [RazMeta E M] {t : RazTree E M} (hr : t.Reachable .any) : (toListScratch t).elems.reverse = t.elems := by
  unfold toListScratch
  rw [C13_fold_lr_meta hr]
  have : ∀ (l : List (Item E)) (s : AStack E Nat), (foldItems AStack.push (fun a m => (a.archive m.2 m.1).1) s l).elems.reverse = s.elems.reverse ++ elemsOf l := by
    intro l
    induction l with
    | nil => intro s; simp [foldItems, elemsOf]
    | cons i l ih =>
      intro s
      cases i with
      | elem e =>
        show (foldItems AStack.push (fun a m => (a.archive m.2 m.1).1) (s.push e) l).elems.reverse = _
        rw [ih]
        simp [AStack.elems, AStack.push, elemsOf, Item.elem?]
      | mark a b =>
        show (foldItems AStack.push (fun a m => (a.archive m.2 m.1).1) (s.archive b a).1 l).elems.reverse = _
        rw [ih, archive_elems]
        rfl
      | pend a b =>
        show (foldItems AStack.push (fun a m => (a.archive m.2 m.1).1) (s.archive b a).1 l).elems.reverse = _
        rw [ih, archive_elems]
        rfl
  rw [this]
  simp [AStack.elems, AStack.new, RazTree.elems, RazTree.items]

/-- **C74, on plain lists.** The elements of the lists made (which can always be read in full) are those of editing plain lists. -/
theorem C74_lists [RazMeta E M] [LawfulMeta E M] [DecidableEq E] [DecidableEq M] {l : List (CompEv E (RazMeta.Index E M))}
    (hs : Safe .dcg (CompEv.stmts l)) (hl : ∀ c ∈ CompEv.stmts l, c.LevelOK) {as : List (CompAns E (Option (AStack E Nat)))}
    (ha : CompAnswers (M := M) toListRun Space.empty l (.ok as)) :
    ∃ vs, LCompEvs (fun l b => ∃ s, b = some s ∧ s.elems.reverse = l) [] l as vs := by
  refine lists_answers (fun t b hr hb => ?_) hl (compAnswers_unique (C74_client hs hl) ha)
  cases hb
  exact ⟨_, rfl, toListScratch_elems (Reach.any hr)⟩

/-! ### C75 -/

theorem AdderRan.inv {S : AdderSpaces} (hS : AdderRan S) : Lr.AdderInv S := by
  induction hS with
  | start => exact ⟨Lr.sInv_empty _, FInv.empty, Lr.sInv_empty _⟩
  | @run S S' σ σ' t v a f0 _ hv hn he ho ih =>
    have h1 := Lr.adder_run ih hv hn he ⟨0⟩
    cases hx : adderScratch ⟨⟨0⟩, plain v⟩ with
    | error q =>
      rw [hx] at h1
      obtain ⟨f1, h1⟩ := h1
      have := (h1 (max f0 f1) (Nat.le_max_right _ _)).symm.trans (ho _ (Nat.le_max_left _ _))
      cases this
    | ok y =>
      rw [hx] at h1
      obtain ⟨⟨a', S1⟩, σ1, ⟨f1, h1⟩, -, h2, -⟩ := h1
      have := (h1 (max f0 f1) (Nat.le_max_right _ _)).symm.trans (ho _ (Nat.le_max_left _ _))
      cases this
      exact h2

/-- **C75.** However often the adder has run in its namespaces, on whatever texts, with whatever happened to them in between (also after runs
that were followed by a panic of a later one): the next run gives a stack of sums that is, link by link, that of running from scratch, or
the panic of running from scratch. -/
theorem C75_again {S : AdderSpaces} (hS : AdderRan S) {σ : RMem Char Count} {t : HTree Count} {v : Tree (Tr × TreeData Char Count)}
    (hv : View σ t.tree v) (hn : (nodeNames v).Nodup) (he : EndsInLeaves (plain v)) (mt : Count) :
    (∀ q, adderScratch ⟨mt, plain v⟩ = .error q → ∃ f0, ∀ f, f0 ≤ f → adderIn t S f σ = .error q) ∧
    (∀ y, adderScratch ⟨mt, plain v⟩ = .ok y → ∃ a S' f0, (∀ f, f0 ≤ f → adderIn t S f σ = .ok ((a, S'), σ)) ∧ AView S'.parse.mem a y) := by
  have hinv := hS.inv
  have h1 := Lr.adder_run hinv hv hn he mt
  constructor
  · intro q hq
    rw [hq] at h1
    exact h1
  · intro y hy
    rw [hy] at h1
    obtain ⟨⟨a, S'⟩, σ', ⟨f0, h1⟩, rfl, -, h2⟩ := h1
    exact ⟨a, S', f0, h1, h2⟩

/-- **C75, clients.** A client edits texts and adds up their numbers, in any order, with the incremental engine. Every run is memoised in all
of its stages and reuses the calls that earlier ones have stored. Every result, read in full, and a panic at the end, is that of
running from scratch. -/
theorem C75_client {l : List (CompEv Char (RazMeta.Index Char Count))} (hs : Safe .dcg (CompEv.stmts l)) (hl : ∀ c ∈ CompEv.stmts l, c.LevelOK) :
    CompAnswers adderRun AdderSpaces.empty l (compAnswers (fun t => (adderScratch t).map some) l) :=
  Lr.compAnswers_of_fine Lr.adder_computes ⟨Lr.sInv_empty _, FInv.empty, Lr.sInv_empty _⟩ l hl (safe_fine hs)

end Iodyn.Incr

namespace Iodyn.Eval.Adder
variable {X G M : Type}

/-! ### Levels -/

theorem built_of_stackP {ok : Nat → Prop} : ∀ (arch : Stack (Nat × List X)) (cur : List X), (∀ p ∈ arch, ok p.2.1 ∧ p.2.2 ≠ []) →
    AStack.Built ok (⟨cur, arch⟩ : AStack X Nat) := by
  intro arch
  induction arch with
  | nil =>
    intro cur _
    have := AStack.Built.extend (ok := ok) cur (.new (E := X))
    simpa [AStack.extend, AStack.new] using this
  | cons p arch ih =>
    intro cur h
    obtain ⟨nm, lev, v⟩ := p
    have h0 := h _ List.mem_cons_self
    have h1 := AStack.Built.archive nm lev h0.1 (ih v (fun p hp => h p (List.mem_cons_of_mem _ hp)))
    have e : ((⟨v, arch⟩ : AStack X Nat).archive nm lev).1 = ⟨[], (nm, lev, v) :: arch⟩ := by
      have hv : v.length ≠ 0 := fun h => h0.2 (List.length_eq_zero_iff.1 h)
      simp [AStack.archive, hv, Stack.push]
    rw [e] at h1
    have := AStack.Built.extend (ok := ok) cur h1
    simpa [AStack.extend] using this

theorem fromStackTail_levels [RazMeta X M] : ∀ (k : Nat) {s : AStack X Nat} {l : Nat} {n : Option Name} {acc : Tree (TreeData X M)} {mx : Nat}
    {r : FromStackRes X M}, fromStackTail k s l n acc mx = .ok r →
    l < mx ∧ (r.2.1 = none → r.1.archived = []) ∧ ∀ p ∈ s.archived, p.2.1 < mx ∨ r.2.1 = some p.2.1 ∨ p ∈ r.1.archived := by
  intro k
  induction k with
  | zero => intro s l n acc mx r h; cases h
  | succ k ih =>
    intro s l n acc mx r h
    simp only [fromStackTail] at h
    obtain ⟨-, -, h⟩ := bind_ok.1 h
    obtain ⟨_, hlm, h⟩ := bind_ok.1 h
    have hlm : l < mx := by
      unfold assert at hlm
      split at hlm
      · next hc => exact of_decide_eq_true hc
      · cases hlm
    refine ⟨hlm, ?_⟩
    obtain ⟨cur, arch⟩ := s
    rcases arch with _ | ⟨⟨nm, lev, v⟩, rest⟩
    · refine ⟨?_, fun p hp => by cases hp⟩
      intro _
      unfold AStack.nextArchive at h
      split at h
      · next he =>
        split at he
        · cases h
        · cases he
      · next he =>
        split at he
        · cases he
        · cases he
          obtain ⟨⟨sh, fl, fn, small⟩, h1, h⟩ := bind_ok.1 h
          cases h1
          obtain ⟨t, -, h⟩ := bind_ok.1 h
          cases h
          rfl
    · simp only [AStack.nextArchive, AStack.isEmpty, Stack.isEmpty, List.isEmpty_cons, Bool.and_false, Bool.false_eq_true, if_false] at h
      obtain ⟨⟨sh, fl, fn, small⟩, h1, h⟩ := bind_ok.1 h
      obtain ⟨t, -, h⟩ := bind_ok.1 h
      have hq : (fl = none → sh.archived = []) ∧ ∀ p ∈ (nm, lev, v) :: rest, p.2.1 < mx ∨ fl = some p.2.1 ∨ p ∈ sh.archived := by
        split at h1
        · next hlt =>
          have := ih h1
          refine ⟨this.2.1, fun p hp => ?_⟩
          rcases List.mem_cons.1 hp with rfl | hp
          · exact .inl (Nat.lt_trans hlt hlm)
          · rcases this.2.2 p hp with a | a | a
            · exact .inl (Nat.lt_trans a hlm)
            · exact .inr (.inl a)
            · exact .inr (.inr a)
        · cases h1
          refine ⟨nofun, fun p hp => ?_⟩
          rcases List.mem_cons.1 hp with rfl | hp
          · exact .inr (.inl rfl)
          · exact .inr (.inr hp)
      cases fl with
      | none =>
        cases h
        refine ⟨fun _ => rfl, fun p hp => ?_⟩
        rcases hq.2 p hp with a | a | a
        · exact .inl a
        · cases a
        · rw [hq.1 rfl] at a; cases a
      | some lev' =>
        simp only at h
        split at h
        · next hlt =>
          have := ih h
          refine ⟨this.2.1, fun p hp => ?_⟩
          rcases hq.2 p hp with a | a | a
          · exact .inl a
          · cases a; exact .inl hlt
          · exact this.2.2 p a
        · cases h
          exact ⟨nofun, hq.2⟩

theorem memoFromTail_levels [RazMeta X M] {s : AStack X Nat} {t : RazTree X M} (h : memoFromTail s = .ok t) : ∀ p ∈ s.archived, p.2.1 < u32Max := by
  obtain ⟨cur, arch⟩ := s
  rcases arch with _ | ⟨⟨nm, lev, v⟩, rest⟩
  · intro p hp; cases hp
  · simp only [memoFromTail, AStack.nextArchive, AStack.isEmpty, Stack.isEmpty, List.isEmpty_cons, Bool.and_false, Bool.false_eq_true, if_false] at h
    obtain ⟨⟨s', l, n, t'⟩, h1, h⟩ := bind_ok.1 h
    obtain ⟨_, hl, h⟩ := bind_ok.1 h
    have hl : l = none := by
      unfold assert at hl
      split at hl
      · next hc => exact Option.isNone_iff_eq_none.1 hc
      · cases hl
    have := fromStackTail_levels _ h1
    intro p hp
    rcases List.mem_cons.1 hp with rfl | hp
    · exact this.1
    · rcases this.2.2 p hp with a | a | a
      · exact a
      · rw [hl] at a; cases a
      · rw [this.2.1 hl] at a; cases a

/-- **C47, results.** Whatever the levels of the archive points are: if the incremental adder gives a result, then it is that of the
non-incremental adder on the same characters. -/
theorem C47_when_ok {s : EvalRaz Char Count G} {t : RazTree Char Count} (ht : s.raztree = some t) (hr : t.Reachable .any)
    {datagauge namegauge : Nat} {coord : G} {r : AStack Nat Nat} (h : inc s datagauge namegauge coord = .ok r) (g : G) :
    nonInc ⟨t.elems, g⟩ coord = .ok r.elems.reverse := by
  have hm : ∀ m ∈ marksOf t.items, 1 ≤ m.1 := by
    intro m h
    rcases (Reach.t hr).inv.wf with hn | hw
    · simp [RazTree.items, hn, marksOf] at h
    · exact (wf_marks hw m h)
  have h1 : Same (fun s v => HoldsOf (1 ≤ ·) s.1 v.1 ∧ s.2 = v.2)
      (foldItems (lift (tokenizeStep (stackAccum Token))) (fun a m => a.map (fun st => tokenizeMeta (stackAccum Token) st m))
        (.ok ((stackAccum Token).new, none)) t.items)
      (t.elems.foldl (lift (tokenizeStep (vecAccum Token))) (.ok ((vecAccum Token).new, none))) :=
    foldItems_same (R := fun (s : AStack Token Nat × Option Nat) (v : List Token × Option Nat) => HoldsOf (1 ≤ ·) s.1 v.1 ∧ s.2 = v.2) (mt := tokenizeMeta (stackAccum Token))
      (fun s v e h => tokenizeStep_same h e) (fun s v h m hx => ⟨holds_archive h.1 m.2 (hm m hx), h.2⟩)
      (show Same _ (.ok _) (.ok _) from (⟨holds_new, rfl⟩ : HoldsOf _ _ _ ∧ none = none))
  rw [← C13_fold_lr_meta hr] at h1
  simp only [inc, EvalRaz.compFoldMeta, ht, unwrap] at h
  obtain ⟨_, ha, h⟩ := bind_ok.1 h
  cases ha
  obtain ⟨⟨ts, part⟩, ha, h⟩ := bind_ok.1 h
  rw [ha] at h1
  cases hb : t.elems.foldl (lift (tokenizeStep (vecAccum Token))) (.ok ((vecAccum Token).new, none)) with
  | error q => rw [hb] at h1; exact h1.elim
  | ok x =>
    obtain ⟨v, part'⟩ := x
    rw [hb] at h1
    obtain ⟨h2, h3⟩ := h1
    simp only at h2 h3
    subst h3
    have h4 : HoldsOf (1 ≤ ·) (tokenizeFinal (stackAccum Token) (ts, part)) (tokenizeFinal (vecAccum Token) (v, part)) := by
      cases part with
      | none => exact h2
      | some n => exact holds_push h2 _
    simp only [EvalRaz.incFromTail] at h
    obtain ⟨y, h0, h⟩ := bind_ok.1 h
    obtain ⟨t', h5, h5'⟩ := bind_ok.1 h0
    cases h5'
    have hb4 : (tokenizeFinal (stackAccum Token) (ts, part)).Built (fun n => 1 ≤ n ∧ n < u32Max) :=
      built_of_stackP _ _ (fun p hp => ⟨⟨(h4.1.inv p hp).1, memoFromTail_levels h5 p hp⟩, (h4.1.inv p hp).2⟩)
    obtain ⟨t2, h6, -, h7⟩ := C17_memo_from_tail (M := Count) hb4
    rw [h5] at h6
    cases h6
    have hr' : t'.Reachable .any := .memoTail hb4 (.inl rfl) h5
    have h8 : Same (HoldsOf (fun _ => True))
        (foldItems (lift (parseStep (stackAccum Nat))) (fun a m => a.map (fun n => parseMeta (stackAccum Nat) n m))
          (.ok (stackAccum Nat).new) t'.items)
        (t'.elems.foldl (lift (parseStep (vecAccum Nat))) (.ok (vecAccum Nat).new)) :=
      foldItems_same (R := HoldsOf (fun _ => True)) (mt := parseMeta (stackAccum Nat)) (fun s v e h => parseStep_same h e)
        (fun s v h m hx => holds_archive h m.2 trivial) holds_new
    have h9 : t'.elems = tokenizeFinal (vecAccum Token) (v, part) := by rw [h7, h4.2]
    obtain ⟨_, h', h⟩ := bind_ok.1 h
    cases h'
    rw [← C13_fold_lr_meta hr', h] at h8
    simp only [nonInc, EvalVec.compFold, hb, bind, Except.bind, pure, Except.pure, EvalVec.incFrom, ← h9]
    cases hc : t'.elems.foldl (lift (parseStep (vecAccum Nat))) (.ok (vecAccum Nat).new) with
    | error q => rw [hc] at h8; exact h8.elim
    | ok x =>
      rw [hc] at h8
      rw [h8.2]

/-- 1 | 2, with an archive point of a level that `memo_from` would not take; there is no token yet to be archived. -/
def exHigh : Raz Char Count := (((Raz.new.pushLeft '1').1.archiveLeft u32Max none).pushLeft '2').1

example : ∃ t : RazTree Char Count, exHigh.unfocus = .ok t ∧ t.Reachable .any ∧ (∃ m ∈ marksOf t.items, ¬ m.1 < u32Max) ∧
    ∃ r, inc (⟨some t, 0, (), 0, 0, 0⟩ : EvalRaz Char Count Unit) 0 0 () = .ok r ∧ r.elems = [12] ∧ nonInc ⟨t.elems, ()⟩ () = .ok [12] := by
  have hr : exHigh.Reachable .any := .pushL _ (.archL _ (by decide) (.pushL _ .new))
  have hrun : (do
      let t ← exHigh.unfocus
      let r ← inc (⟨some t, 0, (), 0, 0, 0⟩ : EvalRaz Char Count Unit) 0 0 ()
      return ((marksOf t.items).map Prod.fst, r.elems)) = .ok ([u32Max], [12]) := by decide +kernel
  obtain ⟨t, h1, h⟩ := bind_ok.1 hrun
  obtain ⟨r, h2, h⟩ := bind_ok.1 h
  have hx := Prod.mk.inj (Except.ok.inj h)
  have ht : t.Reachable .any := .unfocus hr h1
  refine ⟨t, h1, ht, ?_, r, h2, hx.2, ?_⟩
  · have : u32Max ∈ (marksOf t.items).map Prod.fst := by rw [hx.1]; exact List.mem_cons_self
    obtain ⟨m, hm, e⟩ := List.mem_map.1 this
    exact ⟨m, hm, by rw [e]; exact Nat.lt_irrefl _⟩
  · have := C47_when_ok rfl ht h2 ()
    rw [hx.2] at this
    exact this

end Iodyn.Eval.Adder

namespace Iodyn.Incr
open Iodyn.Heap

/-- **C75, on plain lists.** The sums that a client gets are those of the non-incremental program on plain lists of the characters. -/
theorem C75_lists {l : List (CompEv Char (RazMeta.Index Char Count))} (hs : Safe .dcg (CompEv.stmts l)) (hl : ∀ c ∈ CompEv.stmts l, c.LevelOK)
    {as : List (CompAns Char (Option (AStack Nat Nat)))} (ha : CompAnswers adderRun AdderSpaces.empty l (.ok as)) :
    ∃ vs, LCompEvs (fun l b => ∃ s, b = some s ∧ Eval.Adder.nonInc (⟨l, ()⟩ : Eval.EvalVec Char Unit) () = .ok s.elems.reverse) [] l as vs := by
  refine lists_answers (fun t b hr hb => ?_) hl (compAnswers_unique (C75_client hs hl) ha)
  cases hx : adderScratch t with
  | error q => rw [hx] at hb; cases hb
  | ok y =>
    rw [hx] at hb
    cases hb
    exact ⟨y, rfl, Eval.Adder.C47_when_ok rfl (Reach.any hr) hx ()⟩

/-- **C75, one run.** Whatever ran before, the two folds of a run visit no node twice, be the text (`v`) and the tokens (`w`) in whatever
stores. -/
theorem C75_at_most_size {S : AdderSpaces} (hS : AdderRan S) {h : Tr} {n : Nat} :
    (∀ {σ : RMem Char Count} {v : Tree (Tr × TreeData Char Count)} {o}, View σ (some h) v → (nodeNames v).Nodup → EndsInLeaves (plain v) →
      amrun (lrAccBody tokNode) σ n ⟨h, some (.str "start"), (ASt.new, none)⟩ S.tokenize = some (.ok o) → o.work ≤ v.size) ∧
    ∀ {σ : RMem Eval.Adder.Token Count} {w : Tree (Tr × TreeData Eval.Adder.Token Count)} {o}, View σ (some h) w → (nodeNames w).Nodup →
      EndsInLeaves (plain w) → amrun (lrAccBody parseNode) σ n ⟨h, some (.str "start"), ASt.new⟩ S.parse = some (.ok o) → o.work ≤ w.size := by
  have hinv := hS.inv
  constructor
  · intro σ v o hv hn he ho
    exact (Lr.run_part (x := (AStack.new, none)) (ns := fun _ => False) Lr.tok_ok [] hinv.tokenize hv (memos_nodup hn) (Lr.used_nodup _ he hn)
      ⟨Lr.ARel.new _ _, rfl⟩ (fun _ _ h => h) ho).2.most
  · intro σ v o hv hn he ho
    exact (Lr.run_part (x := AStack.new) (ns := fun _ => False) Lr.parse_ok [] hinv.parse hv (memos_nodup hn) (Lr.used_nodup _ he hn)
      (Lr.ARel.new _ _) (fun _ _ h => h) ho).2.most

/-! ### Examples -/

/-- A client that makes a list, edits, and makes it again, also of a variable that does not hold a tree. -/
def exLists : List (CompEv Nat (RazMeta.Index Nat Count)) :=
  exBuild.map .stmt ++ [.run (.str "a") 0] ++ exEdit.map .stmt ++ [.run (.str "a") 0, .run (.str "a") 1]

theorem exLists_ok : Safe .dcg (CompEv.stmts exLists) ∧ ∀ c ∈ CompEv.stmts exLists, c.LevelOK := by
  refine ⟨.inr (.inr ⟨⟨?_, ?_⟩, ?_⟩), ?_⟩
  · simp [exLists, exBuild, exEdit, CompEv.stmts, Cmd.names]
  · simp [exLists, exBuild, exEdit, CompEv.stmts, Cmd.names]
  · intro c; revert c; simp [exLists, exBuild, exEdit, CompEv.stmts, Cmd.isClone]
  · simp [exLists, exBuild, exEdit, CompEv.stmts, Cmd.LevelOK, ApiOp.LevelOK]

/-- The elements of the results, in the order of the sequence. -/
def CompAns.results {T : Type} : List (CompAns E (Option (AStack T Nat))) → List (Option (List T))
  | [] => []
  | .ran b :: l => b.map (fun s => s.elems.reverse) :: CompAns.results l
  | _ :: l => CompAns.results l

example : ∃ as, CompAnswers (M := Count) toListRun Space.empty exLists (.ok as) ∧
    CompAns.results as = [some [1, 2, 3, 4, 5], some [7, 1, 2, 3, 4, 5]] ∧
    ∃ vs, LCompEvs (fun l b => ∃ s, b = some s ∧ s.elems.reverse = l) [] exLists as vs := by
  obtain ⟨h1, h2⟩ := exLists_ok
  have key := C74_client (M := Count) h1 h2
  have he : (compAnswers (M := Count) (fun t => .ok (some (toListScratch t))) exLists).map CompAns.results =
      .ok [some [1, 2, 3, 4, 5], some [7, 1, 2, 3, 4, 5]] := by decide +kernel
  cases hr : compAnswers (M := Count) (fun t => .ok (some (toListScratch t))) exLists with
  | error q => rw [hr] at he; cases he
  | ok as =>
    rw [hr] at he key
    exact ⟨as, key, Except.ok.inj he, C74_lists h1 h2 key⟩

/-- The work of runs over the first variable, each after some statements. -/
def listWorks : List (List (Cmd Nat (RazMeta.Index Nat Count))) → HVars Nat Count → RMem Nat Count → LSpace Nat Count Nat Count (ASt Nat) →
    Option (List Nat)
  | [], _, _, _ => some []
  | cs :: l, vs, σ, s => do
    let ((vs, _), σ) ← (HVars.run (M := Count) .dcg vs cs 60 σ).toOption
    let h ← root0 vs
    let o ← (← amrun (lrAccBody toListNode) σ 60 ⟨h, some (.str "start"), ASt.new⟩ s).toOption
    let ws ← listWorks l vs σ o.space
    return o.work :: ws

/-- A tree of nine nodes with edits at the left end, at the right end and a new archive point at the left end. -/
example : listWorks [exBuild, exEdit, [.op 0 (.focus (6 : Nat)), .op 0 (.pushL 8), .op 0 .unfocus],
    [.op 0 .focusLeft, .op 0 (.pushL 1), .op 0 (.archL 2 (some (.usize 9))), .op 0 .unfocus], []] [] Store.empty Space.empty =
    some [9, 3, 4, 5, 1] := by
  decide +kernel

/-- `Chunked`, decided. -/
def chunked : Tree (TreeData E M) → Bool
  | .nil => false
  | .node _ n d l r =>
    match l, r, d, n with
    | .nil, .nil, .leaf (_ :: _), _ => true
    | _, _, .leaf _, _ => false
    | _, _, _, none => false
    | l, r, _, some m => chunked l && chunked r && decide (m ≠ .str "start")

theorem Chunked.of : ∀ {t : Tree (TreeData E M)}, chunked t = true → Chunked t := by
  intro t
  induction t with
  | nil => intro h; cases h
  | node lv n d l r ihl ihr =>
    intro h
    unfold chunked at h
    split at h
    · exact .inl ⟨rfl, rfl, _, _, rfl⟩
    · cases h
    · cases h
    · next m hd _ =>
      rw [Bool.and_eq_true, Bool.and_eq_true, decide_eq_true_iff] at h
      exact .inr ⟨ihl h.1.1, ihr h.1.2, hd, m, rfl, h.2⟩

/-- The conditions of `C74_again`, `C74_session` and `C74_at_most_size` for a history of two runs. -/
example : ∃ (s : LSpace Nat Count Nat Count (ASt Nat)) (v : Tree (Tr × TreeData Nat Count)) (σ : RMem Nat Count) (h : Tr),
    AccHistory toListNode ASt.new s [v, v] ∧ Accumulated toListNode ASt.new s ∧ View σ (some h) v ∧ (nodeNames v).Nodup ∧ Chunked (plain v) ∧
      EndsInLeaves (plain v) ∧ v.size = 9 ∧
      ∃ o, (∀ n, v.size ≤ n → amrun (lrAccBody toListNode) σ n ⟨h, some (.str "start"), ASt.new⟩ s = some (.ok o)) ∧
        ∃ y, AView o.space.mem o.val y ∧ y.elems = [5, 4, 3, 2, 1] := by
  have hrun : (do
      let (vs, _) ← Vars.run (M := Count) [] exBuild
      match (vs[0]? : Option (Option (St Nat Count))) with
      | some (some (.tree t)) => return (t.tree.size, chunked t.tree, (toListScratch (⟨⟨0⟩, t.tree⟩ : RazTree Nat Count)).elems)
      | _ => .error .explicit : P (Nat × Bool × List Nat)) = .ok (9, true, [5, 4, 3, 2, 1]) := by decide +kernel
  obtain ⟨⟨vs, os⟩, h1, h⟩ := bind_ok.1 hrun
  simp only at h
  split at h
  · next t ht =>
    have hxs : t.tree.size = 9 ∧ chunked t.tree = true ∧ (toListScratch (⟨⟨0⟩, t.tree⟩ : RazTree Nat Count)).elems = [5, 4, 3, 2, 1] := by
      have := Prod.mk.inj (Except.ok.inj h)
      exact ⟨this.1, Prod.mk.inj this.2⟩
    obtain ⟨hvs, σ, -, h3⟩ := C58_reachable (M := Count) (cs := exBuild) (by constructor <;> simp [exBuild, Cmd.names])
      (by intro c; revert c; simp [exBuild, Cmd.isClone]) h1
    obtain ⟨mt, h, v, -, k2, k3, k4⟩ := h3 0 t ht
    have hs : v.size = 9 := by rw [← plain_size, k3, hxs.1]
    have hc : Chunked (plain v) := by rw [k3]; exact Chunked.of hxs.2.1
    have nr : ∀ vs : List (Tree (Tr × TreeData Nat Count)), NoReturn (v :: vs) v := fun vs m hm hn => absurd hm hn
    cases h with
    | none => cases k2; cases hs
    | some h =>
      obtain ⟨s1, b1⟩ := AccHistory.extend .start k2 k4 hc trivial ⟨0⟩
      obtain ⟨s2, b2⟩ := b1.extend k2 k4 hc (nr _) ⟨0⟩
      obtain ⟨o, o1, o2, -⟩ := C74_session b2 k2 k4 hc ⟨0⟩
      exact ⟨s2, v, σ, h, b2, b2.accumulated, k2, k4, hc, hc.ends, hs, o, o1, _, o2, by rw [k3]; exact hxs.2.2⟩
  · cases h

/-- 1 2 | 3 , 4 | 5 +, with archive points inside of both numbers. -/
def exAddText : List (Cmd Char (RazMeta.Index Char Count)) :=
  [.new, .op 0 (.pushL '1'), .op 0 (.pushL '2'), .op 0 (.archL 2 (some (.usize 1))), .op 0 (.pushL '3'), .op 0 (.pushL ','), .op 0 (.pushL '4'),
    .op 0 (.archL 5 (some (.usize 2))), .op 0 (.pushL '5'), .op 0 (.pushL '+'), .op 0 .unfocus]

/-- A client that adds, edits at the left end, and adds again. -/
def exSums : List (CompEv Char (RazMeta.Index Char Count)) :=
  exAddText.map .stmt ++ [.run (.str "a") 0, .stmt (.op 0 .focusLeft), .stmt (.op 0 (.pushR '7')), .stmt (.op 0 .unfocus), .run (.str "a") 0]

theorem exSums_ok : Safe .dcg (CompEv.stmts exSums) ∧ ∀ c ∈ CompEv.stmts exSums, c.LevelOK := by
  refine ⟨.inr (.inr ⟨⟨?_, ?_⟩, ?_⟩), ?_⟩
  · simp [exSums, exAddText, CompEv.stmts, Cmd.names]
  · simp [exSums, exAddText, CompEv.stmts, Cmd.names]
  · intro c; revert c; simp [exSums, exAddText, CompEv.stmts, Cmd.isClone]
  · simp [exSums, exAddText, CompEv.stmts, Cmd.LevelOK, ApiOp.LevelOK]

/-- 123 + 45 and 7123 + 45. -/
example : ∃ as, CompAnswers adderRun AdderSpaces.empty exSums (.ok as) ∧ CompAns.results as = [some [168], some [7168]] ∧
    ∃ vs, LCompEvs (fun l b => ∃ s, b = some s ∧ Eval.Adder.nonInc (⟨l, ()⟩ : Eval.EvalVec Char Unit) () = .ok s.elems.reverse) [] exSums as vs := by
  obtain ⟨h1, h2⟩ := exSums_ok
  have key := C75_client h1 h2
  have he : (compAnswers (fun t => (adderScratch t).map some) exSums).map CompAns.results = .ok [some [168], some [7168]] := by decide +kernel
  cases hr : compAnswers (fun t => (adderScratch t).map some) exSums with
  | error q => rw [hr] at he; cases he
  | ok as =>
    rw [hr] at he key
    exact ⟨as, key, Except.ok.inj he, C75_lists h1 h2 key⟩

/-- A text that the adder does not understand. -/
example : CompAnswers adderRun AdderSpaces.empty (exSums ++ [.stmt (.op 0 .focusLeft), .stmt (.op 0 (.pushR 'x')), .stmt (.op 0 .unfocus), .run (.str "a") 0])
    (.error .explicit) := by
  have key := C75_client (l := exSums ++ [.stmt (.op 0 .focusLeft), .stmt (.op 0 (.pushR 'x')), .stmt (.op 0 .unfocus), .run (.str "a") 0])
    (by
      refine .inr (.inr ⟨⟨?_, ?_⟩, ?_⟩)
      · simp [exSums, exAddText, CompEv.stmts, Cmd.names]
      · simp [exSums, exAddText, CompEv.stmts, Cmd.names]
      · intro c; revert c; simp [exSums, exAddText, CompEv.stmts, Cmd.isClone])
    (by simp [exSums, exAddText, CompEv.stmts, Cmd.LevelOK, ApiOp.LevelOK])
  have he : (compAnswers (fun t => (adderScratch t).map some)
      (exSums ++ [.stmt (.op 0 .focusLeft), .stmt (.op 0 (.pushR 'x')), .stmt (.op 0 .unfocus), .run (.str "a") 0])).map (fun _ => ()) =
      .error .explicit := by decide +kernel
  cases hr : compAnswers (fun t => (adderScratch t).map some)
      (exSums ++ [.stmt (.op 0 .focusLeft), .stmt (.op 0 (.pushR 'x')), .stmt (.op 0 .unfocus), .run (.str "a") 0]) with
  | error q => rw [hr] at he key; cases he; exact key
  | ok as => rw [hr] at he; cases he

/-- The conditions of `C75_again` and `C75_at_most_size` after a run. -/
example : ∃ (S : AdderSpaces) (v : Tree (Tr × TreeData Char Count)) (σ : RMem Char Count) (t : HTree Count), AdderRan S ∧
    View σ t.tree v ∧ (nodeNames v).Nodup ∧ EndsInLeaves (plain v) ∧ v.size = 5 ∧
    ∃ a S' f0 y, (∀ f, f0 ≤ f → adderIn t S f σ = .ok ((a, S'), σ)) ∧ AView S'.parse.mem a y ∧ y.elems = [168] := by
  have hrun : (do
      let (vs, _) ← Vars.run (M := Count) [] exAddText
      match (vs[0]? : Option (Option (St Char Count))) with
      | some (some (.tree t)) => do
        let a ← adderScratch ⟨⟨0⟩, t.tree⟩
        return (t.tree.size, chunked t.tree, a.elems)
      | _ => .error .explicit : P (Nat × Bool × List Nat)) = .ok (5, true, [168]) := by decide +kernel
  obtain ⟨⟨vs, os⟩, h1, h⟩ := bind_ok.1 hrun
  simp only at h
  split at h
  · next t ht =>
    obtain ⟨y, h2, h⟩ := bind_ok.1 h
    have hxs : t.tree.size = 5 ∧ chunked t.tree = true ∧ y.elems = [168] := by
      have := Prod.mk.inj (Except.ok.inj h)
      exact ⟨this.1, Prod.mk.inj this.2⟩
    obtain ⟨hvs, σ, -, h3⟩ := C58_reachable (M := Count) (cs := exAddText) (by constructor <;> simp [exAddText, Cmd.names])
      (by intro c; revert c; simp [exAddText, Cmd.isClone]) h1
    obtain ⟨mt, h, v, -, k2, k3, k4⟩ := h3 0 t ht
    have hs : v.size = 5 := by rw [← plain_size, k3, hxs.1]
    have hc : Chunked (plain v) := by rw [k3]; exact Chunked.of hxs.2.1
    rw [← k3] at h2
    obtain ⟨a, S', f0, a1, a2⟩ := (C75_again .start (t := ⟨⟨0⟩, h⟩) k2 k4 hc.ends ⟨0⟩).2 y h2
    have hS := AdderRan.run .start k2 k4 hc.ends a1
    obtain ⟨a, S'', f0, b1, b2⟩ := (C75_again hS (t := ⟨⟨0⟩, h⟩) k2 k4 hc.ends ⟨0⟩).2 y h2
    exact ⟨S', v, σ, ⟨⟨0⟩, h⟩, hS, k2, k4, hc.ends, hs, a, S'', f0, y, b1, b2, hxs.2.2⟩
  · cases h

end Iodyn.Incr
