import Verif.Spec.MeanTokens
import Verif.Props.MeanDriver
import Verif.Props.OpenBatches
/-
C102: the mean work of `tokenize` between batches of edits and in sessions of the test driver, over all random levels.
-/
namespace Iodyn.Incr
open Iodyn.Heap Iodyn.Eval
open Eval.Adder (Token vecAccum stackAccum tokenizeStep tokenizeMeta lift)
variable {M G B : Type}

/-! ### The tokens of a text -/

theorem open_small {o : Option Nat} (h : o.getD 0 < 100000) (c : Char) : (openStep o c).getD 0 < 100000 := by
  unfold openStep
  cases hd : digitOf c with
  | none => exact Nat.zero_lt_succ _
  | some d =>
    have hd9 : d ≤ 9 := by
      unfold digitOf at hd
      split at hd
      · next hc =>
        cases hd
        have : c.toNat ≤ '9'.toNat := hc.2
        have : '9'.toNat = 57 := rfl
        have : '0'.toNat = 48 := rfl
        omega
      · cases hd
    simp only
    split
    · simp only [Option.getD_some]; omega
    · simp only [Option.getD_some]; omega

theorem vec_step {o : Option Nat} (ho : o.getD 0 < 100000) {c : Char} (hc : readable [c] = true) (ts : List Token) :
    tokenizeStep (vecAccum Token) (ts, o) c = .ok (ts ++ tokensAt o c, openStep o c) := by
  unfold tokenizeStep tokensAt openStep
  rw [Op.toDigit_eq]
  cases hd : digitOf c with
  | some d =>
    have hs := open_small ho c
    have hd9 : d ≤ 9 := by
      unfold digitOf at hd
      split at hd
      · next hc =>
        cases hd
        have : c.toNat ≤ '9'.toNat := hc.2
        have : '9'.toNat = 57 := rfl
        have : '0'.toNat = 48 := rfl
        omega
      · cases hd
    have hg : Eval.Adder.growOpt o d = .ok (10 * o.getD 0 + d) := by
      cases o with
      | none => simp [Eval.Adder.growOpt]
      | some q =>
        simp only [Option.getD_some] at ho
        simp only [Eval.Adder.growOpt, Eval.Adder.grow, Option.getD_some]
        rw [if_pos (by simp [u32Max]; omega)]
        congr 1; omega
    simp only [hg, bind, Except.bind]
    split <;> simp [vecAccum, pure, Except.pure]
  | none =>
    simp only [readable, List.all_cons, hd, Option.isSome_none, Bool.false_or, List.all_nil, Bool.and_true, Bool.or_eq_true, beq_iff_eq] at hc
    cases o with
    | none => rcases hc with rfl | rfl <;> simp [vecAccum, pure, Except.pure]
    | some q => rcases hc with rfl | rfl <;> simp [vecAccum, pure, Except.pure]

theorem vec_tokens : ∀ {text : List Char} {o : Option Nat} (ts : List Token), o.getD 0 < 100000 → readable text = true →
    text.foldl (lift (tokenizeStep (vecAccum Token))) (.ok (ts, o)) = .ok (ts ++ tokensIn o text, openAfter o text)
  | [], o, ts, _, _ => by simp [tokensIn, openAfter]
  | c :: text, o, ts, ho, hr => by
    simp only [readable, List.all_cons, Bool.and_eq_true] at hr
    rw [List.foldl_cons]
    have e : lift (tokenizeStep (vecAccum Token)) (.ok (ts, o)) c = .ok (ts ++ tokensAt o c, openStep o c) :=
      vec_step ho (by simpa [readable] using hr.1) ts
    rw [e, vec_tokens (text := text) (o := openStep o c) (ts ++ tokensAt o c) (open_small ho c) hr.2]
    simp [tokensIn, openAfter]

/-- `tokenize` from scratch. -/
theorem tok_scratch [RazMeta Char M] {t : RazTree Char M} (hr : t.Reachable .any) (ht : readable t.elems = true) :
    ∃ b, tokScratch t = .ok b ∧ b.1.elems.reverse = tokensIn none t.elems ∧ b.2 = openAfter none t.elems := by
  have hm : ∀ m ∈ marksOf t.items, 1 ≤ m.1 := by
    intro m h
    rcases (Reach.t hr).inv.wf with hn | hw
    · simp [RazTree.items, hn, marksOf] at h
    · exact (Eval.Adder.wf_marks hw m h)
  have h1 : Eval.Adder.Same (fun s v => Eval.Adder.HoldsOf (1 ≤ ·) s.1 v.1 ∧ s.2 = v.2)
      (foldItems (lift (tokenizeStep (stackAccum Token))) (fun a m => a.map (fun st => tokenizeMeta (stackAccum Token) st m))
        (.ok ((stackAccum Token).new, none)) t.items)
      (t.elems.foldl (lift (tokenizeStep (vecAccum Token))) (.ok ((vecAccum Token).new, none))) :=
    Eval.Adder.foldItems_same (R := fun (s : AStack Token Nat × Option Nat) (v : List Token × Option Nat) => Eval.Adder.HoldsOf (1 ≤ ·) s.1 v.1 ∧ s.2 = v.2) (mt := tokenizeMeta (stackAccum Token))
      (fun s v e h => Eval.Adder.tokenizeStep_same h e) (fun s v h m hx => ⟨Eval.Adder.holds_archive h.1 m.2 (hm m hx), h.2⟩)
      (show Eval.Adder.Same _ (.ok _) (.ok _) from (⟨Eval.Adder.holds_new, rfl⟩ : Eval.Adder.HoldsOf _ _ _ ∧ none = none))
  rw [← C13_fold_lr_meta hr, show (vecAccum Token).new = [] from rfl, vec_tokens [] (by decide) ht] at h1
  have e : tokScratch t = t.foldLrMeta (.ok ((stackAccum Token).new, none)) (lift (tokenizeStep (stackAccum Token)))
      (fun a m => a.map (fun st => tokenizeMeta (stackAccum Token) st m)) := rfl
  rw [← e] at h1
  cases hb : tokScratch t with
  | error q => rw [hb] at h1; exact h1.elim
  | ok b =>
    rw [hb] at h1
    exact ⟨b, rfl, by simpa using h1.1.2, h1.2⟩

/-! ### Legible texts -/

theorem tokensAt_none {o : Option Nat} {c : Char} : (!(tokensAt o c).isEmpty) = true ↔ completes o c := by
  unfold tokensAt completes
  cases hd : digitOf c with
  | some d => simp only; split <;> simp_all
  | none =>
    simp only
    cases o with
    | none => by_cases hc : c = '+' <;> simp [hc]
    | some q => simp

theorem legible_text : ∀ {text : List Char} {o : Option Nat} {s d : Bool},
    legibleText o s d (text.map .elem) = true ↔ (s = true ∨ Speaks o text) ∧ (d = true ∨ ∃ c ∈ text, digitOf c = none)
  | [], o, s, d => by simp [legibleText, Speaks]
  | c :: text, o, s, d => by
    rw [List.map_cons, legibleText, legible_text (text := text)]
    simp only [Bool.or_eq_true, tokensAt_none, Speaks, Option.isNone_iff_eq_none, List.mem_cons, or_assoc]
    refine and_congr Iff.rfl (or_congr Iff.rfl ⟨?_, ?_⟩)
    · rintro (h | ⟨c', h1, h2⟩)
      · exact ⟨c, .inl rfl, h⟩
      · exact ⟨c', .inr h1, h2⟩
    · rintro ⟨c', rfl | h1, h2⟩
      · exact .inl h2
      · exact .inr ⟨c', h1, h2⟩

theorem legible_cut {lv : Nat} {nm : Option Name} {b : List (Item Char)} : ∀ {a : List (Item Char)} {o : Option Nat} {s d : Bool},
    legibleText o s d (a ++ .mark lv nm :: b) = (legibleText o s d a && legibleText (openAfter o (elemsOf a)) false false b)
  | [], o, s, d => rfl
  | .elem c :: a, o, s, d => by
    have e : elemsOf (.elem c :: a) = c :: elemsOf a := rfl
    rw [List.cons_append, legibleText, legible_cut (a := a), legibleText, e]
    rfl
  | .mark _ _ :: a, o, s, d => by
    rw [List.cons_append, legibleText, legible_cut (a := a), legibleText, ← Bool.and_assoc]
    rfl
  | .pend _ _ :: a, o, s, d => by
    rw [List.cons_append, legibleText, legible_cut (a := a), legibleText, ← Bool.and_assoc]
    rfl

theorem legible_wf [RazMeta Char M] {t : Tree (TreeData Char M)} (h : WF t) (o : Option Nat) :
    (Speaking o t ∧ Separated t) ↔ legibleText o false false t.items = true := by
  induction h generalizing o with
  | leaf v =>
    have : (Tree.items (.node 0 none (.leaf v) .nil .nil : Tree (TreeData Char M))) = v.map .elem := rfl
    rw [show Tree.items _ = v.map Item.elem from rfl, legible_text]
    simp only [Bool.false_eq_true, false_or]
    constructor
    · rintro ⟨⟨h1, -⟩, h2, -⟩
      obtain ⟨t1, e1, h1⟩ := h1 rfl rfl
      obtain ⟨t2, e2, h2⟩ := h2 rfl rfl
      cases e1
      cases e2
      exact ⟨h1, h2⟩
    · rintro ⟨h1, h2⟩
      exact ⟨⟨fun _ _ => ⟨v, rfl, h1⟩, trivial, trivial⟩, fun _ _ => ⟨v, rfl, h2⟩, trivial, trivial⟩
  | @branch lv nm l r _ hl hr ihl ihr =>
    rw [show Tree.items _ = l.items ++ .mark lv nm :: r.items from rfl, legible_cut, Bool.and_eq_true, ← ihl, ← ihr, ← carried_items hl]
    constructor
    · rintro ⟨⟨-, h1, h2⟩, -, h3, h4⟩
      exact ⟨⟨h1, h3⟩, h2, h4⟩
    · rintro ⟨⟨h1, h3⟩, h2, h4⟩
      have hne : l ≠ .nil := by rintro rfl; cases hl
      exact ⟨⟨fun e => absurd e hne, h1, h2⟩, fun e => absurd e hne, h3, h4⟩

theorem legible_at (f : Nat → Nat) : ∀ {l : List (Item Char)} {o : Option Nat} {s d : Bool}, legibleText o s d (l.map (Item.at f)) = legibleText o s d l
  | [], _, _, _ => rfl
  | .elem c :: l, o, s, d => by
    rw [List.map_cons, Item.at, legibleText, legibleText, legible_at f]
  | .mark _ _ :: l, o, s, d => by
    rw [List.map_cons, Item.at, legibleText, legibleText, legible_at f]
  | .pend _ _ :: l, o, s, d => by
    rw [List.map_cons, Item.at, legibleText, legibleText, legible_at f]

/-- Whether a text is legible does not depend on the levels. -/
theorem legible_stands {f : Nat → Nat} {t : RazTree Char Count} {items : List (Item Char)} (h : Stands f t items) : Legible t ↔ legibleText none false false items = true := by
  have e : t.tree.items = items.map (Item.at f) := h.eq
  rw [Legible, legible_wf (h.inv.wf.resolve_left h.full), e, legible_at]

theorem legible_edits {f : Nat → Nat} (hf : ∀ k, 1 ≤ f k) : ∀ (l : List (Nat × List (LOp Char))) {t : RazTree Char Count} {items : List (Item Char)}, Stands f t items → t.Reachable .edit →
    localList items l = true → legibleList items l = true → t.LegibleEdits (editsAt f l)
  | [], t, items, _, _, _, _ => trivial
  | (i, ops) :: l, t, items, h, hr, hl, hg => by
    simp only [localList, Bool.and_eq_true, decide_eq_true_eq] at hl
    simp only [legibleList, Bool.and_eq_true] at hg
    obtain ⟨t1, e1, e2, e3⟩ := stands_next hf h hr hl.1.1.1 hl.1.1.2 hl.1.2
    intro t' ht
    rw [show t.edit i (ops.map (LOp.at f)) = .ok t1 from e1] at ht
    cases ht
    exact ⟨(legible_stands e3).2 hg.1, legible_edits hf l e3 e2 hl.2 hg.2⟩

theorem legible_batches {f : Nat → Nat} (hf : ∀ k, 1 ≤ f k) : ∀ (l : List (List (Nat × List (LOp Char)))) {t : RazTree Char Count} {items : List (Item Char)}, Stands f t items → t.Reachable .edit →
    localLists items l = true → legibleLists items l = true → t.LegibleBatches (l.map (editsAt f))
  | [], t, items, _, _, _, _ => trivial
  | es :: l, t, items, h, hr, hl, hg => by
    simp only [localLists, Bool.and_eq_true] at hl
    simp only [legibleLists, Bool.and_eq_true] at hg
    obtain ⟨t1, e1, e2, e3, e4⟩ := deep_edits hf es h hr hl.1
    refine ⟨legible_edits hf es h hr hl.1 hg.1, fun t' k he => ?_⟩
    rw [e1] at he
    cases he
    exact legible_batches hf l e3 e2 hl.2 hg.2

/-! ### Batches of edits -/

theorem tokSteps_mean {n : Nat} (h63 : n ≤ 2 ^ 63) {es : List (Nat × List (LOp Char))} {items : List (Item Char)} (hs : (levelsOf items ++ restSlots es).Nodup)
    (hn : ∀ k ∈ levelsOf items ++ restSlots es, k < n) (hl : localList items es = true) :
    ∑ w : Fin n → Fin (2 ^ 64), (6 * stepsAt (drawn w) items es + 1) ≤ (2 ^ 64) ^ n * tokLog items es := by
  have h1 := deepSum_mean (φ := id) (B := sixLogs (peak items es) + 2) (fun l h1 h2 h3 => by
    refine Nat.le_trans (depth_mean h63 h1 h2) (Nat.mul_le_mul_left _ ?_)
    have := sixLogs_mono h3
    omega) es hs hn hl (Nat.le_refl _)
  have hc : ∀ c : Nat, ∑ _w : Fin n → Fin (2 ^ 64), c = (2 ^ 64) ^ n * c := fun c => by
    rw [Finset.sum_const, Finset.card_univ, Fintype.card_fun, Fintype.card_fin, Fintype.card_fin]; rfl
  unfold stepsAt tokLog
  rw [Finset.sum_add_distrib, ← Finset.mul_sum, Finset.sum_add_distrib, hc, hc]
  generalize (2 ^ 64) ^ n = N at *
  calc _ ≤ 6 * (N * (es.length * (sixLogs (peak items es) + 2)) + N * pointsOf es) + N * 1 := by omega
    _ = _ := by ring

theorem tokStepsAts_mean {n : Nat} (h63 : n ≤ 2 ^ 63) : ∀ (l : List (List (Nat × List (LOp Char)))) {items : List (Item Char)}, (levelsOf items ++ batchSlots l).Nodup →
    (∀ k ∈ levelsOf items ++ batchSlots l, k < n) → localLists items l = true → ∀ j : Nat,
    ∑ w : Fin n → Fin (2 ^ 64), ((stepsAts (drawn w) items l)[j]?.elim 0 fun k => 6 * k + 1) ≤ (2 ^ 64) ^ n * ((tokLogs items l)[j]?.elim 0 id)
  | [], items, hs, hn, hl, j => by simp [stepsAts, tokLogs]
  | es :: l, items, hs, hn, hl, j => by
    simp only [localLists, Bool.and_eq_true] at hl
    have hb : batchSlots (es :: l) = restSlots es ++ batchSlots l := rfl
    rw [hb] at hs hn
    have hc := nodup_slots hs
    simp only [List.count_append] at hc
    have h1 : (levelsOf items ++ restSlots es).Nodup := slots_nodup fun x => by have := hc x; simp only [List.count_append]; omega
    have h2 : ∀ k ∈ levelsOf items ++ restSlots es, k < n := fun k hk => hn k (by simp only [List.mem_append] at hk ⊢; tauto)
    cases j with
    | zero =>
      simp only [stepsAts, tokLogs, List.getElem?_cons_zero, Option.elim_some, id_eq]
      exact tokSteps_mean h63 h1 h2 hl.1
    | succ j =>
      have h3 := (edits_mean h63 es h1 h2 hl.1).2
      simp only [stepsAts, tokLogs, List.getElem?_cons_succ]
      refine tokStepsAts_mean h63 l (slots_nodup fun x => ?_) (fun k hk => hn k (List.count_pos_iff.1 ?_)) hl.2 j
      · have := hc x; have := h3 x; simp only [List.count_append] at *; omega
      · have := List.count_pos_iff.2 hk; have := h3 k; simp only [List.count_append] at *; omega

/-- As `reruns_map`, if the value may not exist. -/
theorem reruns_val {B : Type} {val : RazTree Char Count → P B} : ∀ {l : List (List (Nat × List (LOp Char)))} {t : RazTree Char Count} {rest},
    t.reruns (fun t => .ok t) l = .ok rest → (∀ q ∈ rest, ∃ b, val q.1 = .ok b) →
    ∃ rest', t.reruns val l = .ok rest' ∧ List.Forall₂ (fun q q' => val q.1 = .ok q'.1 ∧ q.2 = q'.2) rest rest'
  | [], t, rest, h, _ => by cases h; exact ⟨[], rfl, .nil⟩
  | es :: l, t, rest, h, hv => by
    unfold RazTree.reruns at h
    obtain ⟨⟨t', k⟩, e1, h⟩ := bind_ok.1 h
    obtain ⟨b, e2, h⟩ := bind_ok.1 h
    obtain ⟨rest', e3, hfin⟩ := bind_ok.1 h
    cases e2
    cases hfin
    obtain ⟨b', hb⟩ := hv _ List.mem_cons_self
    obtain ⟨rest2, f1, f2⟩ := reruns_val e3 fun q hq => hv q (List.mem_cons_of_mem _ hq)
    exact ⟨_, bind_ok.2 ⟨(t', k), e1, bind_ok.2 ⟨b', hb, bind_ok.2 ⟨_, f1, rfl⟩⟩⟩, .cons ⟨hb, rfl⟩ f2⟩

/-- `tokenize` after batches costs what the depths of the trees and the points added say. -/
theorem tok_steps {ops : List (LOp Char)} {l : List (List (Nat × List (LOp Char)))} (hn : (LOp.cells ops ++ batchCells l).Nodup)
    (hst : .str "start" ∉ LOp.cells ops ++ batchCells l) (hl : localAll ops l = true) (hti : ∀ op ∈ ops, op.Titles)
    (hti' : ∀ es ∈ l, ∀ q ∈ es, ∀ op ∈ q.2, op.Titles) (hg : legibleText none false false (closed (onSides ([], []) ops)) = true)
    (hg' : legibleLists (closed (onSides ([], []) ops)) l = true)
    (hrd : ∀ its ∈ closed (onSides ([], []) ops) :: stages (closed (onSides ([], []) ops)) l, readable (elemsOf its) = true)
    {n : Nat} (σ : RMem Char Count) :
    ∀ w : Fin n → Fin (2 ^ 64), ∃ q : (ASt Token × Option Nat) × Nat × LSpace Char Count Token Count (ASt Token × Option Nat) ×
        List ((ASt Token × Option Nat) × Nat × LSpace Char Count Token Count (ASt Token × Option Nat)),
      ((∃ f0, ∀ m, f0 ≤ m → (hrerunSession (M := Count) countedTok Space.empty (ops.map (LOp.at (drawn w))) (l.map (editsAt (drawn w))) m σ).map (·.1) = .ok q) ∧
        Tokens (elemsOf (closed (onSides ([], []) ops))) q.2.2.1.mem q.1 ∧
        q.2.1 ≤ 2 * (marksOf (closed (onSides ([], []) ops))).length + 1 ∧
        List.Forall₂ (fun (its : List (Item Char)) (o : (ASt Token × Option Nat) × Nat × LSpace Char Count Token Count (ASt Token × Option Nat)) =>
          Tokens (elemsOf its) o.2.2.mem o.1) (stages (closed (onSides ([], []) ops)) l) q.2.2.2) ∧
      ∀ j : Nat, (q.2.2.2[j]?.elim 0 fun o => o.2.1) ≤ ((stepsAts (drawn w) (closed (onSides ([], []) ops)) l)[j]?.elim 0 fun k => 6 * k + 1) := by
  intro w
  obtain ⟨t, rest, r1, r2, r3, r4, r5⟩ := deep_session (drawn_one w) hl
  rw [← cells_at (drawn w)] at hn hst
  unfold rerunSession at r1
  obtain ⟨z, e1, hr⟩ := bind_ok.1 r1
  obtain ⟨t', e2, hr⟩ := bind_ok.1 hr
  obtain ⟨x, e3, hr⟩ := bind_ok.1 hr
  obtain ⟨rest', e4, hfin⟩ := bind_ok.1 hr
  cases e3
  simp only [pure, Except.pure, Except.ok.injEq, Prod.mk.injEq] at hfin
  obtain ⟨rfl, hsz, rfl⟩ := hfin
  have hel : t'.elems = elemsOf (closed (onSides ([], []) ops)) := by rw [RazTree.elems, r4.eq, at_elems]
  obtain ⟨b, b1, b2, b3⟩ := tok_scratch r3.any (by rw [hel]; exact hrd _ List.mem_cons_self)
  have htr := r5.trees
  have hread : ∀ q ∈ rest', ∃ b, tokScratch q.1 = .ok b := by
    intro q hq
    have : ∀ {its : List (List (Item Char))} {rest : List (RazTree Char Count × Nat × Nat)},
        List.Forall₂ (fun (its : List (Item Char)) (q : RazTree Char Count × Nat × Nat) => q.1.Reachable .edit ∧ q.1.elems = elemsOf its) its rest →
        q ∈ rest → ∃ i ∈ its, q.1.Reachable .edit ∧ q.1.elems = elemsOf i := by
      intro its rest h
      induction h with
      | nil => intro h; cases h
      | cons e _ ih =>
        intro hq
        rcases List.mem_cons.1 hq with rfl | hq
        · exact ⟨_, List.mem_cons_self, e⟩
        · obtain ⟨i, h1, h2⟩ := ih hq
          exact ⟨i, List.mem_cons_of_mem _ h1, h2⟩
    obtain ⟨i, h1, h2, h3⟩ := this htr hq
    obtain ⟨b, hb, -⟩ := tok_scratch h2.any (by rw [h3]; exact hrd _ (List.mem_cons_of_mem _ h1))
    exact ⟨b, hb⟩
  obtain ⟨rest2, f1, f2⟩ := reruns_val e4 hread
  have hr' : rerunSession (M := Count) tokScratch (ops.map (LOp.at (drawn w))) (l.map (editsAt (drawn w))) = .ok (b, t'.tree.size, rest2) :=
    bind_ok.2 ⟨z, e1, bind_ok.2 ⟨t', e2, bind_ok.2 ⟨_, b1, bind_ok.2 ⟨_, f1, rfl⟩⟩⟩⟩
  have hl' := hl
  simp only [localAll, Bool.and_eq_true] at hl'
  have hleg : LegibleReruns (M := Count) (ops.map (LOp.at (drawn w))) (l.map (editsAt (drawn w))) := by
    intro z' t2 k1 k2
    rw [e1] at k1
    cases k1
    rw [e2] at k2
    cases k2
    exact ⟨(legible_stands r4).2 hg, legible_batches (drawn_one w) l r4 r3 hl'.2 hg'⟩
  obtain ⟨a, work, s, outs, f0, g1, g2, g3, g4⟩ := C101_batches hn hst (at_titles (drawn w) hti) (titles_at (drawn w) hti') r2 hleg hr' σ
  refine ⟨(a, work, s, outs), ⟨⟨f0, g1⟩, ⟨b, g2, by rw [b2, hel], by rw [b3, hel]⟩, ?_, ?_⟩, fun j => ?_⟩
  · rw [hsz] at g3
    simpa [levelsOf] using g3
  · have key : ∀ {its : List (List (Item Char))} {rest : List (RazTree Char Count × Nat × Nat)} {rest2 : List ((AStack Token Nat × Option Nat) × Nat × Nat)}
        {os : List ((ASt Token × Option Nat) × Nat × LSpace Char Count Token Count (ASt Token × Option Nat))},
        (∀ i ∈ its, readable (elemsOf i) = true) →
        List.Forall₂ (fun (its : List (Item Char)) (q : RazTree Char Count × Nat × Nat) => q.1.Reachable .edit ∧ q.1.elems = elemsOf its) its rest →
        List.Forall₂ (fun q q' => tokScratch q.1 = .ok q'.1 ∧ q.2 = q'.2) rest rest2 →
        List.Forall₂ (fun (q : (AStack Token Nat × Option Nat) × Nat × Nat) (o : (ASt Token × Option Nat) × Nat × LSpace Char Count Token Count (ASt Token × Option Nat)) =>
          HoldsTokens o.2.2.mem o.1 q.1 ∧ o.2.1 ≤ 6 * q.2.1 + 1) rest2 os →
        List.Forall₂ (fun (its : List (Item Char)) (o : (ASt Token × Option Nat) × Nat × LSpace Char Count Token Count (ASt Token × Option Nat)) =>
          Tokens (elemsOf its) o.2.2.mem o.1) its os := by
      intro its rest rest2 os hi h
      induction h generalizing rest2 os with
      | nil => intro h1 h2; cases h1; cases h2; exact .nil
      | cons e _ ih =>
        intro h1 h2
        cases h1 with
        | cons e1 h1 =>
          cases h2 with
          | cons e2 h2 =>
            refine .cons ?_ (ih (fun i hi' => hi i (List.mem_cons_of_mem _ hi')) h1 h2)
            obtain ⟨b, k1, k2, k3⟩ := tok_scratch e.1.any (by rw [e.2]; exact hi _ List.mem_cons_self)
            rw [e1.1] at k1
            cases k1
            exact ⟨_, e2.1, by rw [k2, e.2], by rw [k3, e.2]⟩
    exact key (fun i hi => hrd i (List.mem_cons_of_mem _ hi)) htr f2 g4
  · rw [← r5.steps]
    have key : ∀ {rest : List (RazTree Char Count × Nat × Nat)} {rest2 : List ((AStack Token Nat × Option Nat) × Nat × Nat)}
        {os : List ((ASt Token × Option Nat) × Nat × LSpace Char Count Token Count (ASt Token × Option Nat))},
        List.Forall₂ (fun q q' => tokScratch q.1 = .ok q'.1 ∧ q.2 = q'.2) rest rest2 →
        List.Forall₂ (fun (q : (AStack Token Nat × Option Nat) × Nat × Nat) (o : (ASt Token × Option Nat) × Nat × LSpace Char Count Token Count (ASt Token × Option Nat)) =>
          HoldsTokens o.2.2.mem o.1 q.1 ∧ o.2.1 ≤ 6 * q.2.1 + 1) rest2 os →
        ∀ j : Nat, (os[j]?.elim 0 fun o => o.2.1) ≤ ((rest.map fun q => q.2.1)[j]?.elim 0 fun k => 6 * k + 1) := by
      intro rest rest2 os h
      induction h generalizing os with
      | nil => intro h j; cases h; simp
      | cons e0 _ ih =>
        intro h j
        cases h with
        | cons e h =>
          cases j with
          | zero =>
            rw [← e0.2] at e
            simpa using e.2
          | succ j => simpa using ih h j
    exact key f2 g4 j

/-- **C102, between batches.** A text is made with the zipper and split into tokens with stored calls, and again after each of any number of batches of local edits. Then with
all random levels the tokens are those of the text, and in the mean over all random numbers the run after batch `j` visits at most `tokLogs` nodes: `36 * log (m + 2) + 12`
for each edit, with `m` the greatest number of archive points, and 6 for each new archive point. The cells have different names, none of them `start`; the texts have only
digits, plus signs and commas, and in each part between archive points some token is complete and some number ends. -/
theorem C102_batches {ops : List (LOp Char)} {l : List (List (Nat × List (LOp Char)))} (hn : (LOp.cells ops ++ batchCells l).Nodup)
    (hst : .str "start" ∉ LOp.cells ops ++ batchCells l) (hl : localAll ops l = true) (hti : ∀ op ∈ ops, op.Titles)
    (hti' : ∀ es ∈ l, ∀ q ∈ es, ∀ op ∈ q.2, op.Titles) (hg : legibleText none false false (closed (onSides ([], []) ops)) = true)
    (hg' : legibleLists (closed (onSides ([], []) ops)) l = true)
    (hrd : ∀ its ∈ closed (onSides ([], []) ops) :: stages (closed (onSides ([], []) ops)) l, readable (elemsOf its) = true)
    {n : Nat} (h63 : n ≤ 2 ^ 63) (hs : (LOp.slots ops ++ batchSlots l).Nodup)
    (hk : ∀ k ∈ LOp.slots ops ++ batchSlots l, k < n) (σ : RMem Char Count) :
    ∃ (a : (Fin n → Fin (2 ^ 64)) → ASt Token × Option Nat) (work : (Fin n → Fin (2 ^ 64)) → Nat)
      (s : (Fin n → Fin (2 ^ 64)) → LSpace Char Count Token Count (ASt Token × Option Nat))
      (outs : (Fin n → Fin (2 ^ 64)) → List ((ASt Token × Option Nat) × Nat × LSpace Char Count Token Count (ASt Token × Option Nat))),
      (∀ w, (∃ f0, ∀ m, f0 ≤ m → (hrerunSession (M := Count) countedTok Space.empty (ops.map (LOp.at (drawn w))) (l.map (editsAt (drawn w))) m σ).map (·.1) =
          .ok (a w, work w, s w, outs w)) ∧
        Tokens (elemsOf (closed (onSides ([], []) ops))) (s w).mem (a w) ∧
        work w ≤ 2 * (marksOf (closed (onSides ([], []) ops))).length + 1 ∧
        List.Forall₂ (fun (its : List (Item Char)) (o : (ASt Token × Option Nat) × Nat × LSpace Char Count Token Count (ASt Token × Option Nat)) =>
          Tokens (elemsOf its) o.2.2.mem o.1) (stages (closed (onSides ([], []) ops)) l) (outs w)) ∧
      ∀ j : Nat, ∑ w, ((outs w)[j]?.elim 0 fun o => o.2.1) ≤ (2 ^ 64) ^ n * ((tokLogs (closed (onSides ([], []) ops)) l)[j]?.elim 0 id) := by
  have h1 := tok_steps (n := n) hn hst hl hti hti' hg hg' hrd σ
  choose q hq using h1
  refine ⟨fun w => (q w).1, fun w => (q w).2.1, fun w => (q w).2.2.1, fun w => (q w).2.2.2, fun w => (hq w).1, fun j => ?_⟩
  simp only [localAll, Bool.and_eq_true] at hl
  obtain ⟨s1, s2⟩ := start_slots hs hk
  exact Nat.le_trans (Finset.sum_le_sum fun w _ => (hq w).2 j) (tokStepsAts_mean h63 l s1 s2 hl.2 j)

/-! ### Sessions of the driver -/

theorem plain_some {val : RazTree Char Count → P B} {s : EvalRaz Char Count G} {t : RazTree Char Count} {b : B} (h1 : s.raztree = some t) (h2 : val t = .ok b) :
    plainly (T := Unit) (fun s : EvalRaz Char Count G => unwrap s.raztree >>= withTree val) () s = .ok ((), t, b) :=
  bind_ok.2 ⟨(t, b), bind_ok.2 ⟨t, by rw [h1]; rfl, bind_ok.2 ⟨b, h2, rfl⟩⟩, rfl⟩

/-- A session with another value of the trees. -/
theorem loop_val {R A : Type} {val : RazTree Char Count → P A} {val' : RazTree Char Count → P B} {edit : EvalRaz Char Count G → R → P (EvalRaz Char Count G × R)} : ∀ (m : Nat)
    {s : EvalRaz Char Count G} {rng rng' : R} {as : List (Unit × (RazTree Char Count × A))},
    Eval.testLoop edit (plainly (T := Unit) (fun s => unwrap s.raztree >>= withTree val)) m s () rng = .ok (as, rng') → (∀ a ∈ as, ∃ b, val' a.2.1 = .ok b) →
    ∃ bs, Eval.testLoop edit (plainly (T := Unit) (fun s => unwrap s.raztree >>= withTree val')) m s () rng = .ok (bs, rng') ∧
      List.Forall₂ (fun a b => a.2.1 = b.2.1 ∧ val' b.2.1 = .ok b.2.2) as bs
  | 0, s, rng, rng', as, h, _ => by cases h; exact ⟨[], rfl, .nil⟩
  | m + 1, s, rng, rng', as, h, hv => by
    unfold Eval.testLoop at h
    obtain ⟨⟨s1, r1⟩, e1, h⟩ := bind_ok.1 h
    obtain ⟨⟨u, t1, a⟩, e2, h⟩ := bind_ok.1 h
    obtain ⟨⟨as1, r2⟩, e3, hfin⟩ := bind_ok.1 h
    cases hfin
    obtain ⟨e4, e5⟩ := plain_answer e2
    obtain ⟨b, hb⟩ := hv _ List.mem_cons_self
    obtain ⟨bs, f1, f2⟩ := loop_val m e3 fun a ha => hv a (List.mem_cons_of_mem _ ha)
    exact ⟨_, bind_ok.2 ⟨(s1, r1), e1, bind_ok.2 ⟨((), t1, b), plain_some e4 hb, bind_ok.2 ⟨(bs, _), f1, rfl⟩⟩⟩, .cons ⟨rfl, hb⟩ f2⟩

theorem session_val {R A : Type} {val : RazTree Char Count → P A} {val' : RazTree Char Count → P B} {C : Coord G Char} {word : R → BitVec 64 × R} {p : Params} {coord : G}
    {rng rng' : R} {edit : EvalRaz Char Count G → R → P (EvalRaz Char Count G × R)} {as : List (RazTree Char Count × A)}
    (h : sessionV C word p coord rng edit (withTree val) = .ok (as, rng')) (hv : ∀ a ∈ as, ∃ b, val' a.1 = .ok b) :
    ∃ bs, sessionV C word p coord rng edit (withTree val') = .ok (bs, rng') ∧ List.Forall₂ (fun a b => a.1 = b.1 ∧ val' b.1 = .ok b.2) as bs := by
  unfold sessionV at h
  cases hx : Eval.test (createRaz C word p coord) edit (plainly (T := Unit) (fun s => unwrap s.raztree >>= withTree val)) p.changes () rng with
  | error q => rw [hx] at h; cases h
  | ok x =>
    obtain ⟨as0, r0⟩ := x
    rw [hx] at h
    cases h
    unfold Eval.test at hx
    obtain ⟨⟨s, r1⟩, e1, hx⟩ := bind_ok.1 hx
    obtain ⟨⟨u, t, a⟩, e2, hx⟩ := bind_ok.1 hx
    obtain ⟨⟨as1, r2⟩, e3, hfin⟩ := bind_ok.1 hx
    cases hfin
    obtain ⟨e4, e5⟩ := plain_answer e2
    obtain ⟨b, hb⟩ := hv (t, a) List.mem_cons_self
    obtain ⟨bs, f1, f2⟩ := loop_val p.changes e3 fun a ha => hv a.2 (List.mem_map.2 ⟨a, List.mem_cons_of_mem _ ha, rfl⟩)
    refine ⟨(t, b) :: bs.map Prod.snd, ?_, .cons ⟨rfl, hb⟩ ?_⟩
    · have e : Eval.test (createRaz C word p coord) edit (plainly (T := Unit) (fun s => unwrap s.raztree >>= withTree val')) p.changes () rng = .ok (((), t, b) :: bs, r0) :=
        bind_ok.2 ⟨(s, r1), e1, bind_ok.2 ⟨((), t, b), plain_some e4 hb, bind_ok.2 ⟨(bs, _), f1, rfl⟩⟩⟩
      unfold sessionV
      rw [e]
      rfl
    · have : ∀ {as : List (Unit × (RazTree Char Count × A))} {bs : List (Unit × (RazTree Char Count × B))},
          List.Forall₂ (fun a b => a.2.1 = b.2.1 ∧ val' b.2.1 = .ok b.2.2) as bs →
          List.Forall₂ (fun a b => a.1 = b.1 ∧ val' b.1 = .ok b.2) (as.map Prod.snd) (bs.map Prod.snd) := by
        intro as bs h
        induction h with
        | nil => exact .nil
        | cons e _ ih => exact .cons e ih
      exact this f2

theorem tokensAfter_get {A B Sp : Type} {Rel : B → A → Sp → Prop} {p : Params} {batch : Nat} : ∀ {l : List (RazTree Char Count × B)} {t : RazTree Char Count}
    {outs : List (A × Nat × Sp)}, tokensAfter p batch Rel t l outs → l.length = outs.length ∧ ∀ {j : Nat} {o : A × Nat × Sp} {b : B}, outs[j]? = some o →
      ∃ t0 b0 b1, ((t, b) :: l)[j]? = some (t0, b0) ∧ (∃ t1, l[j]? = some (t1, b1)) ∧ Rel b1 o.1 o.2.2 ∧ o.2.1 ≤ 2 * (3 * t0.tree.depth + batch / p.datagauge + 1) + 1
  | [], _, [], _ => ⟨rfl, fun h => by simp at h⟩
  | [], _, _ :: _, h => h.elim
  | _ :: _, _, [], h => h.elim
  | (t', b') :: l, t, (a, w, s) :: outs, h => by
    obtain ⟨h1, h2⟩ := tokensAfter_get h.2.2
    refine ⟨congrArg (· + 1) h1, fun {j o b} ho => ?_⟩
    cases j with
    | zero =>
      simp only [List.getElem?_cons_zero, Option.some.injEq] at ho
      subst ho
      exact ⟨t, b, b', rfl, ⟨t', rfl⟩, h.1, h.2.1⟩
    | succ j =>
      simp only [List.getElem?_cons_succ] at ho
      exact h2 (b := b') ho

theorem forall₂_left {A B : Type} {R : A → B → Prop} {l : List A} {l' : List B} (h : List.Forall₂ R l l') : ∀ a ∈ l, ∃ b ∈ l', R a b := by
  induction h with
  | nil => intro a ha; cases ha
  | cons e _ ih =>
    intro a ha
    rcases List.mem_cons.1 ha with rfl | ha
    · exact ⟨_, List.mem_cons_self, e⟩
    · obtain ⟨b, h1, h2⟩ := ih a ha
      exact ⟨b, List.mem_cons_of_mem _ h1, h2⟩

theorem forall₂_right {A B : Type} {R : A → B → Prop} {l : List A} {l' : List B} (h : List.Forall₂ R l l') : ∀ b ∈ l', ∃ a ∈ l, R a b := by
  induction h with
  | nil => intro a ha; cases ha
  | cons e _ ih =>
    intro a ha
    rcases List.mem_cons.1 ha with rfl | ha
    · exact ⟨_, List.mem_cons_self, e⟩
    · obtain ⟨b, h1, h2⟩ := ih a ha
      exact ⟨b, List.mem_cons_of_mem _ h1, h2⟩

/-- The work of `tokenize` in a session of the driver, from the depths of the trees. -/
theorem tok_depths (C : Coord G Char) {p : Params} (hp : InRange p) (hg : p.namegauge = 1) (hs : 0 < p.size) (h0 : 0 < p.batch) {o : Edit} (ho : Possible p o)
    (coord : G) {n : Nat} (hn : drawsOf p ≤ n) (h63 : n ≤ 2 ^ 63) {w0 : Fin n → Fin (2 ^ 64)} {ts : List (RazTree Char Count × Unit)} {r0 : Nat}
    (h1 : sessionV C (reads w0) p coord 0 (fun s r => o.run C (reads w0) s r) (withTree fun _ => .ok ()) = .ok (ts, r0))
    (hleg : ∀ t ∈ ts, Legible t.1 ∧ readable t.1.elems = true) :
    ∃ outs : (Fin n → Fin (2 ^ 64)) → List ((ASt Token × Option Nat) × Nat × LSpace Char Count Token Count (ASt Token × Option Nat)),
      ∀ w, (Ends (sessionH C (reads w) p coord 0 (editH C (reads w) o) (keeping countedTok) Space.empty) (.ok (outs w, drawsOf p)) ∧
        Matches C p coord o (fun text a => Tokens text a.2.2.mem a.1) (outs w) ∧
        ((outs w)[0]?.elim 0 fun a => a.2.1) ≤ 2 * (p.size / p.datagauge) + 1) ∧
      ∀ j, ((outs w)[j + 1]?.elim 0 fun a => a.2.1) ≤
        (((startSketch C p coord).items :: stages (startSketch C p coord).items ((startSketch C p coord).plans C p.datagauge o p.changes))[j]?.elim 0 fun its => 6 * deepest (levelsOf (its.map (Item.at (drawn w)))) + (2 * addsOf p + 1)) := by
  have hos : o.size = p.batch := by
    rcases ho with ⟨rfl, -⟩ | rfl <;> rfl
  have hm : p.size + p.changes * p.batch < usizeMax := by
    have := hp.counters
    rw [Nat.mul_add] at this
    omega
  obtain ⟨hsize, hslots⟩ := plan_facts C hs h0 hos coord hn h63 hm
  obtain ⟨-, k0⟩ := trees_session hg hs hos h0 hn hm h1
  generalize hplan : (startSketch C p coord).items :: stages (startSketch C p coord).items ((startSketch C p coord).plans C p.datagauge o p.changes) = plan at *
  have hplan' : ∀ its ∈ plan, legibleText none false false its = true ∧ readable (elemsOf its) = true := by
    intro its hi
    obtain ⟨t, q1, q2, q3⟩ := forall₂_left k0 its hi
    obtain ⟨q4, q5⟩ := hleg t q1
    exact ⟨(legible_stands q2).1 q4, by rw [RazTree.elems, q2.eq, at_elems] at q5; exact q5⟩
  have h1 : ∀ w : Fin n → Fin (2 ^ 64), ∃ outs : List ((ASt Token × Option Nat) × Nat × LSpace Char Count Token Count (ASt Token × Option Nat)),
      (Ends (sessionH C (reads w) p coord 0 (editH C (reads w) o) (keeping countedTok) Space.empty) (.ok (outs, drawsOf p)) ∧
        Matches C p coord o (fun text a => Tokens text a.2.2.mem a.1) outs ∧
        (outs[0]?.elim 0 fun a => a.2.1) ≤ 2 * (p.size / p.datagauge) + 1) ∧
      ∀ j, (outs[j + 1]?.elim 0 fun a => a.2.1) ≤
        (plan[j]?.elim 0 fun its => 6 * deepest (levelsOf (its.map (Item.at (drawn w)))) + (2 * addsOf p + 1)) := by
    intro w
    obtain ⟨ts, rng', k1, k2⟩ := sessionV_total (B := RazTree Char Count × Unit) (scratch := withTree fun _ => .ok ())
      (Q := fun xs a => a.1.elems = xs) C (reads w) p coord 0 hp ho (fun t hr => ⟨(t, ()), rfl, rfl⟩)
    obtain ⟨-, k6⟩ := trees_session hg hs hos h0 hn hm k1
    rw [hplan] at k6
    obtain ⟨as, k7, k8⟩ := session_val (val' := tokScratch) k1 (by
      intro t ht
      obtain ⟨its, q1, q2, q3⟩ := forall₂_right k6 t ht
      obtain ⟨b, hb, -⟩ := tok_scratch q3.any (by rw [RazTree.elems, q2.eq, at_elems]; exact (hplan' its q1).2)
      exact ⟨b, hb⟩)
    obtain ⟨k5, k9⟩ := trees_session hg hs hos h0 hn hm k7
    rw [hplan] at k9
    subst k5
    obtain ⟨outs, k3, k4⟩ := C101_session hs hg (by omega) k7 (by
      intro a ha
      obtain ⟨its, q1, q2, q3⟩ := forall₂_right k9 a ha
      exact (legible_stands q2).2 (hplan' its q1).1)
    have hread : ∀ (i : Nat) a, as[i]? = some a → a.2.1.elems.reverse = tokensIn none (sessionAt (o.spec C) C p.size coord i).1 ∧
        a.2.2 = openAfter none (sessionAt (o.spec C) C p.size coord i).1 := by
      intro i a ha
      obtain ⟨t, q1, q2, q3⟩ := forall₂_get k8 ha
      obtain ⟨its, r1, r2, r3⟩ := forall₂_get k9 ha
      have he : a.1.elems = (sessionAt (o.spec C) C p.size coord i).1 := by rw [← q2]; exact k2.2 i _ q1
      obtain ⟨b, hb, hb1, hb2⟩ := tok_scratch r3.any (by rw [RazTree.elems, r2.eq, at_elems]; exact (hplan' its (List.mem_of_getElem? r1)).2)
      rw [q3] at hb
      cases hb
      exact ⟨by rw [hb1, he], by rw [hb2, he]⟩
    cases as with
    | nil => exact k4.elim
    | cons a as =>
      cases outs with
      | nil => exact k4.elim
      | cons x outs =>
        obtain ⟨t, b⟩ := a
        obtain ⟨a, wk, s⟩ := x
        obtain ⟨q1, q2, q3⟩ := k4
        obtain ⟨q4, q5⟩ := tokensAfter_get q3
        refine ⟨_, ⟨k3, ⟨?_, fun i y hi => ?_⟩, ?_⟩, fun j => ?_⟩
        · have e1 := k2.1
          have e2 := k8.length_eq
          simp only [List.length_cons] at e1 e2 ⊢
          omega
        · cases i with
          | zero =>
            simp only [List.getElem?_cons_zero, Option.some.injEq] at hi
            subst hi
            exact ⟨b, q1, hread 0 (t, b) rfl⟩
          | succ i =>
            simp only [List.getElem?_cons_succ] at hi
            obtain ⟨t0, b0, b1, m1, ⟨t1, m2⟩, m3, m4⟩ := q5 (b := b) hi
            exact ⟨b1, m3, hread (i + 1) (t1, b1) (by simpa using m2)⟩
        · obtain ⟨its, i1, i2, i3⟩ := forall₂_get k9 (j := 0) rfl
          have r1 := (hsize 0 its i1).1
          simp only [List.getElem?_cons_zero, Option.elim]
          refine Nat.le_trans q2 ?_
          rw [tree_size (i2.inv.wf.resolve_left i2.full)]
          have : (levelsOf t.tree.items).length = (marksOf its).length := by
            rw [show t.tree.items = _ from i2.eq, at_levels]
            simp [levelsOf]
          simp only [this]
          omega
        · cases ho : outs[j]? with
          | none => simp [ho]
          | some y =>
            obtain ⟨t0, b0, b1, m1, -, -, m4⟩ := q5 (b := b) ho
            obtain ⟨its, i1, i2, i3⟩ := forall₂_get k9 m1
            have d := C88_depth i3
            simp only at d
            rw [i1]
            simp only [List.getElem?_cons_succ, ho, Option.elim, addsOf]
            rw [d, i2.eq, hos] at m4
            omega
  choose outs hq using h1
  exact ⟨outs, hq⟩

/-- **C102, in sessions of the driver** (eval/examples/adder.rs). If the texts of a session are legible and readable with one choice of random numbers, then with all choices
the tokens of each text are found, and the mean of the steps after the edit with index `j`, over all random numbers, is at most `driverTok`. -/
theorem C102_session (C : Coord G Char) {p : Params} (hp : InRange p) (hg : p.namegauge = 1) (hs : 0 < p.size) (h0 : 0 < p.batch) {o : Edit} (ho : Possible p o)
    (coord : G) {n : Nat} (hn : drawsOf p ≤ n) (h63 : n ≤ 2 ^ 63) {w0 : Fin n → Fin (2 ^ 64)} {ts : List (RazTree Char Count × Unit)} {r0 : Nat}
    (h1 : sessionV C (reads w0) p coord 0 (fun s r => o.run C (reads w0) s r) (withTree fun _ => .ok ()) = .ok (ts, r0))
    (hleg : ∀ t ∈ ts, Legible t.1 ∧ readable t.1.elems = true) :
    ∃ outs : (Fin n → Fin (2 ^ 64)) → List ((ASt Token × Option Nat) × Nat × LSpace Char Count Token Count (ASt Token × Option Nat)),
      (∀ w, Ends (sessionH C (reads w) p coord 0 (editH C (reads w) o) (keeping countedTok) Space.empty) (.ok (outs w, drawsOf p)) ∧
        Matches C p coord o (fun text a => Tokens text a.2.2.mem a.1) (outs w) ∧
        ((outs w)[0]?.elim 0 fun a => a.2.1) ≤ 2 * (p.size / p.datagauge) + 1) ∧
      ∀ j, ∑ w, ((outs w)[j + 1]?.elim 0 fun a => a.2.1) ≤ (2 ^ 64) ^ n * driverTok p j := by
  have hos : o.size = p.batch := by
    rcases ho with ⟨rfl, -⟩ | rfl <;> rfl
  have hm : p.size + p.changes * p.batch < usizeMax := by
    have := hp.counters
    rw [Nat.mul_add] at this
    omega
  obtain ⟨hsize, hslots⟩ := plan_facts C hs h0 hos coord hn h63 hm
  obtain ⟨outs, hq⟩ := tok_depths C hp hg hs h0 ho coord hn h63 h1 hleg
  generalize hplan : (startSketch C p coord).items :: stages (startSketch C p coord).items ((startSketch C p coord).plans C p.datagauge o p.changes) = plan at *
  refine ⟨outs, fun w => (hq w).1, fun j => ?_⟩
  refine Nat.le_trans (Finset.sum_le_sum fun w _ => (hq w).2 j) ?_
  cases hj : plan[j]? with
  | none => simp
  | some its =>
    simp only [Option.elim]
    have s1 := hslots _ (List.mem_of_getElem? hj)
    have c1 := (hsize _ _ hj).1
    have key := Nat.le_trans (depth_mean h63 s1.1 s1.2) (Nat.mul_le_mul_left _ (Nat.add_le_add_right (sixLogs_mono c1) 1))
    rw [Finset.sum_add_distrib, ← Finset.mul_sum, Finset.sum_const, Finset.card_univ, Fintype.card_fun, Fintype.card_fin, Fintype.card_fin, smul_eq_mul]
    unfold driverTok
    change _ ≤ (2 ^ 64) ^ n * (2 * (3 * (sixLogs (p.size / p.datagauge + j * addsOf p) + 1) + addsOf p) + 1)
    change _ ≤ (2 ^ 64) ^ n * (sixLogs (p.size / p.datagauge + j * addsOf p) + 1) at key
    generalize (2 ^ 64) ^ n = N at *
    generalize sixLogs (p.size / p.datagauge + j * addsOf p) = S at *
    calc _ ≤ 6 * (N * (S + 1)) + N * (2 * addsOf p + 1) := Nat.add_le_add_right (Nat.mul_le_mul_left _ key) _
      _ = _ := by ring

/-! ### Sessions that meet the conditions -/

/-- 1+ | 2+ | … | 8+; the archive points get the random numbers 0 to 6. -/
def exTokSlots : List (LOp Char) :=
  ([('1', 1, 0), ('2', 2, 1), ('3', 3, 2), ('4', 4, 3), ('5', 5, 4), ('6', 6, 5), ('7', 7, 6)].flatMap fun q =>
    [.pushL q.1, .pushL '+', .archL q.2.2 (some (.usize q.2.1))]) ++ [.pushL '8', .pushL '+']

/-- As `exPlusBatches`, with an archive point in slot 7. -/
def exTokBatches : List (List (Nat × List (LOp Char))) :=
  [[(1, [.popL, .pushL '9']), (6, [.pushL '0', .pushL '+', .archL 7 (some (.usize 8)), .pushL '7', .pushL '+', .pushL '7'])], [(13, [.pushR '4'])]]

set_option synthInstance.maxSize 1000 in
/-- The conditions of `C102_batches`, with 8 slots; the tokens and the bounds. -/
example : (LOp.cells exTokSlots ++ batchCells exTokBatches).Nodup ∧ .str "start" ∉ LOp.cells exTokSlots ++ batchCells exTokBatches ∧
    localAll exTokSlots exTokBatches = true ∧ (∀ op ∈ exTokSlots, op.Titles) ∧ (∀ es ∈ exTokBatches, ∀ q ∈ es, ∀ op ∈ q.2, op.Titles) ∧
    legibleText none false false (closed (onSides ([], []) exTokSlots)) = true ∧ legibleLists (closed (onSides ([], []) exTokSlots)) exTokBatches = true ∧
    (∀ its ∈ closed (onSides ([], []) exTokSlots) :: stages (closed (onSides ([], []) exTokSlots)) exTokBatches, readable (elemsOf its) = true) ∧
    (LOp.slots exTokSlots ++ batchSlots exTokBatches).Nodup ∧ (∀ k ∈ LOp.slots exTokSlots ++ batchSlots exTokBatches, k < 8) ∧
    (stages (closed (onSides ([], []) exTokSlots)) exTokBatches).map (fun its => tokensIn none (elemsOf its)) =
      [[.num 9, .opPlus, .num 2, .opPlus, .num 3, .opPlus, .num 0, .opPlus, .num 7, .opPlus, .num 74, .opPlus, .num 5, .opPlus, .num 6, .opPlus, .num 7, .opPlus, .num 8, .opPlus],
        [.num 9, .opPlus, .num 2, .opPlus, .num 3, .opPlus, .num 0, .opPlus, .num 7, .opPlus, .num 74, .opPlus, .num 45, .opPlus, .num 6, .opPlus, .num 7, .opPlus, .num 8, .opPlus]] ∧
    tokLogs (closed (onSides ([], []) exTokSlots)) exTokBatches = [319, 157] := by
  refine ⟨by decide +kernel, by decide +kernel, by decide +kernel, ?_, ?_, by decide +kernel, by decide +kernel, by decide +kernel, by decide +kernel, by decide +kernel,
    by decide +kernel, by decide +kernel⟩
  · simp [exTokSlots, LOp.Titles]
  · intro es h1 q h2
    simp only [exTokBatches, List.mem_cons, List.not_mem_nil, or_false] at h1
    rcases h1 with rfl | rfl <;> simp only [List.mem_cons, List.not_mem_nil, or_false] at h2
    · rcases h2 with rfl | rfl <;> simp [LOp.Titles]
    · subst h2; simp [LOp.Titles]

/-- What the model gives with the random numbers 0, 1, 2, … -/
example : (hrerunSession (M := Count) countedTok Space.empty (exTokSlots.map (LOp.at (drawn (n := 8) fun k => ⟨k.1, by omega⟩)))
    (exTokBatches.map (editsAt (drawn (n := 8) fun k => ⟨k.1, by omega⟩))) 99 Store.empty).map (fun x => (x.1.2.1, x.1.2.2.2.map (·.2.1))) = .ok (15, [10, 6]) := by
  decide +kernel

/-- A session of the driver: with all random numbers the tokens are found, and the mean is at most 191 steps after each edit. -/
example : ∃ outs : (Fin 28 → Fin (2 ^ 64)) → List ((ASt Token × Option Nat) × Nat × LSpace Char Count Token Count (ASt Token × Option Nat)),
    (∀ w, Ends (sessionH exChars (reads w) exLong 0 0 (editH exChars (reads w) (.insert 2)) (keeping countedTok) Space.empty) (.ok (outs w, 28)) ∧
      Matches exChars exLong 0 (.insert 2) (fun text a => Tokens text a.2.2.mem a.1) (outs w) ∧ ((outs w)[0]?.elim 0 fun a => a.2.1) ≤ 41) ∧
    ∀ j < 4, ∑ w, ((outs w)[j + 1]?.elim 0 fun a => a.2.1) ≤ (2 ^ 64) ^ 28 * 191 := by
  have h : (sessionV exChars (reads (n := 28) fun k => ⟨k.1, by omega⟩) exLong 0 0
      (fun s r => (Edit.insert 2).run exChars (reads (n := 28) fun k => ⟨k.1, by omega⟩) s r) (withTree fun _ => .ok ())).map
      (fun x => x.1.all fun a : RazTree Char Count × Unit => legibleB none a.1.tree && readable a.1.elems) = .ok true := by
    decide +kernel
  cases hx : sessionV (M := Count) exChars (reads (n := 28) fun k => ⟨k.1, by omega⟩) exLong 0 0
      (fun s r => (Edit.insert 2).run exChars (reads (n := 28) fun k => ⟨k.1, by omega⟩) s r) (withTree fun _ => .ok ()) with
  | error q => rw [hx] at h; cases h
  | ok x =>
    rw [hx] at h
    have h := Except.ok.inj h
    simp only [List.all_eq_true, Bool.and_eq_true] at h
    obtain ⟨outs, h1, h2⟩ := C102_session exChars (p := exLong) ⟨by decide, by decide, by decide, by decide⟩ rfl (by decide) (by decide)
      (o := .insert 2) (.inl ⟨rfl, .inl (by decide)⟩) 0 (n := 28) (by decide) (by decide) hx fun t ht => ⟨legibleB_ok (h t ht).1, (h t ht).2⟩
    refine ⟨outs, h1, fun j hj => Nat.le_trans (h2 j) (Nat.mul_le_mul_left _ ?_)⟩
    revert hj
    revert j
    decide +kernel

end Iodyn.Incr
