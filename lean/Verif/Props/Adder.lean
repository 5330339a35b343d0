import Verif.Proof.Adder
import Verif.Props.Eval
import Mathlib.Tactic.IntervalCases
/-
C47, C53: the adder.
-/
namespace Iodyn.Eval.Adder
variable {E M G : Type}

theorem wf_marks [RazMeta E M] {t : Tree (TreeData E M)} (h : WF t) : ∀ m ∈ marksOf t.items, 1 ≤ m.1 := by
  induction h with
  | leaf v => intro m hm; simp [marksOf] at hm
  | branch hlv hl hr ihl ihr =>
    intro m hm
    simp only [items_branch, marksOf, List.filterMap_append, List.filterMap_cons, List.mem_append, List.mem_cons] at hm
    rcases hm with hm | rfl | hm
    · exact ihl m hm
    · exact hlv
    · exact ihr m hm

theorem map_of_same {A B : Type} {R : A → B → Prop} {x : P A} {y : P B} (h : Same R x y) {f : A → B} (hf : ∀ a b, R a b → f a = b) :
    x.map f = y := by
  cases x <;> cases y <;> first | exact h.elim | skip
  · exact congrArg _ h
  · exact congrArg _ (hf _ _ h)

/-- **C47.** The incremental adder computes what the non-incremental adder computes on the same characters, including
panics, wherever the archive points are (also inside of numbers). Their levels have to be below `u32::MAX`, which
`memo_from` insists on. -/
theorem C47_same_result {s : EvalRaz Char Count G} {t : RazTree Char Count} (ht : s.raztree = some t) (hr : t.Reachable .any)
    (hl : ∀ m ∈ marksOf t.items, m.1 < u32Max) (datagauge namegauge : Nat) (coord g : G) :
    (inc s datagauge namegauge coord).map (fun r => r.elems.reverse) = nonInc ⟨t.elems, g⟩ coord := by
  have hm : ∀ m ∈ marksOf t.items, 1 ≤ m.1 ∧ m.1 < u32Max := by
    intro m h
    refine ⟨?_, hl m h⟩
    rcases (Reach.t hr).inv.wf with hn | hw
    · simp [RazTree.items, hn, marksOf] at h
    · exact wf_marks hw m h
  have h1 : Same (fun s v => Holds s.1 v.1 ∧ s.2 = v.2)
      (foldItems (lift (tokenizeStep (stackAccum Token))) (fun a m => a.map (fun st => tokenizeMeta (stackAccum Token) st m))
        (.ok ((stackAccum Token).new, none)) t.items)
      (t.elems.foldl (lift (tokenizeStep (vecAccum Token))) (.ok ((vecAccum Token).new, none))) :=
    foldItems_same (R := fun (s : AStack Token Nat × Option Nat) (v : List Token × Option Nat) => Holds s.1 v.1 ∧ s.2 = v.2) (mt := tokenizeMeta (stackAccum Token))
      (fun s v e h => tokenizeStep_same h e) (fun s v h m hx => ⟨holds_archive h.1 m.2 (hm m hx), h.2⟩)
      (show Same _ (.ok _) (.ok _) from (⟨holds_new, rfl⟩ : Holds _ _ ∧ none = none))
  refine map_of_same (R := Holds) ?_ (fun _ _ h => h.2)
  rw [← C13_fold_lr_meta hr] at h1
  simp only [inc, nonInc, EvalRaz.compFoldMeta, ht, unwrap, EvalVec.compFold]
  refine h1.bind ?_
  rintro ⟨ts, part⟩ ⟨v, part'⟩ ⟨h2, h3⟩
  simp only at h2 h3
  subst h3
  have h4 : Holds (tokenizeFinal (stackAccum Token) (ts, part)) (tokenizeFinal (vecAccum Token) (v, part)) := by
    cases part with
    | none => exact h2
    | some n => exact holds_push h2 _
  obtain ⟨t', h5, h6, h7⟩ := C17_memo_from_tail (M := Count) h4.1
  have hr' : t'.Reachable .any := .memoTail h4.1 (.inl rfl) h5
  have hm' : ∀ m ∈ marksOf t'.items, 1 ≤ m.1 ∧ m.1 < u32Max := by
    rw [h6]
    have := h4.1.inv
    intro m hx
    simp only [AStack.bottomUp, marksOf, List.mem_filterMap, List.mem_reverse, List.mem_map] at hx
    obtain ⟨i, ⟨j, hj, rfl⟩, hi⟩ := hx
    simp only [AStack.side, List.mem_append, List.mem_map, List.mem_flatMap] at hj
    rcases hj with ⟨e, -, rfl⟩ | ⟨p, hp, hj⟩
    · simp [Item.keep] at hi
    · rcases List.mem_cons.1 hj with rfl | hj
      · simp only [Item.keep, Option.some.injEq] at hi
        rw [← hi]
        exact (this p hp).1
      · obtain ⟨e, -, rfl⟩ := List.mem_map.1 hj
        simp [Item.keep] at hi
  have h8 : Same Holds
      (foldItems (lift (parseStep (stackAccum Nat))) (fun a m => a.map (fun n => parseMeta (stackAccum Nat) n m))
        (.ok (stackAccum Nat).new) t'.items)
      (t'.elems.foldl (lift (parseStep (vecAccum Nat))) (.ok (vecAccum Nat).new)) :=
    foldItems_same (R := Holds) (mt := parseMeta (stackAccum Nat)) (fun s v e h => parseStep_same h e) (fun s v h m hx => holds_archive h m.2 (hm' m hx)) holds_new
  have h9 : t'.elems = tokenizeFinal (vecAccum Token) (v, part) := by rw [h7, h4.2]
  rw [← C13_fold_lr_meta hr'] at h8
  simp only [EvalRaz.incFromTail, h5, bind, Except.bind, pure, Except.pure, EvalVec.incFrom, ← h9]
  exact h8

/-- **C47.** In particular, only the characters matter: not the archive points, their levels and names, or the shape of
the tree. -/
theorem C47_archives_irrelevant {s s' : EvalRaz Char Count G} {t t' : RazTree Char Count} (ht : s.raztree = some t)
    (ht' : s'.raztree = some t') (hr : t.Reachable .any) (hr' : t'.Reachable .any) (hl : ∀ m ∈ marksOf t.items, m.1 < u32Max)
    (hl' : ∀ m ∈ marksOf t'.items, m.1 < u32Max) (he : t.elems = t'.elems) (dg ng dg' ng' : Nat) (g g' : G) :
    (inc s dg ng g).map AStack.elems = (inc s' dg' ng' g').map AStack.elems := by
  have h1 := C47_same_result ht hr hl dg ng g g
  have h2 := C47_same_result ht' hr' hl' dg' ng' g' g
  have e : nonInc ⟨t.elems, g⟩ g = nonInc ⟨t'.elems, g⟩ g' := by rw [he]; rfl
  rw [e, ← h2] at h1
  have := congrArg (fun x => x.map List.reverse) h1
  have m2 : ∀ x : P (AStack Nat Nat), (x.map (fun r => r.elems.reverse)).map List.reverse = x.map AStack.elems := by
    intro x; cases x <;> simp [Except.map]
  simp only [m2] at this
  exact this

/-- 1 2 | 3 , 4 5 | + 6, with archive points inside of "123" and between "45" and "+". -/
def exText (M : Type) : Raz Char M :=
  let z : Raz Char M := Raz.new
  let z := (z.pushLeft '1').1
  let z := (z.pushLeft '2').1
  let z := z.archiveLeft 2 (some (.str "a"))
  let z := (z.pushLeft '3').1
  let z := (z.pushLeft ',').1
  let z := (z.pushLeft '4').1
  let z := (z.pushLeft '5').1
  let z := z.archiveLeft 1 none
  let z := (z.pushLeft '+').1
  (z.pushLeft '6').1

theorem exText_reach (M : Type) [RazMeta Char M] (u : Usage) : (exText M).Reachable u :=
  .pushL _ (.pushL _ (.archL _ (by decide) (.pushL _ (.pushL _ (.pushL _ (.pushL _ (.archL _ (by decide) (.pushL _ (.pushL _ .new)))))))))

example : ∃ t : RazTree Char Count, (exText Count).unfocus = .ok t ∧
    (inc (EvalRaz.incFromTree t 2 2 () : EvalRaz Char Count Unit) 2 2 ()).map (fun r => r.elems.reverse) = .ok [168, 6] := by
  obtain ⟨t, h1, -, h2⟩ := unfocus_inv (Reach.z (exText_reach Count .any)).inv
  have e : t.items = [.elem '1', .elem '2', .mark 2 (some (.pair (.str "a") (.str "tree"))), .elem '3', .elem ',', .elem '4',
    .elem '5', .mark 1 none, .elem '+', .elem '6'] := h2
  refine ⟨t, h1, Eq.trans (C47_same_result (g := ()) rfl (.unfocus (exText_reach Count .any) h1) (by rw [e]; decide) ..) ?_⟩
  rw [RazTree.elems, e]
  rfl

/-! ### C53 -/

theorem toDigit_some {c : Char} {d : Nat} (h : toDigit c = some d) : d ≤ 9 ∧ c ∈ ['0', '1', '2', '3', '4', '5', '6', '7', '8', '9'] := by
  unfold toDigit at h
  split at h
  · next hd =>
    simp only [Option.some.injEq] at h
    subst h
    simp only [Char.isDigit, Bool.and_eq_true, decide_eq_true_eq] at hd
    obtain ⟨h1, h2⟩ := hd
    have h1 : 48 ≤ c.toNat := h1
    have h2 : c.toNat ≤ 57 := h2
    refine ⟨by omega, ?_⟩
    have key : ∀ n, c.toNat = n → c = Char.ofNat n := fun n hn => by rw [← hn]; exact (Char.ofNat_toNat c).symm
    obtain ⟨n, hn⟩ : ∃ n, c.toNat = n := ⟨_, rfl⟩
    rw [key n hn]
    rw [hn] at h1 h2
    interval_cases n <;> decide
  · cases h

theorem toDigit_none {c : Char} (hc : c ∈ ['0', '1', '2', '3', '4', '5', '6', '7', '8', '9', '+', ',']) (h : toDigit c = none) :
    c = '+' ∨ c = ',' := by
  simp only [List.mem_cons, List.not_mem_nil, or_false] at hc
  rcases hc with rfl | rfl | rfl | rfl | rfl | rfl | rfl | rfl | rfl | rfl | rfl | rfl <;>
    first | exact absurd h (by decide) | exact .inl rfl | exact .inr rfl

theorem foldl_lift_error {S X : Type} (f : S → X → P S) (e : Panic) (l : List X) :
    l.foldl (lift f) (.error e) = .error e := by
  induction l with
  | nil => rfl
  | cons x l ih => exact ih

theorem tokenize_key (cs : List Char) : ∀ (ts : List Token) (part : Option Nat), part.getD 0 < 100000 → Valid cs →
    ShortNums (part.getD 0) cs →
    ∃ ts', cs.foldl (lift refTokenizeStep) (.ok (ts, part)) = .ok (ts', trailing part cs) ∧
      cs.foldl (lift (tokenizeStep (vecAccum Token))) (.ok (ts, part)) = .ok (ts', trailing part cs) := by
  induction cs with
  | nil => intro ts part _ _ _; exact ⟨ts, rfl, rfl⟩
  | cons c cs ih =>
    intro ts part hp hv hs
    have hv' : Valid cs := fun x hx => hv x (List.mem_cons_of_mem _ hx)
    cases hd : toDigit c with
    | some d =>
      simp only [ShortNums, hd] at hs
      have hg : growOpt part d = .ok (10 * part.getD 0 + d) := by
        cases part with
        | none => simp [growOpt]
        | some q =>
          simp only [growOpt, grow, Option.getD_some] at hs ⊢
          rw [if_pos (by simp [u32Max]; omega)]
          congr 1; omega
      obtain ⟨ts', h1, h2⟩ := ih ts (some (10 * part.getD 0 + d)) hs.1 hv' hs.2
      have e1 : lift refTokenizeStep (.ok (ts, part)) c = .ok (ts, some (10 * part.getD 0 + d)) := by
        simp [lift, refTokenizeStep, hd, hg, Except.bind, bind, pure, Except.pure]
      have e2 : lift (tokenizeStep (vecAccum Token)) (.ok (ts, part)) c = .ok (ts, some (10 * part.getD 0 + d)) := by
        have : ¬ 10 * part.getD 0 + d > 99999 := by omega
        simp [lift, tokenizeStep, hd, hg, Except.bind, bind, pure, Except.pure, this]
      refine ⟨ts', ?_, ?_⟩
      · rw [List.foldl_cons, e1, h1, trailing, hd]
      · rw [List.foldl_cons, e2, h2, trailing, hd]
    | none =>
      simp only [ShortNums, hd] at hs
      have hc := toDigit_none (hv c (List.mem_cons_self ..)) hd
      obtain ⟨w, hw⟩ : ∃ w, lift refTokenizeStep (.ok (ts, part)) c = .ok (w, none) ∧
          lift (tokenizeStep (vecAccum Token)) (.ok (ts, part)) c = .ok (w, none) := by
        rcases hc with rfl | rfl
        · cases part with
          | none => exact ⟨_, rfl, rfl⟩
          | some q => exact ⟨_, rfl, rfl⟩
        · cases part with
          | none => exact ⟨_, rfl, rfl⟩
          | some q => exact ⟨_, rfl, rfl⟩
      obtain ⟨ts', h1, h2⟩ := ih w none (by decide) hv' hs
      refine ⟨ts', ?_, ?_⟩
      · rw [List.foldl_cons, hw.1, h1, trailing, hd]
      · rw [List.foldl_cons, hw.2, h2, trailing, hd]

theorem parseStep_ref (n : List Nat) (t : Token) : parseStep (vecAccum Nat) n t = refParseStep n t := by
  cases t with
  | num a => rfl
  | opPlus =>
    simp only [parseStep, refParseStep, vecAccum, bind, Except.bind, pure, Except.pure]
    cases h : n.getLast? with
    | none =>
      rw [List.getLast?_eq_none_iff] at h
      subst h; rfl
    | some b =>
      simp only
      cases h2 : n.dropLast.getLast? with
      | none =>
        rw [List.getLast?_eq_none_iff] at h2
        simp [h2]
      | some a => rfl

/-- **C53, partial.** On texts of digits, plus signs and commas all of whose numbers are below 100000, the tokens are those
of the reference tokenizer, followed by the number at the end of the text (which the reference drops), if any; and the
result is that of the reference parser. Missing: longer numbers, see `C53_long_numbers`. -/
theorem C53_reference_partial (cs : List Char) (hv : Valid cs) (hs : ShortNums 0 cs) (g coord : G) :
    ∃ ts, refTokenize cs = .ok ts ∧
      (cs.foldl (lift (tokenizeStep (vecAccum Token))) (.ok ([], none))).map (tokenizeFinal (vecAccum Token)) =
        .ok (ts ++ (trailing none cs).toList.map .num) ∧
      nonInc (⟨cs, g⟩ : EvalVec Char G) coord = refParse (ts ++ (trailing none cs).toList.map .num) := by
  obtain ⟨ts, h1, h2⟩ := tokenize_key cs [] none (by decide) hv hs
  have h3 : tokenizeFinal (vecAccum Token) (ts, trailing none cs) = ts ++ (trailing none cs).toList.map .num := by
    cases trailing none cs <;> simp [tokenizeFinal, vecAccum]
  refine ⟨ts, ?_, ?_, ?_⟩
  · simp [refTokenize, h1, bind, Except.bind, pure, Except.pure]
  · rw [h2]; simp only [Except.map, h3]
  · have e : ∀ (l : List Token) (x : P (List Nat)),
        l.foldl (lift (parseStep (vecAccum Nat))) x = l.foldl (lift refParseStep) x := by
      intro l
      have : lift (parseStep (vecAccum Nat)) = lift refParseStep := by
        funext x t; unfold lift; congr 1; funext n; exact parseStep_ref n t
      rw [this]; intro x; rfl
    simp only [nonInc, EvalVec.compFold, EvalVec.incFrom]
    erw [h2]
    simp only [bind, Except.bind, h3, e]
    rfl

/-- The text of the test in eval/examples/adder.rs:108-113 satisfies the hypotheses; the test's expected value. -/
example : Valid "23+4+4,23,54,123,5++".toList ∧ ShortNums 0 "23+4+4,23,54,123,5++".toList ∧
    trailing none "23+4+4,23,54,123,5++".toList = none ∧
    nonInc (⟨"23+4+4,23,54,123,5++".toList, ()⟩ : EvalVec Char Unit) () = .ok [27, 4, 23, 182] := by
  refine ⟨by unfold Valid; decide, ?_, rfl, rfl⟩
  simp [ShortNums, toDigit]

/-- **C53 is false** for numbers of six digits: the number is pushed, but its last digit also begins the next number. -/
theorem C53_long_numbers (g : G) :
    refTokenize "123456,".toList = .ok [.num 123456] ∧
    nonInc (⟨"123456,".toList, g⟩ : EvalVec Char G) g = .ok [123456, 6] ∧
    refTokenize "1234567,".toList = .ok [.num 1234567] ∧
    nonInc (⟨"1234567,".toList, g⟩ : EvalVec Char G) g = .ok [123456, 67] := ⟨rfl, rfl, rfl, rfl⟩

/-- The reference tokenizer drops a number at the end of the text. -/
theorem C53_reference_drops (g : G) :
    refTokenize "1,2".toList = .ok [.num 1] ∧ nonInc (⟨"1,2".toList, g⟩ : EvalVec Char G) g = .ok [1, 2] := ⟨rfl, rfl⟩

theorem total_append (a b : List Token) : total (a ++ b) = total a + total b := by
  induction a with
  | nil => simp [total]
  | cons t a ih => cases t <;> simp only [List.cons_append, total, ih]; omega

theorem parse_sum_key (ts : List Token) : ∀ (n : List Nat), n.sum + total ts ≤ u32Max →
    ∃ ns, ts.foldl (lift refParseStep) (.ok n) = .ok ns ∧ ns.sum = n.sum + total ts := by
  induction ts with
  | nil => intro n _; exact ⟨n, rfl, rfl⟩
  | cons t ts ih =>
    intro n h
    cases t with
    | num a =>
      simp only [total] at h
      obtain ⟨ns, h1, h2⟩ := ih (n ++ [a]) (by simp; omega)
      refine ⟨ns, h1, ?_⟩
      rw [h2]; simp [total]; omega
    | opPlus =>
      simp only [total] at h ⊢
      rcases List.eq_nil_or_concat n with rfl | ⟨w, b, rfl⟩
      · exact ih [] h
      · rcases List.eq_nil_or_concat w with rfl | ⟨w, a, rfl⟩
        · exact ih [b] h
        · have e : lift refParseStep (.ok ((w ++ [a]) ++ [b])) .opPlus = .ok (w ++ [a + b]) := by
            simp at h
            have : a + b ≤ u32Max := by omega
            simp [lift, refParseStep, Except.bind, addU32, this, bind, pure, Except.pure]
          rw [List.concat_eq_append, List.concat_eq_append, List.foldl_cons, e]
          obtain ⟨ns, h1, h2⟩ := ih (w ++ [a + b]) (by simp at h ⊢; omega)
          refine ⟨ns, h1, ?_⟩
          rw [h2]; simp

/-- **C53.** Parsing neither loses nor invents: if the sum of all numbers fits into a `u32` then parsing does not panic and
the results add up to the same sum. -/
theorem C53_parse_sum (ts : List Token) (h : total ts ≤ u32Max) : ∃ ns, refParse ts = .ok ns ∧ ns.sum = total ts := by
  obtain ⟨ns, h1, h2⟩ := parse_sum_key ts [] (by simpa using h)
  exact ⟨ns, h1, by simpa using h2⟩

example : ∃ ns, refParse [.num 1, .num 2, .num 3, .opPlus, .opPlus, .opPlus, .num 4] = .ok ns ∧ ns.sum = 10 :=
  C53_parse_sum _ (by decide)

/-- **C53.** `+` on a full stack of results panics if the sum does not fit. -/
theorem C53_parse_overflow : refParse [.num u32Max, .num 1, .opPlus] = .error .overflow := rfl

/-- **C53.** A text with any other character makes both tokenizers panic (the incremental one too, by C47), with this
character or, in the reference, earlier by overflow. -/
theorem C53_invalid (cs : List Char) (hv : ¬ Valid cs) (g coord : G) :
    nonInc (⟨cs, g⟩ : EvalVec Char G) coord = .error .explicit ∧ ∃ e, refTokenize cs = .error e := by
  have key : ∀ (cs : List Char) (ts : List Token) (part : Option Nat), part.getD 0 < 100000 → ¬ Valid cs →
      cs.foldl (lift (tokenizeStep (vecAccum Token))) (.ok (ts, part)) = .error .explicit := by
    intro cs
    induction cs with
    | nil => intro _ _ _ h; exact absurd (by intro c hc; cases hc) h
    | cons c cs ih =>
      intro ts part hp hv
      cases hd : toDigit c with
      | some d =>
        obtain ⟨d1, d2⟩ := toDigit_some hd
        have hv' : ¬ Valid cs := fun h => hv (fun x hx => by
          rcases List.mem_cons.1 hx with rfl | hx
          · simp only [List.mem_cons, List.not_mem_nil, or_false] at d2 ⊢
            rcases d2 with h | h | h | h | h | h | h | h | h | h <;> simp [h]
          · exact h x hx)
        have hg : ∃ b, growOpt part d = .ok b := by
          cases part with
          | none => exact ⟨_, rfl⟩
          | some q => exact ⟨_, if_pos (by simp [u32Max] at hp ⊢; omega)⟩
        obtain ⟨b, hb⟩ := hg
        by_cases h9 : b > 99999
        · have e : lift (tokenizeStep (vecAccum Token)) (.ok (ts, part)) c = .ok (ts ++ [.num b], some d) := by
            simp [lift, tokenizeStep, hd, hb, h9, Except.bind, bind, pure, Except.pure, vecAccum]
          rw [List.foldl_cons, e]
          exact ih _ _ (by simp; omega) hv'
        · have e : lift (tokenizeStep (vecAccum Token)) (.ok (ts, part)) c = .ok (ts, some b) := by
            simp [lift, tokenizeStep, hd, hb, h9, Except.bind, bind, pure, Except.pure]
          rw [List.foldl_cons, e]
          exact ih _ _ (by simp; omega) hv'
      | none =>
        by_cases h1 : c = '+' ∨ c = ','
        · have hv' : ¬ Valid cs := fun h => hv (fun x hx => by
            rcases List.mem_cons.1 hx with rfl | hx
            · rcases h1 with rfl | rfl <;> decide
            · exact h x hx)
          rcases h1 with rfl | rfl <;> cases part <;> exact ih _ none (by decide) hv'
        · have e : lift (tokenizeStep (vecAccum Token)) (.ok (ts, part)) c = .error .explicit := by
            have : c ≠ '+' := fun h => h1 (.inl h)
            have : c ≠ ',' := fun h => h1 (.inr h)
            simp [lift, tokenizeStep, Except.bind, *]
          rw [List.foldl_cons, e]
          exact foldl_lift_error ..
  have key2 : ∀ (cs : List Char) (st : List Token × Option Nat), ¬ Valid cs →
      ∃ e, cs.foldl (lift refTokenizeStep) (.ok st) = .error e := by
    intro cs
    induction cs with
    | nil => intro _ h; exact absurd (by intro c hc; cases hc) h
    | cons c cs ih =>
      intro st hv
      cases hs : refTokenizeStep st c with
      | error e =>
        refine ⟨e, ?_⟩
        rw [List.foldl_cons]
        simp only [lift, Except.bind, hs]
        exact foldl_lift_error ..
      | ok st' =>
        have hc : c ∈ ['0', '1', '2', '3', '4', '5', '6', '7', '8', '9', '+', ','] := by
          cases hd : toDigit c with
          | some d =>
            have d2 := (toDigit_some hd).2
            simp only [List.mem_cons, List.not_mem_nil, or_false] at d2 ⊢
            rcases d2 with h | h | h | h | h | h | h | h | h | h <;> simp [h]
          | none =>
            simp only [refTokenizeStep, hd] at hs
            by_cases h1 : c = '+'
            · subst h1; decide
            · by_cases h2 : c = ','
              · subst h2; decide
              · simp [h1, h2] at hs
        have hv' : ¬ Valid cs := fun h => hv (fun x hx => by
          rcases List.mem_cons.1 hx with rfl | hx
          · exact hc
          · exact h x hx)
        obtain ⟨e, he⟩ := ih st' hv'
        refine ⟨e, ?_⟩
        rw [List.foldl_cons]
        simp only [lift, Except.bind, hs]
        exact he
  constructor
  · have := key cs [] none (by decide) hv
    simp only [nonInc, EvalVec.compFold]
    erw [this]
    rfl
  · obtain ⟨e, he⟩ := key2 cs ([], none) hv
    exact ⟨e, by simp [refTokenize, he, bind, Except.bind]⟩

example : ¬ Valid "12-3".toList := by unfold Valid; decide

end Iodyn.Eval.Adder
