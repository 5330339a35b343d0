import Verif.Spec.Generators
import Verif.Props.MeanTokens
import Mathlib.Data.Int.CardIntervalMod
import Mathlib.Data.Fintype.Pi
import Mathlib.Data.Fintype.BigOperators
/-
C103: the random values of the evaluation suite, and how often a random text of the adder is legible.
-/
namespace Iodyn.Eval
variable {R : Type}

/-! ### How often a remainder occurs -/

/-- How many numbers below `N` have remainder `v`. -/
theorem card_mod {N k v : Nat} (hk : 0 < k) (hv : v < k) :
    (Finset.univ.filter fun w : Fin N => w.1 % k = v).card = N / k + if v < N % k then 1 else 0 := by
  rw [← Nat.mod_eq_of_lt hv, ← Nat.count_modEq_card N hk v, Nat.count_eq_card_filter_range]
  refine Finset.card_bij (fun w _ => w.1) ?_ ?_ ?_
  · intro w hw
    simp only [Finset.mem_filter, Finset.mem_univ, true_and] at hw
    simp only [Finset.mem_filter, Finset.mem_range]
    exact ⟨w.2, hw⟩
  · intro a _ b _ h
    exact Fin.ext h
  · intro b hb
    simp only [Finset.mem_filter, Finset.mem_range] at hb
    exact ⟨⟨b, hb.1⟩, by simp only [Finset.mem_filter, Finset.mem_univ, true_and]; exact hb.2, rfl⟩

theorem word_nat (w : Fin (2 ^ 64)) : (BitVec.ofNat 64 w).toNat = w.1 := by
  rw [BitVec.toNat_ofNat]
  exact Nat.mod_eq_of_lt w.2

/-- The generator that gives this number. -/
def gives (w : Fin (2 ^ 64)) : Unit → BitVec 64 × Unit := fun _ => (BitVec.ofNat 64 w, ())

/-- Small values are below 100; of all numbers that a generator can give, each value comes from 184467440737095516, and those below 16 from one more. -/
theorem C103_small : (∀ (word : R → BitVec 64 × R) (rng : R), (genSmall word rng).1 < 100) ∧
    ∀ v < 100, (Finset.univ.filter fun w => (genSmall (gives w) ()).1 = v).card = 184467440737095516 + if v < 16 then 1 else 0 := by
  refine ⟨fun word rng => Nat.mod_lt _ (by decide), fun v hv => ?_⟩
  simp only [genSmall, gives, word_nat]
  rw [card_mod (by decide) hv]
  norm_num

/-- The same for values below 10000. -/
theorem C103_10k : (∀ (word : R → BitVec 64 × R) (rng : R), (gen10k word rng).1 < 10000) ∧
    ∀ v < 10000, (Finset.univ.filter fun w => (gen10k (gives w) ()).1 = v).card = 1844674407370955 + if v < 1616 then 1 else 0 := by
  refine ⟨fun word rng => Nat.mod_lt _ (by decide), fun v hv => ?_⟩
  simp only [gen10k, gives, word_nat]
  rw [card_mod (by decide) hv]
  norm_num

/-- Elements of sets are equally frequent, and different ones are different for the hasher. -/
theorem C103_elm : (∀ v < 2 ^ 64, (Finset.univ.filter fun w => (genSetElm (gives w) ()).1 = v).card = 1) ∧ ∀ a b, elmHash a = elmHash b → a = b := by
  refine ⟨fun v hv => ?_, fun a b h => ?_⟩
  · simp only [genSetElm, gives, word_nat]
    rw [Finset.card_eq_one]
    exact ⟨⟨v, hv⟩, by ext w; simp [Fin.ext_iff]⟩
  · exact (List.replicate_right_inj (by decide)).1 h

/-- The sum of small values (added from left to right) does not overflow, unless there are more than 184467440737095516 of them. -/
theorem C103_sum {l : List Nat} (h : ∀ v ∈ l, v < 100) (hl : l.length ≤ 184467440737095516) : l.foldlM genAdd 0 = .ok l.sum := by
  have key : ∀ (l : List Nat) (a : Nat), (∀ v ∈ l, v < 100) → a + 100 * l.length ≤ usizeMax → l.foldlM genAdd a = .ok (a + l.sum) := by
    intro l
    induction l with
    | nil => intro a _ _; rfl
    | cons v l ih =>
      intro a hv ha
      have h1 := hv v List.mem_cons_self
      simp only [List.length_cons] at ha
      have e : genAdd a v = .ok (a + v) := by
        unfold genAdd addU
        rw [if_pos (by omega)]
      rw [List.foldlM_cons, e]
      simp only [bind, Except.bind]
      rw [ih (a + v) (fun w hw => hv w (List.mem_cons_of_mem _ hw)) (by omega), List.sum_cons, Nat.add_assoc]
  have := key l 0 h (by unfold usizeMax; omega)
  rwa [Nat.zero_add] at this

/-- The values and their sum. -/
example : genSmall (gives 2018) () = (18, ()) ∧ gen10k (gives 92018) () = (2018, ()) ∧ [18, 99, 0].foldlM genAdd 0 = .ok 117 := by decide +kernel

namespace Adder
open Iodyn.Heap Iodyn.Incr

/-! ### Letters -/

/-- The letter that comes from this number and this digit. -/
def letter (x : Fin (2 ^ 64) × Fin 10) : Char := (langRand (gives x.1) (fun _ => (x.2, ())) ()).1

theorem letter_eq (x : Fin (2 ^ 64) × Fin 10) :
    letter x = if x.1.1 % 7 = 0 then '+' else if x.1.1 % 7 ≤ 3 then ',' else digitChars[x.2.1]! := by
  unfold letter langRand gives
  simp only [word_nat]
  split
  · rfl
  · split <;> rfl

theorem digit_not (i : Fin 10) : digitChars[i.1]! ≠ '+' ∧ digitChars[i.1]! ≠ ',' := by
  revert i
  decide

/-- All characters are digits, plus signs and commas, whatever the generator gives. -/
theorem C103_readable (word : R → BitVec 64 × R) (choose : R → Fin 10 × R) (rng : R) : readable [(langRand word choose rng).1] = true := by
  unfold langRand
  simp only
  split
  · exact (by decide : readable ['+'] = true)
  · split
    · exact (by decide : readable [','] = true)
    · exact (by decide : ∀ i : Fin 10, readable [digitChars[i.1]!] = true) _

/-- How often each character comes, of `10 * 2 ^ 64` cases: a plus sign in 1/7 (rounded up), a comma in 3/7, each digit in 3/70 of them. -/
theorem C103_letters : (Finset.univ.filter fun x => letter x = '+').card = 10 * 2635249153387078803 ∧
    (Finset.univ.filter fun x => letter x = ',').card = 10 * 7905747460161236407 ∧
    ∀ i : Fin 10, (Finset.univ.filter fun x => letter x = digitChars[i.1]!).card = 7905747460161236406 := by
  have c : ∀ v < 7, (Finset.univ.filter fun w : Fin (2 ^ 64) => w.1 % 7 = v).card = 2635249153387078802 + if v < 2 then 1 else 0 := by
    intro v hv
    rw [card_mod (by decide) hv]
    norm_num
  have three : ∀ a b d : Nat, a < b → b < d → d < 7 →
      (Finset.univ.filter fun w : Fin (2 ^ 64) => w.1 % 7 = a ∨ w.1 % 7 = b ∨ w.1 % 7 = d).card =
      (Finset.univ.filter fun w : Fin (2 ^ 64) => w.1 % 7 = a).card + ((Finset.univ.filter fun w : Fin (2 ^ 64) => w.1 % 7 = b).card +
        (Finset.univ.filter fun w : Fin (2 ^ 64) => w.1 % 7 = d).card) := by
    intro a b d h1 h2 h3
    rw [Finset.filter_or, Finset.card_union_of_disjoint, Finset.filter_or, Finset.card_union_of_disjoint]
    · rw [Finset.disjoint_filter]; intro w _ h; omega
    · rw [Finset.disjoint_filter]; intro w _ h; omega
  refine ⟨?_, ?_, fun i => ?_⟩
  · have : (Finset.univ.filter fun x => letter x = '+') = (Finset.univ.filter fun w : Fin (2 ^ 64) => w.1 % 7 = 0) ×ˢ (Finset.univ : Finset (Fin 10)) := by
      ext x
      simp only [Finset.mem_filter, Finset.mem_univ, true_and, Finset.mem_product, and_true, letter_eq]
      constructor
      · intro h
        by_contra h0
        rw [if_neg h0] at h
        split at h
        · cases h
        · exact (digit_not x.2).1 h
      · intro h; rw [if_pos h]
    rw [this, Finset.card_product, c 0 (by decide), Finset.card_univ, Fintype.card_fin]
    decide
  · have : (Finset.univ.filter fun x => letter x = ',') =
        (Finset.univ.filter fun w : Fin (2 ^ 64) => w.1 % 7 = 1 ∨ w.1 % 7 = 2 ∨ w.1 % 7 = 3) ×ˢ (Finset.univ : Finset (Fin 10)) := by
      ext x
      simp only [Finset.mem_filter, Finset.mem_univ, true_and, Finset.mem_product, and_true, letter_eq]
      constructor
      · intro h
        split at h
        · cases h
        · split at h
          · omega
          · exact ((digit_not x.2).2 h).elim
      · intro h; rw [if_neg (by omega), if_pos (by omega)]
    rw [this, Finset.card_product, three 1 2 3 (by decide) (by decide) (by decide), c 1 (by decide), c 2 (by decide), c 3 (by decide), Finset.card_univ, Fintype.card_fin]
    decide
  · have : (Finset.univ.filter fun x => letter x = digitChars[i.1]!) =
        (Finset.univ.filter fun w : Fin (2 ^ 64) => w.1 % 7 = 4 ∨ w.1 % 7 = 5 ∨ w.1 % 7 = 6) ×ˢ ({i} : Finset (Fin 10)) := by
      have inj : ∀ a b : Fin 10, digitChars[a.1]! = digitChars[b.1]! → a = b := by decide
      ext x
      simp only [Finset.mem_filter, Finset.mem_univ, true_and, Finset.mem_product, Finset.mem_singleton, letter_eq]
      constructor
      · intro h
        split at h
        · exact ((digit_not i).1 h.symm).elim
        · split at h
          · exact ((digit_not i).2 h.symm).elim
          · exact ⟨by omega, inj _ _ h⟩
      · rintro ⟨h, rfl⟩; rw [if_neg (by omega), if_neg (by omega)]
    rw [this, Finset.card_product, three 4 5 6 (by decide) (by decide) (by decide), c 4 (by decide), c 5 (by decide), c 6 (by decide), Finset.card_singleton]
    decide

/-! ### Texts -/

section
variable {T : Nat} (e : Fin T → Fin (2 ^ 64) × Fin 10)

/-- The letter with number `k`. -/
def letterAt (k : Nat) : Char := if h : k < T then letter (e ⟨k, h⟩) else '+'

theorem deal_elem (k : Nat) : (deal e).elem k = (letterAt e k, k + 1) := by
  unfold deal langCoord langRand dealt picked letterAt
  by_cases h : k < T
  · simp only [dif_pos h, Nat.add_sub_cancel, letter_eq, word_nat]
    split
    · rfl
    · split <;> rfl
  · simp only [dif_neg h]
    rfl

theorem deal_data : ∀ (n k : Nat), genData (deal e) n k = ((List.range' k n).map (letterAt e), k + n)
  | 0, k => rfl
  | n + 1, k => by
    simp only [genData, deal_elem, deal_data n (k + 1), List.range'_succ, List.map_cons, Nat.add_assoc, Nat.add_comm 1 n]

end

theorem plus_mono : ∀ (l : List (Item Char)), plusText false l = true → plusText true l = true
  | [], _ => rfl
  | .elem c :: l, h => by
    simp only [plusText, Bool.true_or]
    simp only [plusText, Bool.false_or] at h
    cases hc : (c == '+') with
    | true => rwa [hc] at h
    | false => rw [hc] at h; exact plus_mono l h
  | .mark _ _ :: l, h => by simp [plusText] at h
  | .pend _ _ :: l, h => by simp [plusText] at h

theorem plus_le {b : Bool} {l : List (Item Char)} (h : plusText b l = true) (d : Bool) : plusText (b || d) l = true := by
  cases b with
  | true => exact h
  | false =>
    cases d with
    | false => exact h
    | true => exact plus_mono l h

theorem plus_elems : ∀ (xs : List Char) {b : Bool} {l : List (Item Char)}, plusText b l = true → plusText b (xs.map .elem ++ l) = true
  | [], _, _, h => h
  | x :: xs, _, _, h => plus_elems xs (plus_le h (x == '+'))

/-- More characters in some part. -/
theorem plus_insert (xs : List Char) (r : List (Item Char)) : ∀ (a : List (Item Char)) {b : Bool}, plusText b (a ++ r) = true →
    plusText b (a ++ (xs.map .elem ++ r)) = true
  | [], _, h => plus_elems xs h
  | .elem c :: a, b, h => plus_insert xs r a (b := b || c == '+') h
  | .mark _ _ :: a, b, h => by
    simp only [List.cons_append, plusText, Bool.and_eq_true] at h ⊢
    exact ⟨h.1, plus_insert xs r a h.2⟩
  | .pend _ _ :: a, b, h => by
    simp only [List.cons_append, plusText, Bool.and_eq_true] at h ⊢
    exact ⟨h.1, plus_insert xs r a h.2⟩

/-- One more part. -/
theorem plus_more {lev : Nat} {nm : Option Name} {r : List (Item Char)} (hr : plusText false r = true) : ∀ (a : List (Item Char)) {b : Bool}, plusText b a = true →
    plusText b (a ++ .pend lev nm :: r) = true
  | [], b, h => by
    simp only [plusText] at h
    simp [plusText, h, hr]
  | .elem c :: a, b, h => plus_more hr a (b := b || c == '+') h
  | .mark _ _ :: a, b, h => by
    simp only [List.cons_append, plusText, Bool.and_eq_true] at h ⊢
    exact ⟨h.1, plus_more hr a h.2⟩
  | .pend _ _ :: a, b, h => by
    simp only [List.cons_append, plusText, Bool.and_eq_true] at h ⊢
    exact ⟨h.1, plus_more hr a h.2⟩

theorem plus_part : ∀ {v : List Char}, '+' ∈ v → plusText false (v.map .elem) = true
  | c :: v, h => by
    simp only [List.map_cons, plusText, Bool.false_or]
    cases hc : (c == '+') with
    | true =>
      have := plus_elems v (b := true) (l := []) rfl
      rwa [List.append_nil] at this
    | false =>
      rcases List.mem_cons.1 h with rfl | h
      · simp at hc
      · exact plus_part h

theorem plus_settle : ∀ (l : List (Item Char)) (b : Bool), plusText b (l.map Item.settle) = plusText b l
  | [], b => rfl
  | .elem c :: l, b => plus_settle l (b || c == '+')
  | .mark _ _ :: l, b => by simp only [List.map_cons, Item.settle, plusText, plus_settle l]
  | .pend _ _ :: l, b => by simp only [List.map_cons, Item.settle, plusText, plus_settle l]

/-- A plus sign in each part is enough. -/
theorem plus_legible : ∀ (l : List (Item Char)) {b : Bool} {o : Option Nat} {s d : Bool}, (b = true → s = true ∧ d = true) → plusText b l = true →
    legibleText o s d l = true
  | [], b, o, s, d, hb, h => by
    simp only [plusText] at h
    simp [legibleText, hb h]
  | .elem c :: l, b, o, s, d, hb, h => by
    refine plus_legible l (b := b || c == '+') (fun h => ?_) h
    rw [Bool.or_eq_true] at h
    rcases h with h | h
    · simp [hb h]
    · obtain rfl : c = '+' := by simpa using h
      have h1 : digitOf '+' = none := by decide
      simp [tokensAt, h1]
  | .mark _ _ :: l, b, o, s, d, hb, h => by
    simp only [plusText, Bool.and_eq_true] at h
    simp only [legibleText, hb h.1, Bool.and_eq_true, true_and]
    exact plus_legible l (fun h => by cases h) h.2
  | .pend _ _ :: l, b, o, s, d, hb, h => by
    simp only [plusText, Bool.and_eq_true] at h
    simp only [legibleText, hb h.1, Bool.and_eq_true, true_and]
    exact plus_legible l (fun h => by cases h) h.2

/-! ### The calls of the harness -/

section
variable {E : Type}

theorem onSides_push : ∀ (b : List E) (ops : List (LOp E)) (s : List (Item E) × List (Item E)),
    onSides s (b.map .pushL ++ ops) = onSides (b.reverse.map .elem ++ s.1, s.2) ops
  | [], _, _ => rfl
  | x :: b, ops, s => by
    rw [List.map_cons, List.cons_append, onSides, onSides_push b ops]
    simp [LOp.onSides]

theorem plan_few {g : Nat} : ∀ (xs : List E) (c : Nat) (ls : List Nat) (ns : List (Option Name)), c + xs.length < g → planLoop g xs c ls ns = xs.map .pushL
  | [], _, _, _, _ => rfl
  | x :: xs, c, ls, ns, h => by
    simp only [List.length_cons] at h
    rw [planLoop, if_neg (by rw [Nat.mod_eq_of_lt (by omega)]; omega), plan_few xs (c + 1) ls ns (by omega)]
    rfl

theorem plan_block {g : Nat} {l n} {ls : List Nat} {ns : List (Option Name)} {xs : List E} : ∀ (b : List E) (c : Nat), b ≠ [] → c % g + b.length = g →
    planLoop g (b ++ xs) c (l :: ls) (n :: ns) = b.map .pushL ++ .archL l n :: planLoop g xs (c + b.length) ls ns
  | [x], c, _, h => by
    simp only [List.length_cons, List.length_nil, Nat.zero_add] at h
    have : (c + 1) % g = 0 := by rw [Nat.add_mod, ]; rcases Nat.lt_or_ge 1 g with h1 | h1
                                 · rw [Nat.mod_eq_of_lt h1, h, Nat.mod_self]
                                 · have : g = 1 := by omega
                                   subst this; simp [Nat.mod_one]
    simp only [List.cons_append, List.nil_append, planLoop, if_pos this, planArch, List.map_cons, List.map_nil, List.length_cons, List.length_nil, Nat.zero_add]
  | x :: y :: b, c, _, h => by
    simp only [List.length_cons] at h
    have e : (c + 1) % g = c % g + 1 := by
      rw [Nat.add_mod, Nat.mod_eq_of_lt (a := 1) (by omega), Nat.mod_eq_of_lt (by omega)]
    rw [List.cons_append, planLoop, if_neg (by omega), plan_block (y :: b) (c + 1) (by simp) (by simp only [List.length_cons]; omega)]
    simp only [List.map_cons, List.cons_append, List.length_cons]
    rw [show c + (b.length + 1 + 1) = c + 1 + (b.length + 1) by omega]

end

/-- Before the first part there is nothing, after a part there is an archive point. -/
def Built (l : List (Item Char)) : Prop := l = [] ∨ ∃ its lev nm, plusText false its = true ∧ l = .pend lev nm :: its.reverse

theorem built_blocks {g : Nat} (hg : 0 < g) : ∀ (m : Nat) (xs : List Char) (c : Nat) (ls : List Nat) (ns : List (Option Name)) (l : List (Item Char)),
    xs.length = m * g → (∀ i < m, '+' ∈ (xs.drop (i * g)).take g) → c % g = 0 → m ≤ ls.length → m ≤ ns.length → Built l →
    ∃ l', onSides (l, []) (planLoop g xs c ls ns) = (l', []) ∧ Built l'
  | 0, xs, c, ls, ns, l, hx, _, _, _, _, hl => by
    obtain rfl : xs = [] := List.length_eq_zero_iff.1 (by simpa using hx)
    exact ⟨l, rfl, hl⟩
  | m + 1, xs, c, [], ns, l, _, _, _, h, _, _ => by simp at h
  | m + 1, xs, c, _ :: ls, [], l, _, _, _, _, h, _ => by simp at h
  | m + 1, xs, c, lv :: ls, n :: ns, l, hx, hp, hc, h1, h2, hl => by
    have hlen : (xs.take g).length = g := by rw [List.length_take, hx, Nat.succ_mul]; omega
    have hne : xs.take g ≠ [] := fun h => by rw [h] at hlen; simp at hlen; omega
    have e := plan_block (g := g) (l := lv) (n := n) (ls := ls) (ns := ns) (xs := xs.drop g) (xs.take g) c hne (by rw [hc, hlen, Nat.zero_add])
    rw [List.take_append_drop, hlen] at e
    rw [e, onSides_push, onSides]
    have hb := hp 0 (Nat.succ_pos _)
    rw [Nat.zero_mul, List.drop_zero] at hb
    have hsd : LOp.onSides (.archL lv n) ((xs.take g).reverse.map Item.elem ++ l, []) = (.pend lv n :: ((xs.take g).reverse.map Item.elem ++ l), []) := by
      cases hr : (xs.take g).reverse with
      | nil => exact absurd (List.reverse_eq_nil_iff.1 hr) hne
      | cons x r => rfl
    rw [hsd]
    have hB : Built (.pend lv n :: ((xs.take g).reverse.map Item.elem ++ l)) := by
      refine .inr ⟨l.reverse ++ (xs.take g).map .elem, lv, n, ?_, by simp⟩
      rcases hl with rfl | ⟨its, lev, nm, q1, rfl⟩
      · exact plus_part hb
      · rw [List.reverse_cons, List.reverse_reverse, List.append_assoc, List.singleton_append]
        exact plus_more (plus_part hb) its q1
    obtain ⟨l', r1, r2⟩ := built_blocks hg m (xs.drop g) (c + g) ls ns _ (by rw [List.length_drop, hx, Nat.succ_mul]; omega)
      (fun i hi => by
        have := hp (i + 1) (by omega)
        rwa [Nat.succ_mul, Nat.add_comm, ← List.drop_drop] at this)
      (by rw [Nat.add_mod_right]; exact hc) (by simpa using h1) (by simpa using h2) hB
    exact ⟨l', r1, r2⟩

/-- The sequence that the harness builds, if all its parts are full. -/
theorem start_plus {G : Type} {C : Coord G Char} {p : Params} {coord : G} (hs : 0 < p.size) (hg : 0 < p.datagauge) (hd : p.datagauge ∣ p.size)
    (h : ∀ i < p.size / p.datagauge, '+' ∈ ((genData C p.size coord).1.drop (i * p.datagauge)).take p.datagauge) :
    plusText false (startSketch C p coord).items = true := by
  obtain ⟨l', r1, r2⟩ := built_blocks hg (p.size / p.datagauge) (genData C p.size coord).1 0 (List.range' 0 (p.size / p.datagauge)) (titles 0 (p.size / p.datagauge)) []
    (by rw [genData_length, Nat.div_mul_cancel hd]) h (Nat.zero_mod _) (by simp) (by rw [titles_length]) (.inl rfl)
  have he := start_elems C p coord
  unfold startSketch startOps at he ⊢
  simp only at he ⊢
  rw [r1] at he ⊢
  rcases r2 with rfl | ⟨its, lev, nm, q1, rfl⟩
  · simp [closed, glue, elemsOf] at he
    omega
  · have : closed ((.pend lev nm :: its.reverse : List (Item Char)), []) = its.map Item.settle := by
      simp [closed, glue, Item.isMark]
    rw [this, plus_settle]
    exact q1

/-- An edit that adds no archive point. -/
theorem edit_plus {i : Nat} {items : List (Item Char)} {xs : List Char} (hx : xs ≠ []) (hi : i ≤ (elemsOf items).length) (h : plusText false items = true) :
    plusText false (editList i (xs.map .pushL) items) = true := by
  have e1 := cutAt_append items i hi
  have e2 := onSides_push xs [] (cutAt i items)
  rw [List.append_nil] at e2
  unfold editList
  rw [e2, onSides, closed, plus_settle]
  have e3 : glue (xs.reverse.map Item.elem ++ (cutAt i items).1) (cutAt i items).2 = (cutAt i items).1.reverse ++ (xs.map .elem ++ (cutAt i items).2) := by
    cases hr : xs.reverse with
    | nil => exact absurd (List.reverse_eq_nil_iff.1 hr) hx
    | cons x r =>
      obtain rfl : xs = r.reverse ++ [x] := by rw [← List.reverse_cons, ← hr, List.reverse_reverse]
      cases (cutAt i items).2 <;> simp [glue, Item.isMark]
  rw [e3]
  exact plus_insert xs _ _ (by rwa [e1])

/-- Few edits add no archive point. -/
theorem plans_plus {G : Type} {C : Coord G Char} {g : Nat} {o : Edit} (h0 : 0 < o.size) : ∀ (m : Nat) (q : Sketch Char G), q.counter + m * o.size < g →
    elemsOf q.items ≠ [] → plusText false q.items = true → ∀ its ∈ stages q.items (q.plans C g o m), plusText false its = true
  | 0, q, _, _, _, its, hi => by cases hi
  | m + 1, q, hc, hne, hp, its, hi => by
    rw [Nat.succ_mul] at hc
    have e1 : q.ops C g o = (genData C o.size (q.gen C o)).1.map .pushL := plan_few _ _ _ _ (by rw [genData_length]; omega)
    have hx : (genData C o.size (q.gen C o)).1 ≠ [] := fun h => by
      have := congrArg List.length h
      rw [genData_length] at this
      simp at this
      omega
    have h1 : plusText false (editList (q.index C o) (q.ops C g o) q.items) = true := by
      rw [e1]
      exact edit_plus hx (Sketch.index_le q hne) hp
    have h2 : elemsOf (editList (q.index C o) (q.ops C g o) q.items) ≠ [] := fun h => by
      have := Sketch.edit_elems (dg := g) (Sketch.index_le (C := C) (o := o) q hne) (genData C o.size (q.gen C o)).1 q.counter
        (List.range' q.used (o.size / g + 1)) (titles q.names (o.size / g + 1))
      change (elemsOf (editList (q.index C o) (q.ops C g o) q.items)).length = _ at this
      rw [h, genData_length] at this
      simp at this
      omega
    rcases List.mem_cons.1 hi with rfl | hi
    · exact h1
    · exact plans_plus h0 m (q.next C g o) (by simp only [Sketch.next]; omega) h2 h1 its hi

/-! ### How many texts are not legible -/

/-- Some part of `g` places among the first `m` parts has no place where `q` holds. -/
def lacking {S : Type} [Fintype S] (q : S → Prop) [DecidablePred q] (T g m : Nat) : Finset (Fin T → S) :=
  Finset.univ.filter fun e => ∃ i ∈ Finset.range m, ∀ j : Fin T, i * g ≤ j.1 → j.1 < i * g + g → ¬ q (e j)

theorem mem_lacking {S : Type} [Fintype S] {q : S → Prop} [DecidablePred q] {T g m : Nat} {e : Fin T → S} :
    e ∈ lacking q T g m ↔ ∃ i < m, ∀ j : Fin T, i * g ≤ j.1 → j.1 < i * g + g → ¬ q (e j) := by
  simp [lacking]

theorem lacking_card {S : Type} [Fintype S] [DecidableEq S] (q : S → Prop) [DecidablePred q] {T g m : Nat} (h : m * g ≤ T)
    (h7 : 7 * (Finset.univ.filter fun x => ¬ q x).card ≤ 6 * Fintype.card S) :
    7 ^ g * (lacking q T g m).card ≤ m * (6 ^ g * Fintype.card S ^ T) := by
  have hsub : lacking q T g m ⊆ (Finset.range m).biUnion fun i => Fintype.piFinset fun j : Fin T =>
      if i * g ≤ j.1 ∧ j.1 < i * g + g then Finset.univ.filter fun x => ¬ q x else Finset.univ := by
    intro e he
    obtain ⟨-, i, hi, hj⟩ := Finset.mem_filter.1 he
    refine Finset.mem_biUnion.2 ⟨i, hi, Fintype.mem_piFinset.2 fun j => ?_⟩
    split
    · rename_i h; exact Finset.mem_filter.2 ⟨Finset.mem_univ _, hj j h.1 h.2⟩
    · exact Finset.mem_univ _
  have hone : ∀ i ∈ Finset.range m, 7 ^ g * (Fintype.piFinset fun j : Fin T =>
      if i * g ≤ j.1 ∧ j.1 < i * g + g then Finset.univ.filter fun x => ¬ q x else (Finset.univ : Finset S)).card ≤ 6 ^ g * Fintype.card S ^ T := by
    intro i hi
    have hi := Finset.mem_range.1 hi
    have hig : i * g + g ≤ T := Nat.le_trans (by rw [← Nat.succ_mul]; exact Nat.mul_le_mul_right g hi) h
    rw [Fintype.card_piFinset]
    simp only [apply_ite Finset.card]
    rw [Finset.prod_ite, Finset.prod_const, Finset.prod_const, Finset.card_univ]
    have c1 : (Finset.univ.filter fun j : Fin T => i * g ≤ j.1 ∧ j.1 < i * g + g).card = g := by
      have : (Finset.Ico (i * g) (i * g + g)).card = g := by simp
      refine Eq.trans (Finset.card_bij (t := Finset.Ico (i * g) (i * g + g)) (fun j _ => j.1) ?_ ?_ ?_) this
      · intro j hj
        simpa using hj
      · intro a _ b _ h
        exact Fin.ext h
      · intro b hb
        have hb' := Finset.mem_Ico.1 hb
        exact ⟨⟨b, by omega⟩, by simpa using hb', rfl⟩
    have c2 := Finset.card_filter_add_card_filter_not (s := (Finset.univ : Finset (Fin T))) (fun j => i * g ≤ j.1 ∧ j.1 < i * g + g)
    rw [Finset.card_univ, Fintype.card_fin] at c2
    generalize (Finset.univ.filter fun j : Fin T => ¬ (i * g ≤ j.1 ∧ j.1 < i * g + g)).card = r at *
    rw [c1] at c2 ⊢
    have c3 := Nat.pow_le_pow_left h7 g
    generalize Fintype.card S = K at *
    rw [← c2, Nat.pow_add, ← Nat.mul_assoc, ← Nat.mul_assoc, ← Nat.mul_pow, ← Nat.mul_pow]
    exact Nat.mul_le_mul_right _ c3
  calc 7 ^ g * (lacking q T g m).card ≤ 7 ^ g * ∑ i ∈ Finset.range m, (Fintype.piFinset fun j : Fin T =>
        if i * g ≤ j.1 ∧ j.1 < i * g + g then Finset.univ.filter fun x => ¬ q x else (Finset.univ : Finset S)).card :=
        Nat.mul_le_mul_left _ (Nat.le_trans (Finset.card_le_card hsub) Finset.card_biUnion_le)
    _ ≤ ∑ _i ∈ Finset.range m, 6 ^ g * Fintype.card S ^ T := by rw [Finset.mul_sum]; exact Finset.sum_le_sum hone
    _ = _ := by rw [Finset.sum_const, Finset.card_range, smul_eq_mul]

/-- Some part of `g` letters among the first `m` parts has no plus sign. -/
def plain (T g m : Nat) : Finset (Fin T → Fin (2 ^ 64) × Fin 10) := lacking (fun x => letter x = '+') T g m

theorem card_draw : Fintype.card (Fin (2 ^ 64) × Fin 10) = 10 * 2 ^ 64 := by
  rw [Fintype.card_prod, Fintype.card_fin, Fintype.card_fin, Nat.mul_comm]

theorem lacking_few {S : Type} [Fintype S] [DecidableEq S] {q : S → Prop} [DecidablePred q] {a c T g m : Nat} (hc : Fintype.card S = c)
    (h : (Finset.univ.filter q).card = a) (h7 : 7 * (c - a) ≤ 6 * c) (hm : m * g ≤ T) :
    7 ^ g * (lacking q T g m).card ≤ m * (6 ^ g * c ^ T) := by
  rw [← hc]
  refine lacking_card q hm ?_
  have := Finset.card_filter_add_card_filter_not (s := (Finset.univ : Finset S)) q
  rw [h, Finset.card_univ] at this
  omega

theorem plain_card {T g m : Nat} (h : m * g ≤ T) : 7 ^ g * (plain T g m).card ≤ m * (6 ^ g * (10 * 2 ^ 64) ^ T) :=
  lacking_few card_draw C103_letters.1 (by decide) h

/-- In the other texts all parts have one. -/
theorem not_plain {T g m : Nat} {e : Fin T → Fin (2 ^ 64) × Fin 10} (he : e ∉ plain T g m) :
    ∀ i < m, '+' ∈ (((List.range' 0 (m * g)).map (letterAt e)).drop (i * g)).take g := by
  intro i hi
  have : ∃ j : Fin T, i * g ≤ j.1 ∧ j.1 < i * g + g ∧ letter (e j) = '+' := by
    by_contra hc
    refine he (Finset.mem_filter.2 ⟨Finset.mem_univ _, i, Finset.mem_range.2 hi, fun j h1 h2 h3 => hc ⟨j, h1, h2, h3⟩⟩)
  obtain ⟨j, h1, h2, h3⟩ := this
  have hig : i * g + g ≤ m * g := by rw [← Nat.succ_mul]; exact Nat.mul_le_mul_right g hi
  refine List.mem_iff_getElem?.2 ⟨j.1 - i * g, ?_⟩
  rw [List.getElem?_take_of_lt (by omega), List.getElem?_drop, List.getElem?_map, List.getElem?_range' (by omega)]
  simp only [Option.map_some, Option.some.injEq]
  rw [show 0 + 1 * (i * g + (j.1 - i * g)) = j.1 by omega]
  unfold letterAt
  rw [dif_pos j.2]
  exact h3

/-! ### Sessions -/

section
variable {G : Type}
open Iodyn.Eval.Adder (Token)

theorem readable_iff {l : List Char} : readable l = true ↔ ∀ c ∈ l, readable [c] = true := by
  simp [readable]

/-- Texts of the harness are readable. -/
theorem session_readable {C : Coord G Char} (hC : ∀ g, readable [(C.elem g).1] = true) (p : Params) (coord : G) (o : Edit) :
    ∀ i, readable (sessionAt (o.spec C) C p.size coord i).1 = true := by
  have hd : ∀ n g, ∀ c ∈ draws C.elem g n, readable [c] = true := by
    intro n g c hc
    obtain ⟨k, -, rfl⟩ := List.mem_map.1 hc
    exact hC _
  have key : ∀ (i : Nat) (x : List Char × G), (∀ c ∈ x.1, readable [c] = true) → ∀ c ∈ (times (o.spec C) i x).1, readable [c] = true := by
    intro i
    induction i with
    | zero => intro x h; exact h
    | succ i ih =>
      intro x h
      refine ih _ fun c hc => ?_
      obtain ⟨xs, g⟩ := x
      cases o with
      | insert b =>
        rcases List.mem_append.1 hc with hc | hc
        · rcases List.mem_append.1 hc with hc | hc
          · exact h c (List.mem_of_mem_take hc)
          · exact hd _ _ c hc
        · exact h c (List.mem_of_mem_drop hc)
      | append b =>
        rcases List.mem_append.1 hc with hc | hc
        · exact h c hc
        · exact hd _ _ c hc
  exact fun i => readable_iff.2 (key i _ (hd _ _))

theorem trees_readable {C : Coord G Char} (hC : ∀ g, readable [(C.elem g).1] = true) {p : Params} (hp : InRange p) {o : Edit} (ho : Possible p o) {coord : G} {n : Nat}
    {w0 : Fin n → Fin (2 ^ 64)} {ts : List (RazTree Char Count × Unit)} {r0 : Nat}
    (h1 : sessionV C (reads w0) p coord 0 (fun s r => o.run C (reads w0) s r) (withTree fun _ => .ok ()) = .ok (ts, r0)) :
    ∀ t ∈ ts, readable t.1.elems = true := by
  intro t ht
  obtain ⟨ts', r', k1, k2⟩ := sessionV_total (B := RazTree Char Count × Unit) (scratch := withTree fun _ => .ok ())
    (Q := fun xs a => a.1.elems = xs) C (reads w0) p coord 0 hp ho (fun t hr => ⟨(t, ()), rfl, rfl⟩)
  have e := h1.symm.trans k1
  simp only [Except.ok.injEq, Prod.mk.injEq] at e
  obtain ⟨e1, -⟩ := e
  subst e1
  obtain ⟨i, hi⟩ := List.mem_iff_getElem?.1 ht
  rw [k2.2 i t hi]
  exact session_readable hC p coord o i

/-- C102_session for the generator of the adder: its texts are readable. -/
theorem C103_session {word : G → BitVec 64 × G} {choose : G → Fin 10 × G} {p : Params} (hp : InRange p) (hg : p.namegauge = 1) (hs : 0 < p.size) (h0 : 0 < p.batch)
    {o : Edit} (ho : Possible p o) (coord : G) {n : Nat} (hn : drawsOf p ≤ n) (h63 : n ≤ 2 ^ 63) {w0 : Fin n → Fin (2 ^ 64)} {ts : List (RazTree Char Count × Unit)} {r0 : Nat}
    (h1 : sessionV (langCoord word choose) (reads w0) p coord 0 (fun s r => o.run (langCoord word choose) (reads w0) s r) (withTree fun _ => .ok ()) = .ok (ts, r0))
    (hleg : ∀ t ∈ ts, Legible t.1) :
    ∃ outs : (Fin n → Fin (2 ^ 64)) → List ((ASt Token × Option Nat) × Nat × LSpace Char Count Token Count (ASt Token × Option Nat)),
      (∀ w, Ends (sessionH (langCoord word choose) (reads w) p coord 0 (editH (langCoord word choose) (reads w) o) (keeping countedTok) Space.empty) (.ok (outs w, drawsOf p)) ∧
        Matches (langCoord word choose) p coord o (fun text a => Tokens text a.2.2.mem a.1) (outs w) ∧
        ((outs w)[0]?.elim 0 fun a => a.2.1) ≤ 2 * (p.size / p.datagauge) + 1) ∧
      ∀ j, ∑ w, ((outs w)[j + 1]?.elim 0 fun a => a.2.1) ≤ (2 ^ 64) ^ n * driverTok p j := by
  have hC : ∀ g, readable [((langCoord word choose).elem g).1] = true := fun g => by
    simp only [langCoord]
    exact C103_readable word choose g
  exact C102_session (langCoord word choose) hp hg hs h0 ho coord hn h63 h1 fun t ht => ⟨hleg t ht, trees_readable hC hp ho h1 t ht⟩

/-- Random texts. The parts of the text are full at first and so few characters are added that there are no new parts. Then for all but at most
`parts * (6 / 7) ^ datagauge` of the random letters: with all random levels the tokens are found, and the mean of the work over all random levels is as in C102. -/
theorem C103_mean {p : Params} (hp : InRange p) (hg : p.namegauge = 1) (hs : 0 < p.size) (h0 : 0 < p.batch) (hd : p.datagauge ∣ p.size)
    (hc : p.changes * p.batch < p.datagauge) {o : Edit} (ho : Possible p o) {T : Nat} (hT : p.size ≤ T) :
    ∃ bad : Finset (Fin T → Fin (2 ^ 64) × Fin 10), 7 ^ p.datagauge * bad.card ≤ p.size / p.datagauge * (6 ^ p.datagauge * (10 * 2 ^ 64) ^ T) ∧
      ∀ e ∉ bad, ∀ n, drawsOf p ≤ n → n ≤ 2 ^ 63 →
        ∃ outs : (Fin n → Fin (2 ^ 64)) → List ((ASt Token × Option Nat) × Nat × LSpace Char Count Token Count (ASt Token × Option Nat)),
          (∀ w, Ends (sessionH (deal e) (reads w) p 0 0 (editH (deal e) (reads w) o) (keeping countedTok) Space.empty) (.ok (outs w, drawsOf p)) ∧
            Matches (deal e) p 0 o (fun text a => Tokens text a.2.2.mem a.1) (outs w) ∧
            ((outs w)[0]?.elim 0 fun a => a.2.1) ≤ 2 * (p.size / p.datagauge) + 1) ∧
          ∀ j, ∑ w, ((outs w)[j + 1]?.elim 0 fun a => a.2.1) ≤ (2 ^ 64) ^ n * driverTok p j := by
  have hm0 : p.size / p.datagauge * p.datagauge = p.size := Nat.div_mul_cancel hd
  have hos : o.size = p.batch := by
    rcases ho with ⟨rfl, -⟩ | rfl <;> rfl
  have hm : p.size + p.changes * p.batch < usizeMax := by
    have := hp.counters
    rw [Nat.mul_add] at this
    omega
  refine ⟨plain T p.datagauge (p.size / p.datagauge), plain_card (by omega), fun e he n hn h63 => ?_⟩
  obtain ⟨ts, r', k1, -⟩ := sessionV_total (B := RazTree Char Count × Unit) (scratch := withTree fun _ => .ok ())
    (Q := fun xs a => a.1.elems = xs) (deal e) (reads (n := n) fun _ => 0) p 0 0 hp ho (fun t hr => ⟨(t, ()), rfl, rfl⟩)
  refine C103_session hp hg hs h0 ho 0 hn h63 k1 fun t ht => ?_
  obtain ⟨-, k2⟩ := trees_session hg hs hos h0 hn hm k1
  obtain ⟨its, q1, q2, q3⟩ := forall₂_right k2 t ht
  refine (legible_stands q2).2 (plus_legible its (b := false) (fun h => by cases h) ?_)
  have hstart : plusText false (startSketch (deal e) p 0).items = true := by
    refine start_plus hs (by omega) hd ?_
    have := not_plain he
    rw [hm0] at this
    rwa [deal_data]
  rcases List.mem_cons.1 q1 with rfl | q1
  · exact hstart
  · refine plans_plus (by omega) p.changes (startSketch (deal e) p 0) ?_ ?_ hstart its q1
    · simp only [startSketch, hos]; omega
    · intro h
      have := start_elems (deal e) p 0
      rw [h] at this
      simp at this
      omega

/-- The parameters of the adder if none are given (eval/examples/adder.rs:149-155). -/
def defaults : Params := ⟨1000000, 1000, 1, 1, 30⟩

set_option exponentiation.threshold 1100 in
/-- The adder without arguments (eval/examples/adder.rs:149-155, 218-226): for all but `1 / 10 ^ 63` of the random texts, the mean of the work of `tokenize` after each
of the 30 insertions is at most 405 nodes, while the first run visits up to 2001 nodes. -/
theorem C103_defaults {T : Nat} (hT : 1000000 ≤ T) :
    ∃ bad : Finset (Fin T → Fin (2 ^ 64) × Fin 10), 10 ^ 63 * bad.card ≤ (10 * 2 ^ 64) ^ T ∧
      ∀ e ∉ bad, ∃ outs : (Fin 1030 → Fin (2 ^ 64)) → List ((ASt Token × Option Nat) × Nat × LSpace Char Count Token Count (ASt Token × Option Nat)),
        (∀ w, Ends (sessionH (deal e) (reads w) defaults 0 0 (editH (deal e) (reads w) (.insert 1)) (keeping countedTok) Space.empty) (.ok (outs w, 1030)) ∧
          Matches (deal e) defaults 0 (.insert 1) (fun text a => Tokens text a.2.2.mem a.1) (outs w) ∧ ((outs w)[0]?.elim 0 fun a => a.2.1) ≤ 2001) ∧
        ∀ j < 30, ∑ w, ((outs w)[j + 1]?.elim 0 fun a => a.2.1) ≤ (2 ^ 64) ^ 1030 * 405 := by
  obtain ⟨bad, b1, b2⟩ := C103_mean (p := defaults) ⟨by decide, by decide, by decide, by decide⟩ rfl (by decide) (by decide) ⟨1000, rfl⟩ (by decide)
    (o := .insert 1) (.inl ⟨rfl, .inl (by decide)⟩) hT
  refine ⟨bad, ?_, fun e he => ?_⟩
  · have k : 10 ^ 63 * (1000 * 6 ^ 1000) ≤ 7 ^ 1000 := by decide +kernel
    generalize (10 * 2 ^ 64) ^ T = K at *
    refine Nat.le_of_mul_le_mul_left (c := 7 ^ 1000) ?_ (Nat.pow_pos (by decide))
    calc 7 ^ 1000 * (10 ^ 63 * bad.card) = 10 ^ 63 * (7 ^ 1000 * bad.card) := Nat.mul_left_comm ..
      _ ≤ 10 ^ 63 * (1000 * (6 ^ 1000 * K)) := Nat.mul_le_mul_left _ b1
      _ = 10 ^ 63 * (1000 * 6 ^ 1000) * K := by rw [Nat.mul_assoc, Nat.mul_assoc]
      _ ≤ 7 ^ 1000 * K := Nat.mul_le_mul_right _ k
  · obtain ⟨outs, h1, h2⟩ := b2 e he 1030 (by decide) (by decide)
    refine ⟨outs, h1, fun j hj => Nat.le_trans (h2 j) (Nat.mul_le_mul_left _ ?_)⟩
    revert hj
    revert j
    decide +kernel

/-! ### Cases that meet the conditions -/

/-- Numbers and digits that make the text 4+,0+9. -/
def exDeal : Fin 6 → Fin (2 ^ 64) × Fin 10 := ![(4, 4), (7, 0), (10, 3), (6, 0), (0, 5), (12, 9)]

/-- The text, and the state of the generator after it. -/
example : genData (deal exDeal) 6 0 = (['4', '+', ',', '0', '+', '9'], 6) := by decide +kernel

/-- Each of its two parts has a plus sign: it is not one of the bad texts of C103_mean. -/
example : exDeal ∉ plain 6 3 2 := by
  rw [plain, mem_lacking]
  rintro ⟨i, hi, hj⟩
  have : i = 0 ∨ i = 1 := by omega
  rcases this with rfl | rfl
  · exact hj 1 (by decide) (by decide) (by decide +kernel)
  · exact hj 4 (by decide) (by decide) (by decide +kernel)

/-- Small parameters for C103_mean: 90 characters in parts of 30, one of them inserted 20 times. Of the random texts, at most 3 in 100 are bad. -/
example : ∃ bad : Finset (Fin 90 → Fin (2 ^ 64) × Fin 10), 100 * bad.card ≤ 3 * (10 * 2 ^ 64) ^ 90 ∧
    ∀ e ∉ bad, ∃ outs : (Fin 23 → Fin (2 ^ 64)) → List ((ASt Token × Option Nat) × Nat × LSpace Char Count Token Count (ASt Token × Option Nat)),
      ∀ w, Ends (sessionH (deal e) (reads w) ⟨90, 30, 1, 1, 20⟩ 0 0 (editH (deal e) (reads w) (.insert 1)) (keeping countedTok) Space.empty) (.ok (outs w, 23)) ∧
        Matches (deal e) ⟨90, 30, 1, 1, 20⟩ 0 (.insert 1) (fun text a => Tokens text a.2.2.mem a.1) (outs w) := by
  obtain ⟨bad, b1, b2⟩ := C103_mean (p := ⟨90, 30, 1, 1, 20⟩) ⟨by decide, by decide, by decide, by decide⟩ rfl (by decide) (by decide) ⟨3, rfl⟩ (by decide)
    (o := .insert 1) (.inl ⟨rfl, .inl (by decide)⟩) (Nat.le_refl 90)
  refine ⟨bad, ?_, fun e he => ?_⟩
  · change 7 ^ 30 * bad.card ≤ 3 * (6 ^ 30 * (10 * 2 ^ 64) ^ 90) at b1
    generalize (10 * 2 ^ 64) ^ 90 = K at *
    have : 100 * 6 ^ 30 ≤ 7 ^ 30 := by decide
    omega
  · obtain ⟨outs, h1, -⟩ := b2 e he 23 (by decide) (by decide)
    exact ⟨outs, fun w => ⟨(h1 w).1, (h1 w).2.1⟩⟩

end

end Adder
end Iodyn.Eval
