import Verif.Props.LikelyAny
import Verif.Props.MeanTokens
/-
C112 in sessions of the test driver, `tokenize` after each change is cheap for all but few random levels.
-/
namespace Iodyn.Incr
open Iodyn.Heap Iodyn.Eval Finset
open Eval.Adder (Token)
variable {G : Type}

/-- In a list of sequences it is unlikely that the tree of any is deep. -/
theorem plan_tail {E : Type} {n : Nat} (h63 : n ≤ 2 ^ 63) (j : Nat) {d : Nat} : ∀ (plan : List (List (Item E))),
    (∀ its ∈ plan, (levelsOf its).Nodup ∧ ∀ k ∈ levelsOf its, k < n) → (∀ its ∈ plan, (marksOf its).length ≤ d) →
    4 * 3 ^ j * (univ.filter fun w : Fin n → Fin (2 ^ 64) => ∃ its ∈ plan, sixLogs d + j ≤ deepest (levelsOf (its.map (Item.at (drawn w))))).card ≤
      plan.length * (2 ^ j * (2 ^ 64) ^ n)
  | [], _, _ => by simp
  | its :: plan, hs, hd => by
    have ih := plan_tail h63 j plan (fun i hi => hs i (List.mem_cons_of_mem _ hi)) (fun i hi => hd i (List.mem_cons_of_mem _ hi))
    obtain ⟨s1, s2⟩ := hs its List.mem_cons_self
    have hp := depth_tail h63 s1 s2 j
    have hle := sixLogs_mono (hd its List.mem_cons_self)
    refine Nat.le_trans (Nat.mul_le_mul_left _ (Nat.le_trans (card_le_card fun w hw => ?_) (card_union_le
      (univ.filter fun w : Fin n → Fin (2 ^ 64) => sixLogs (marksOf its).length + j ≤ deepest (levelsOf (its.map (Item.at (drawn w)))))
      (univ.filter fun w : Fin n → Fin (2 ^ 64) => ∃ its ∈ plan, sixLogs d + j ≤ deepest (levelsOf (its.map (Item.at (drawn w)))))))) ?_
    · obtain ⟨q, hq, hlt⟩ := (mem_filter.1 hw).2
      rcases List.mem_cons.1 hq with rfl | hq
      · exact mem_union_left _ (mem_filter.2 ⟨mem_univ _, by omega⟩)
      · exact mem_union_right _ (mem_filter.2 ⟨mem_univ _, q, hq, hlt⟩)
    · rw [Nat.mul_add, List.length_cons, Nat.succ_mul plan.length, Nat.add_comm (plan.length * _)]
      exact Nat.add_le_add hp ih

/-- **C112.** As in `C102_session`: a session of the test driver with `tokenize` (eval/examples/adder.rs), whose texts are legible and readable. With all random numbers
the tokens of each text are found. For every `j`, at most `changes * (2 / 3) ^ j / 4` of all sequences of random numbers make `tokenize` after any of the changes take
`6 * (6 * log (d + 2) + j) + 2 * (batch / datagauge + 1) + 1` steps or more, where `d` is the number of random numbers of the session. -/
theorem C112_tokenize (C : Coord G Char) {p : Params} (hp : InRange p) (hg : p.namegauge = 1) (hs : 0 < p.size) (h0 : 0 < p.batch) {o : Edit} (ho : Possible p o)
    (coord : G) {n : Nat} (hn : drawsOf p ≤ n) (h63 : n ≤ 2 ^ 63) {w0 : Fin n → Fin (2 ^ 64)} {ts : List (RazTree Char Count × Unit)} {r0 : Nat}
    (h1 : sessionV C (reads w0) p coord 0 (fun s r => o.run C (reads w0) s r) (withTree fun _ => .ok ()) = .ok (ts, r0))
    (hleg : ∀ t ∈ ts, Legible t.1 ∧ readable t.1.elems = true) :
    ∃ outs : (Fin n → Fin (2 ^ 64)) → List ((ASt Token × Option Nat) × Nat × LSpace Char Count Token Count (ASt Token × Option Nat)),
      (∀ w, Ends (sessionH C (reads w) p coord 0 (editH C (reads w) o) (keeping countedTok) Space.empty) (.ok (outs w, drawsOf p)) ∧
        Matches C p coord o (fun text a => Tokens text a.2.2.mem a.1) (outs w)) ∧
      ∀ j, 4 * 3 ^ j * (univ.filter fun w => ∃ a ∈ (outs w).tail, 6 * (6 * Nat.clog 2 (drawsOf p + 2) + j) + 2 * (p.batch / p.datagauge + 1) + 1 ≤ a.2.1).card ≤
        p.changes * (2 ^ j * (2 ^ 64) ^ n) := by
  have hos : o.size = p.batch := by
    rcases ho with ⟨rfl, -⟩ | rfl <;> rfl
  have hm : p.size + p.changes * p.batch < usizeMax := by
    have := hp.counters
    rw [Nat.mul_add] at this
    omega
  obtain ⟨hsize, hslots⟩ := plan_facts C hs h0 hos coord hn h63 hm
  obtain ⟨outs, hq⟩ := tok_depths C hp hg hs h0 ho coord hn h63 h1 hleg
  generalize hplan : (startSketch C p coord).items :: stages (startSketch C p coord).items ((startSketch C p coord).plans C p.datagauge o p.changes) = plan at *
  refine ⟨outs, fun w => ⟨(hq w).1.1, (hq w).1.2.1⟩, fun j => ?_⟩
  have key := plan_tail h63 j (d := drawsOf p) (plan.take p.changes) (fun its hi => hslots its (List.mem_of_mem_take hi)) (fun its hi => by
    obtain ⟨i, hi', e⟩ := List.mem_iff_getElem.1 hi
    rw [List.length_take] at hi'
    rw [List.getElem_take] at e
    have := (hsize i its (by rw [← e]; exact List.getElem?_eq_getElem (by omega))).1
    have h2 := Nat.mul_le_mul_right (p.batch / p.datagauge + 1) (show i ≤ p.changes by omega)
    unfold drawsOf
    omega)
  refine Nat.le_trans (Nat.mul_le_mul_left _ (card_le_card fun w hw => ?_)) (Nat.le_trans key (Nat.mul_le_mul_right _ (by rw [List.length_take]; omega)))
  obtain ⟨a, ha, hle⟩ := (mem_filter.1 hw).2
  refine mem_filter.2 ⟨mem_univ _, ?_⟩
  obtain ⟨i, hi, e⟩ := List.mem_iff_getElem.1 ha
  have hlen : (outs w).length = p.changes + 1 := (hq w).1.2.1.1
  rw [List.length_tail] at hi
  rw [List.getElem_tail] at e
  have hb := (hq w).2 i
  rw [List.getElem?_eq_getElem (show i + 1 < (outs w).length by omega), e] at hb
  simp only [Option.elim_some] at hb
  cases hj : plan[i]? with
  | none =>
    rw [hj] at hb
    simp only [Option.elim_none] at hb
    omega
  | some its =>
    rw [hj] at hb
    simp only [Option.elim_some, addsOf] at hb
    refine ⟨its, List.mem_of_getElem? (i := i) (by rw [List.getElem?_take_of_lt (by omega)]; exact hj), ?_⟩
    unfold sixLogs
    omega

/-! ### A session that meets the conditions -/

/-- For the session of `C102_session`: with all random numbers the tokens are found, and all but one in 10 million sequences of 28 random numbers make every one of the runs
after the 4 changes take fewer than 425 steps. -/
example : ∃ outs : (Fin 28 → Fin (2 ^ 64)) → List ((ASt Token × Option Nat) × Nat × LSpace Char Count Token Count (ASt Token × Option Nat)),
    (∀ w, Ends (sessionH exChars (reads w) exLong 0 0 (editH exChars (reads w) (.insert 2)) (keeping countedTok) Space.empty) (.ok (outs w, 28)) ∧
      Matches exChars exLong 0 (.insert 2) (fun text a => Tokens text a.2.2.mem a.1) (outs w)) ∧
    10 ^ 7 * (univ.filter fun w => ∃ a ∈ (outs w).tail, 425 ≤ a.2.1).card ≤ (2 ^ 64) ^ 28 := by
  have h : (sessionV exChars (reads (n := 28) fun k => ⟨k.1, by omega⟩) exLong 0 0
      (fun s r => (Edit.insert 2).run exChars (reads (n := 28) fun k => ⟨k.1, by omega⟩) s r) (withTree fun _ => .ok ())).map
      (fun x => x.1.all fun a : RazTree Char Count × Unit => legibleB none a.1.tree && readable a.1.elems) = .ok true := by
    decide +kernel
  cases hx : sessionV (M := Count) exChars (reads (n := 28) fun k => ⟨k.1, by omega⟩) exLong 0 0
      (fun s r => (Edit.insert 2).run exChars (reads (n := 28) fun k => ⟨k.1, by omega⟩) s r) (withTree fun _ => .ok ()) with
  | error q => rw [hx] at h; cases h
  | ok x =>
    rw [hx] at h
    have h := Except.ok.inj h
    simp only [List.all_eq_true, Bool.and_eq_true] at h
    obtain ⟨outs, h1, h2⟩ := C112_tokenize exChars (p := exLong) ⟨by decide, by decide, by decide, by decide⟩ rfl (by decide) (by decide)
      (o := .insert 2) (.inl ⟨rfl, .inl (by decide)⟩) 0 (n := 28) (by decide) (by decide) hx fun t ht => ⟨legibleB_ok (h t ht).1, (h t ht).2⟩
    refine ⟨outs, h1, ?_⟩
    have h3 := h2 40
    have e1 : 6 * (6 * Nat.clog 2 (drawsOf exLong + 2) + 40) + 2 * (exLong.batch / exLong.datagauge + 1) + 1 = 425 := by decide +kernel
    have e2 : exLong.changes = 4 := rfl
    rw [e1, e2] at h3
    generalize (univ.filter fun w => ∃ a ∈ (outs w).tail, 425 ≤ a.2.1).card = c at h3 ⊢
    generalize (2 ^ 64) ^ 28 = N at h3 ⊢
    omega

end Iodyn.Incr
