import Verif.Proof.OpenWork
/-
The open number of `tokenize`.
-/
namespace Iodyn.Incr.Op
open Iodyn.Heap (Tr Cell Mem HTree ASt Keeps Dis)
open Iodyn.Incr.Lr (Sem StepsTo LS foldP used tokSem tok_ok archive_run)
open Eval.Adder (Token)
variable {V W K R S A B D X D' X' E M N T O : Type}

theorem toDigit_eq (c : Char) : Eval.Adder.toDigit c = digitOf c := by
  have h : c.isDigit = true ↔ ('0' ≤ c ∧ c ≤ '9') := by
    unfold Char.isDigit
    simp only [Bool.and_eq_true, decide_eq_true_eq, Char.le_def, ge_iff_le]
  unfold Eval.Adder.toDigit digitOf
  by_cases hc : c.isDigit = true
  · rw [if_pos hc, if_pos (h.1 hc)]; rfl
  · rw [if_neg hc, if_neg (fun hx => hc (h.2 hx))]

theorem growOpt_val {o : Option Nat} {d b : Nat} (h : Eval.Adder.growOpt o d = .ok b) : b = 10 * o.getD 0 + d := by
  cases o with
  | none => cases h; simp
  | some p =>
    simp only [Eval.Adder.growOpt, Eval.Adder.grow] at h
    split at h
    · cases h; simp only [Option.getD_some]; omega
    · cases h

theorem foldVec_tok : ∀ (text : List Char) (a : ASt Token × Option Nat),
    (∃ q, ∀ k : ASt Token × Option Nat → AProg V W K R B, foldVec tokStepProg text a k = .fail q) ∨
    ∃ a', (∀ k : ASt Token × Option Nat → AProg V W K R B, foldVec tokStepProg text a k = k a') ∧ a'.2 = openAfter a.2 text ∧
      (a.1.current ≠ [] ∨ Speaks a.2 text → a'.1.current ≠ []) := by
  intro text
  induction text with
  | nil => intro a; exact .inr ⟨a, fun k => rfl, rfl, fun h => h.elim id (fun h => h.elim)⟩
  | cons c text ih =>
    intro a
    have next : ∀ a' : ASt Token × Option Nat, a'.2 = openStep a.2 c → (a.1.current ≠ [] ∨ completes a.2 c → a'.1.current ≠ []) →
        (∀ k : ASt Token × Option Nat → AProg V W K R B, tokStepProg a c k = k a') →
        (∃ q, ∀ k : ASt Token × Option Nat → AProg V W K R B, foldVec tokStepProg (c :: text) a k = .fail q) ∨
        ∃ a', (∀ k : ASt Token × Option Nat → AProg V W K R B, foldVec tokStepProg (c :: text) a k = k a') ∧ a'.2 = openAfter a.2 (c :: text) ∧
          (a.1.current ≠ [] ∨ Speaks a.2 (c :: text) → a'.1.current ≠ []) := by
      intro a' h1 h2 h3
      have e : ∀ k : ASt Token × Option Nat → AProg V W K R B, foldVec tokStepProg (c :: text) a k = foldVec tokStepProg text a' k := by
        intro k; rw [foldVec, h3]
      rcases ih a' with ⟨q, h⟩ | ⟨b, b1, b2, b3⟩
      · exact .inl ⟨q, fun k => (e k).trans (h k)⟩
      · refine .inr ⟨b, fun k => (e k).trans (b1 k), ?_, ?_⟩
        · rw [b2, h1]; rfl
        · rw [h1] at b3
          rintro (h | h)
          · exact b3 (.inl (h2 (.inl h)))
          · rcases h with h | h
            · exact b3 (.inl (h2 (.inr h)))
            · exact b3 (.inr h)
    have hd := toDigit_eq c
    cases hc : digitOf c with
    | some num =>
      rw [hc] at hd
      cases hg : Eval.Adder.growOpt a.2 num with
      | error q => exact .inl ⟨q, fun k => by simp only [foldVec, tokStepProg, hd, hg]⟩
      | ok bigger =>
        have hv := growOpt_val hg
        by_cases hb : bigger > 99999
        · refine next (a.1.push (.num bigger), some num) ?_ (fun _ => by simp [ASt.push]) (fun k => by simp only [tokStepProg, hd, hg, if_pos hb])
          simp only [openStep, hc, ← hv, if_pos hb]
        · refine next (a.1, some bigger) ?_ ?_ (fun k => by simp only [tokStepProg, hd, hg, if_neg hb])
          · simp only [openStep, hc, ← hv, if_neg hb]
          · rintro (h | h)
            · exact h
            · simp only [completes, hc, ← hv] at h
              exact absurd h hb
    | none =>
      rw [hc] at hd
      have hs : ∀ h : a.1.current ≠ [] ∨ a.2.isSome = true, (match a.2 with | some num => a.1.push (.num num) | none => a.1).current ≠ [] := by
        intro h
        cases ho : a.2 with
        | none => rw [ho] at h; simpa using h
        | some n => simp [ASt.push]
      by_cases hp : c = '+'
      · refine next ((match a.2 with | some num => a.1.push (.num num) | none => a.1).push .opPlus, none) ?_ (fun _ => by simp [ASt.push])
          (fun k => by simp only [tokStepProg, hd, if_pos hp]; cases a.2 <;> rfl)
        simp only [openStep, hc]
      · by_cases hq : c = ','
        · refine next (match a.2 with | some num => a.1.push (.num num) | none => a.1, none) ?_ ?_
            (fun k => by simp only [tokStepProg, hd, if_neg hp, if_pos hq]; cases a.2 <;> rfl)
          · simp only [openStep, hc]
          · rintro (h | h)
            · exact hs (.inl h)
            · simp only [completes, hc] at h
              exact hs (.inr (h.resolve_left hp))
        · exact .inl ⟨.explicit, fun k => by simp only [foldVec, tokStepProg, hd, if_neg hp, if_neg hq]⟩

/-- The open number is carried; the rest of the accumulator is the link of the cell with the name of the node before. -/
def tokCarry : Carry (ASt Token × Option Nat) (TreeData Char M) (Option Nat) where
  adv := openNode
  home c := (match c.1 with
    | none => ASt.new
    | some m => if m = .str "start" then ASt.new else ⟨[], some ⟨some m, .named m []⟩⟩, c.2)
  Mid o a := a.1.current ≠ [] ∧ a.2 = o
  okLeaf d o := ∃ text, d = .leaf text ∧ Speaks o text
  okNode d m := (∀ v, d ≠ .leaf v) ∧ m ≠ .str "start"

theorem tok_inj (n : Option Name) (o o' : Option Nat) (h : (tokCarry (M := M)).home (n, o) = (tokCarry (M := M)).home (n, o')) : o = o' := congrArg Prod.snd h

section
variable [DecidableEq D] [DecidableEq X] [DecidableEq D'] [DecidableEq X'] [DecidableEq A] [DecidableEq M]

theorem tok_can : NodeCan (X := X) (tokNode : AccNode _ _ _ _) (tokSem (M := M) (D' := D')) tokCarry := by
  intro callee σ s ns a x d lv n k fr hr hd
  have node : ∀ d : TreeData Char M, (∀ v, d ≠ .leaf v) → (∀ m ∈ n.toList, ¬ ns m) →
      ∃ a' fs s', amexec callee σ (archiveProg a.1 n lv fun ts => k (ts, a.2)) s = after [] fs 0 (amexec callee σ (k a') s') ∧ s'.table = s.table ∧
        Fresh s'.mem ∧ Keeps n.toList s.mem s'.mem ∧ Agrees fs s'.mem ∧
        StepsTo (tokSem (M := M)) fs a a' (fun x => .ok (Eval.Adder.tokenizeMeta (Eval.Adder.stackAccum Token) x (lv, n))) n.toList ∧
        (∀ o, tokCarry.okLeaf d o → a = (tokCarry (M := M)).home (n, o) → (tokCarry (M := M)).Mid (tokCarry.adv d o) a' ∧ Within fs n.toList) ∧
        (∀ m o, tokCarry.okNode d m → n = some m → (tokCarry (M := M)).Mid o a → a' = (tokCarry (M := M)).home (n, o) ∧ Within fs n.toList) := by
    intro d hl hd
    obtain ⟨a', fs, s', e1, t1, f1, k1, g1, w1, c1, r1⟩ := archive_run callee σ s fr a.1 n lv (fun ts => k (ts, a.2))
    refine ⟨(a', a.2), fs, s', e1, t1, f1, k1, g1, ?_, ?_, ?_⟩
    · intro τ ns x _ hag hr hd
      exact ⟨_, rfl, ⟨r1 τ ns x.1 hag hr.1 hd, hr.2⟩, fun m q c hm => .inr (w1 m q c hm)⟩
    · rintro o ⟨v, rfl, -⟩
      exact absurd rfl (hl v)
    · rintro m o ⟨-, hne⟩ rfl hmid
      refine ⟨?_, w1⟩
      rw [c1 hmid.1 m rfl, hmid.2]
      simp only [tokCarry, if_neg hne]
  cases d with
  | leaf text =>
    have h1 := (tok_ok (M := M) (D' := D') (X := X)).run callee σ s ns a x (.leaf text) lv n k fr hr hd
    have h2 := (tok_ok (M := M) (D' := D') (X := X)).run callee σ s ns a x (.leaf text) lv n .ret fr hr hd
    cases hx : (tokSem (M := M) (D' := D')).f x (.leaf text) lv n with
    | error q => rw [hx] at h1; exact h1
    | ok y =>
      rw [hx] at h2
      obtain ⟨a', fs, s', e1, t1, f1, k1, g1, st1, -⟩ := h2
      have hn : ∀ k, (tokNode : AccNode (Cell (TreeData Char M) X) (Cell D' (Nat × List Token)) _ (TreeData Char M)) a (.leaf text) lv n k =
          foldVec tokStepProg text a k := fun k => rfl
      rw [hn] at e1
      rcases foldVec_tok (V := Cell (TreeData Char M) X) (W := Cell D' (Nat × List Token)) (K := LrKey (ASt Token × Option Nat))
        (R := ASt Token × Option Nat) (B := ASt Token × Option Nat) text a with ⟨q, h⟩ | ⟨b, b1, b2, b3⟩
      · rw [h] at e1
        simp only [amexec, after] at e1
        cases e1
      · rw [b1] at e1
        simp only [amexec, after, List.append_nil, Nat.add_zero, Option.some.injEq, Except.ok.injEq, AOut.mk.injEq] at e1
        obtain ⟨q1, -, q2, -, q3⟩ := e1
        simp only [hn, b1]
        refine ⟨b, [], s, (after_zero _).symm, rfl, fr, Keeps.refl _ _, Agrees.nil _, ?_, ?_, ?_⟩
        · have : fs = [] := by simpa using q2.symm
          rw [this, ← q1] at st1
          exact st1
        · rintro o ⟨t, ht, hsp⟩ rfl
          cases ht
          exact ⟨⟨b3 (.inr hsp), b2⟩, Within.nil _⟩
        · rintro m o ⟨h, -⟩
          exact absurd rfl (h text)
  | dummy => exact node .dummy (fun v h => by cases h) hd
  | branch l r => exact node (.branch l r) (fun v h => by cases h) hd

end
end Iodyn.Incr.Op
