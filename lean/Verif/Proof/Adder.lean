import Verif.Props.Fold
import Verif.Props.Canon
import Verif.Proof.SeqApi
import Verif.Spec.Programs
import Mathlib.Tactic.IntervalCases
/-
The adder program: its stack and its vector accumulators agree.
-/
namespace Iodyn.Eval.Adder
variable {X G : Type}

/-- Same panic, or related values. -/
def Same {A B : Type} (R : A → B → Prop) : P A → P B → Prop
  | .ok a, .ok b => R a b
  | .error e, .error e' => e = e'
  | _, _ => False

theorem Same.bind {A B C D : Type} {R : A → B → Prop} {S : C → D → Prop} {x : P A} {y : P B} {f : A → P C} {g : B → P D}
    (h : Same R x y) (hf : ∀ a b, R a b → Same S (f a) (g b)) : Same S (x.bind f) (y.bind g) := by
  cases x <;> cases y <;> first | exact h | exact hf _ _ h | exact h.elim

theorem Same.map {A B C D : Type} {R : A → B → Prop} {S : C → D → Prop} {x : P A} {y : P B} {f : A → C} {g : B → D}
    (h : Same R x y) (hf : ∀ a b, R a b → S (f a) (g b)) : Same S (x.map f) (y.map g) := by
  cases x <;> cases y <;> first | exact h | exact hf _ _ h

theorem Same.refl {A : Type} (x : P A) : Same Eq x x := by cases x <;> exact rfl

/-- A stack whose archives have these levels, and the vector of its elements. -/
def HoldsOf (ok : Nat → Prop) (s : AStack X Nat) (v : List X) : Prop := s.Built ok ∧ s.elems.reverse = v

/-- A stack whose archives have usable levels, and the vector of its elements. -/
abbrev Holds (s : AStack X Nat) (v : List X) : Prop := HoldsOf (fun n => 1 ≤ n ∧ n < u32Max) s v

variable {ok : Nat → Prop}

theorem holds_new : HoldsOf ok (stackAccum X).new ((vecAccum X).new) := ⟨.new, rfl⟩

theorem holds_push {s : AStack X Nat} {v : List X} (h : HoldsOf ok s v) (x : X) :
    HoldsOf ok ((stackAccum X).push s x) ((vecAccum X).push v x) :=
  ⟨.push x h.1, by simp [stackAccum, vecAccum, AStack.elems, AStack.push, ← h.2]⟩

theorem stackP_any {s : AStack X Nat} (h : StackP ok s) : StackP (fun _ => True) s :=
  fun p hp => ⟨trivial, (h p hp).2⟩

theorem holds_pop {s : AStack X Nat} {v : List X} (h : HoldsOf ok s v) :
    Same (fun a b => a.1 = b.1 ∧ HoldsOf ok a.2 b.2) ((stackAccum X).pop s) ((vecAccum X).pop v) := by
  obtain ⟨s', h1, h2, -⟩ := stackPop_elems (stackP_any h.1.inv)
  simp only [stackAccum, h1, bind, Except.bind, pure, Except.pure, vecAccum, Same]
  refine ⟨?_, .pop h.1 h1, ?_⟩
  · rw [← h.2]; simp
  · rw [h2, ← h.2]; cases s.elems <;> simp

theorem holds_archive {s : AStack X Nat} {v : List X} (h : HoldsOf ok s v) {l : Nat} (n : Option Name) (hl : ok l) :
    HoldsOf ok ((stackAccum X).archive s l n) v := by
  refine ⟨.archive n l hl h.1, ?_⟩
  rw [← h.2]
  congr 1
  exact (stackArchive_elems (stackP_any h.1.inv) n l).1

theorem tokenizeStep_same {s : AStack Token Nat × Option Nat} {v : List Token × Option Nat} (h : HoldsOf ok s.1 v.1 ∧ s.2 = v.2) (c : Char) :
    Same (fun s v => HoldsOf ok s.1 v.1 ∧ s.2 = v.2) (tokenizeStep (stackAccum Token) s c) (tokenizeStep (vecAccum Token) v c) := by
  obtain ⟨s, part⟩ := s
  obtain ⟨v, part'⟩ := v
  obtain ⟨h, e⟩ := h
  simp only at e h
  subst e
  unfold tokenizeStep
  cases toDigit c with
  | some num =>
    refine (Same.refl (growOpt part num)).bind ?_
    rintro b _ rfl
    by_cases hb : b > 99999
    · simp only [hb, if_true]
      exact ⟨holds_push h _, rfl⟩
    · simp only [hb, if_false]
      exact ⟨h, rfl⟩
  | none =>
    by_cases h1 : c = '+'
    · simp only [h1, if_true]
      cases part with
      | none => exact ⟨holds_push h _, rfl⟩
      | some n => exact ⟨holds_push (holds_push h _) _, rfl⟩
    · by_cases h2 : c = ','
      · simp only [h2, if_true]
        cases part with
        | none => exact ⟨h, rfl⟩
        | some n => exact ⟨holds_push h _, rfl⟩
      · simp only [h1, h2, if_false]
        exact rfl

theorem parseStep_same {s : AStack Nat Nat} {v : List Nat} (h : HoldsOf ok s v) (t : Token) :
    Same (HoldsOf ok) (parseStep (stackAccum Nat) s t) (parseStep (vecAccum Nat) v t) := by
  unfold parseStep
  cases t with
  | num a => exact holds_push h _
  | opPlus =>
    refine (holds_pop h).bind ?_
    rintro ⟨o, s1⟩ ⟨o', v1⟩ ⟨rfl, h1⟩
    rcases o with _ | b
    · exact h1
    · refine (holds_pop h1).bind ?_
      rintro ⟨o, s2⟩ ⟨o', v2⟩ ⟨rfl, h2⟩
      rcases o with _ | a
      · exact holds_push h2 _
      · refine (Same.refl (addU32 a b)).bind ?_
        rintro c _ rfl
        exact holds_push h2 _

/-- A fold over elements and archive points against a fold over the elements. -/
theorem foldItems_same {E S V : Type} {R : S → V → Prop} {f : S → E → P S} {g : V → E → P V} {mt : S → Nat × Option Name → S}
    (hf : ∀ s v e, R s v → Same R (f s e) (g v e)) {l : List (Item E)}
    (hm : ∀ s v, R s v → ∀ m ∈ marksOf l, R (mt s m) v) {x : P S} {y : P V} (h : Same R x y) :
    Same R (foldItems (lift f) (fun a m => a.map (fun s => mt s m)) x l) ((elemsOf l).foldl (lift g) y) := by
  induction l generalizing x y with
  | nil => exact h
  | cons i l ih =>
    cases i with
    | elem e =>
      refine ih (fun s v hR m hx => hm s v hR m (by simpa [marksOf] using hx)) ?_
      exact h.bind (fun a b hab => hf a b e hab)
    | mark a b =>
      rw [elemsOf_mark]
      refine ih (fun s v hR m hx => hm s v hR m (by simp [marksOf] at hx ⊢; exact .inr hx)) ?_
      have := h.map (f := fun s => mt s (a, b)) (g := fun v => v) (S := R) (fun s v hR => hm s v hR (a, b) (by simp [marksOf]))
      cases y <;> exact this
    | pend a b =>
      rw [elemsOf_pend]
      refine ih (fun s v hR m hx => hm s v hR m (by simp [marksOf] at hx ⊢; exact .inr hx)) ?_
      have := h.map (f := fun s => mt s (a, b)) (g := fun v => v) (S := R) (fun s v hR => hm s v hR (a, b) (by simp [marksOf]))
      cases y <;> exact this

end Iodyn.Eval.Adder
