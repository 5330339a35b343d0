import Verif.Model.EvalStack
import Verif.Model.Actions
import Verif.Props.Stack
/-
C44: the harness for archive stacks.
-/
namespace Iodyn.Eval
variable {E G S : Type}

/-- **C44.** The action that makes an empty harness for archive stacks succeeds, uses no random numbers, takes over the generator, and whatever the gauges are: its stack
answers every series of calls as an empty stack does. -/
theorem C44_stack_empty (dg ng : Nat) (coord : G) (rng : S) :
    ∃ s : EvalIAStack E G, incrementalEmpty (fun dg ng c r => .ok ((), EvalIAStack.incEmpty dg ng c, r)) dg ng coord rng = .ok ((), s, rng) ∧ s.coord = coord ∧
      ∀ ops : List (SOp E Nat), s.stack.answers ops = .ok (specAnswers [] ops) :=
  ⟨_, rfl, rfl, fun ops => C25_stack_histories ops⟩

/-- **C44.** The harness is shown as the list of the elements of its stack, the last one first. -/
theorem C44_stack_shown {s : EvalIAStack E G} (h : s.stack.Built fun _ => True) {n : Nat} (hn : s.stack.elems.length < n) : s.shown n = .ok s.stack.elems :=
  drain_spec n h.inv hn

/-- Elements pushed on the stack of a new harness are shown in the reverse order. -/
theorem C44_stack_pushed (dg ng : Nat) (coord : G) (xs : List E) :
    ({ (EvalIAStack.incEmpty dg ng coord : EvalIAStack E G) with stack := xs.foldl AStack.push (EvalIAStack.incEmpty dg ng coord : EvalIAStack E G).stack }).shown
      (xs.length + 1) = .ok xs.reverse := by
  have key : ∀ (xs : List E) (s : AStack E Nat), s.Built (fun _ => True) →
      (xs.foldl AStack.push s).Built (fun _ => True) ∧ (xs.foldl AStack.push s).elems = xs.reverse ++ s.elems := by
    intro xs
    induction xs with
    | nil => intro s h; exact ⟨h, rfl⟩
    | cons x xs ih =>
      intro s h
      obtain ⟨h1, h2⟩ := ih (s.push x) (.push x h)
      refine ⟨h1, ?_⟩
      rw [List.foldl_cons, h2]
      simp [AStack.elems, AStack.push]
  obtain ⟨h1, h2⟩ := key xs AStack.new .new
  have h3 : (xs.foldl AStack.push (AStack.new : AStack E Nat)).elems = xs.reverse := by rw [h2]; simp [AStack.elems, AStack.new]
  have := C44_stack_shown (s := (⟨xs.foldl AStack.push AStack.new, coord⟩ : EvalIAStack E G)) h1 (n := xs.length + 1) (by
    show (xs.foldl AStack.push (AStack.new : AStack E Nat)).elems.length < _
    rw [h3]; simp)
  rw [show (⟨xs.foldl AStack.push AStack.new, coord⟩ : EvalIAStack E G).stack.elems = xs.reverse from h3] at this
  exact this

/-! ### Cases that meet the conditions -/

example : ∃ s : EvalIAStack Nat Nat, incrementalEmpty (fun dg ng c r => .ok ((), EvalIAStack.incEmpty dg ng c, r)) 10 2 5 7 = .ok ((), s, 7) ∧
    s.stack.answers [.push 1, .push 2, .pop, .iter] = .ok [.unit, .unit, .val (some 2), .data [1]] := by
  obtain ⟨s, h1, -, h3⟩ := C44_stack_empty (E := Nat) 10 2 5 7
  exact ⟨s, h1, h3 _⟩
example : (⟨exS, 3⟩ : EvalIAStack Nat Nat).shown 5 = .ok [4, 3, 2, 1] := C44_stack_shown exS_built (by decide)
example : ({ (EvalIAStack.incEmpty 10 2 5 : EvalIAStack Nat Nat) with
    stack := [1, 2, 3].foldl AStack.push (EvalIAStack.incEmpty 10 2 5 : EvalIAStack Nat Nat).stack }).shown 4 = .ok [3, 2, 1] := C44_stack_pushed 10 2 5 [1, 2, 3]

end Iodyn.Eval
