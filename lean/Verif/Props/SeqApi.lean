import Verif.Proof.SeqApi
/-
The list types and the sequence interface of the evaluation suite (C43, C49).
-/
namespace Iodyn.Eval
variable {X : Type}

theorem anonFresh_empty {V : Type} : AnonFresh (Store.empty : Store V) := fun _ _ => rfl

/-- C43 with the functional engine: on `List`, `RcList`, `VecList`, `RcVecList` every program of pushes, pops,
archivings and clones (with any levels and names) ends and its pops answer like those of plain stacks; archiving
leaves the elements alone. `f` bounds the recursion of a `seq_pop`; a large enough one always exists. -/
theorem C43_naive (ops : List (SeqOp X)) (hv : Valid 0 ops) :
    ∃ f0, ∀ f, f0 ≤ f →
      (listImpl .naive).run f Store.empty [] ops = .ok (plainSeqRun [] ops) ∧
      (vecListImpl .naive).run f Store.empty [] ops = .ok (plainSeqRun [] ops) := by
  obtain ⟨f1, h1⟩ := (list_refines (X := X) .naive).run ops anonFresh_empty .nil hv (.inl fun _ _ => .inl rfl)
  obtain ⟨f2, h2⟩ := (vecList_refines (X := X) .naive).run ops anonFresh_empty .nil hv (.inl fun _ _ => .inl rfl)
  exact ⟨max f1 f2, fun f hf => ⟨h1 f (by omega), h2 f (by omega)⟩⟩

/-- C43 with the incremental engine, for programs that use each name once. Missing from the full claim: programs that
use a name twice, see `C43_dcg_diverges` and `C43_dcg_aliases`. -/
theorem C43_dcg_partial (ops : List (SeqOp X)) (hv : Valid 0 ops) (hn : (ops.filterMap SeqOp.name?).Nodup) :
    ∃ f0, ∀ f, f0 ≤ f →
      (listImpl .dcg).run f Store.empty [] ops = .ok (plainSeqRun [] ops) ∧
      (vecListImpl .dcg).run f Store.empty [] ops = .ok (plainSeqRun [] ops) := by
  obtain ⟨f1, h1⟩ := (list_refines (X := X) .dcg).run ops anonFresh_empty .nil hv
    (.inr ⟨hn, fun _ => .inl (.inr fun _ _ => rfl)⟩)
  obtain ⟨f2, h2⟩ := (vecList_refines (X := X) .dcg).run ops anonFresh_empty .nil hv
    (.inr ⟨hn, fun _ => .inl (.inr fun _ _ => rfl)⟩)
  exact ⟨max f1 f2, fun f hf => ⟨h1 f (by omega), h2 f (by omega)⟩⟩

/-- A program with two values, archive points with and without name and pops across them. -/
def exProg : List (SeqOp Nat) :=
  [.new, .push 0 1, .push 0 2, .archive 0 3 (some (.usize 5)), .archive 0 1 none, .push 0 3, .clone 0, .pop 0, .pop 0,
   .archive 1 2 (some (.usize 6)), .push 1 9, .pop 1, .pop 1, .pop 1, .pop 0, .pop 0, .pop 1]

example : Valid 0 exProg ∧ (exProg.filterMap SeqOp.name?).Nodup ∧
    plainSeqRun [] exProg = [some 3, some 2, some 9, some 3, some 2, some 1, none, some 1] := by
  refine ⟨?_, by decide, by decide⟩
  simp [exProg, Valid, SeqOp.Valid, SeqOp.count]

/-- C43 fails with the incremental engine when a name is archived twice in a row: the cell then refers to itself and
`seq_pop` never ends (every recursion bound is exceeded). -/
theorem C43_dcg_diverges (n : Name) :
    Valid 0 [SeqOp.new, .push 0 1, .archive 0 1 (some n), .archive 0 1 (some n), .pop 0] ∧
    plainSeqRun [] [SeqOp.new, .push 0 1, .archive 0 1 (some n), .archive 0 1 (some n), .pop 0] = [some 1] ∧
    ∀ f,
      (∃ e, (listImpl (X := Nat) .dcg).run f Store.empty []
        [.new, .push 0 1, .archive 0 1 (some n), .archive 0 1 (some n), .pop 0] = .error e) ∧
      (∃ e, (vecListImpl (X := Nat) .dcg).run f Store.empty []
        [.new, .push 0 1, .archive 0 1 (some n), .archive 0 1 (some n), .pop 0] = .error e) := by
  refine ⟨by simp [Valid, SeqOp.Valid, SeqOp.count], rfl, fun f => ⟨?_, ?_⟩⟩
  · let σ : Store (AList Nat) := (((Store.empty.cell .dcg n (.cons 1 .nil)).1).cell .dcg n (.name n (.art (.named n)))).1
    have loop : ∀ f, (∃ e, AList.pop σ f (.name n (.art (.named n))) = .error e) ∧
        (∃ e, AList.pop σ f (.art (.named n)) = .error e) := by
      intro f
      induction f with
      | zero => exact ⟨⟨_, rfl⟩, ⟨_, rfl⟩⟩
      | succ f ih =>
        refine ⟨ih.2, ?_⟩
        have : σ.force (.named n) = .ok (.name n (.art (.named n))) := by
          simp [σ, Store.force, Store.cell, Store.set, Store.empty]
        obtain ⟨e, he⟩ := ih.1
        exact ⟨e, by simp only [AList.pop, this, bind, Except.bind]; exact he⟩
    obtain ⟨e, he⟩ := (loop f).1
    exact ⟨e, by
      simp only [SeqImpl.run, SeqImpl.step, listImpl, bind, Except.bind, unwrap, List.nil_append, List.getElem?_cons_zero,
        List.set_cons_zero, AList.push, AList.archive, pure, Except.pure, Store.cell]
      simp only [σ, Store.cell] at he
      exact he ▸ rfl⟩
  · let σ : Store (VList Nat) := (((Store.empty.cell .dcg n (.cons [1] .nil)).1).cell .dcg n (.name n (.art (.named n)))).1
    have loop : ∀ f, (∃ e, VList.pop σ f (.name n (.art (.named n))) = .error e) ∧
        (∃ e, VList.pop σ f (.art (.named n)) = .error e) := by
      intro f
      induction f with
      | zero => exact ⟨⟨_, rfl⟩, ⟨_, rfl⟩⟩
      | succ f ih =>
        refine ⟨ih.2, ?_⟩
        have : σ.force (.named n) = .ok (.name n (.art (.named n))) := by
          simp [σ, Store.force, Store.cell, Store.set, Store.empty]
        obtain ⟨e, he⟩ := ih.1
        exact ⟨e, by simp only [VList.pop, this, bind, Except.bind]; exact he⟩
    obtain ⟨e, he⟩ := (loop f).1
    exact ⟨e, by
      simp only [SeqImpl.run, SeqImpl.step, vecListImpl, bind, Except.bind, unwrap, List.nil_append, List.getElem?_cons_zero,
        List.set_cons_zero, VList.push, VList.archive, pure, Except.pure, Store.cell]
      simp only [σ, Store.cell] at he
      exact he ▸ rfl⟩

/-- C43 fails with the incremental engine when two versions of a list archive under the same name: an operation on
one changes the elements of the other. The clone holds 1, but its pop gives 2. -/
theorem C43_dcg_aliases :
    Valid 0 [SeqOp.new, .push 0 1, .archive 0 1 (some .unit), .clone 0, .new, .push 2 2, .archive 2 1 (some .unit), .pop 1] ∧
    plainSeqRun [] [SeqOp.new, .push 0 1, .archive 0 1 (some .unit), .clone 0, .new, .push 2 2,
      .archive 2 1 (some .unit), .pop 1] = [some 1] ∧
    ∀ f,
      (listImpl (X := Nat) .dcg).run (f + 3) Store.empty [] [.new, .push 0 1, .archive 0 1 (some .unit), .clone 0, .new,
        .push 2 2, .archive 2 1 (some .unit), .pop 1] = .ok [some 2] ∧
      (vecListImpl (X := Nat) .dcg).run (f + 3) Store.empty [] [.new, .push 0 1, .archive 0 1 (some .unit), .clone 0, .new,
        .push 2 2, .archive 2 1 (some .unit), .pop 1] = .ok [some 2] :=
  ⟨by simp [Valid, SeqOp.Valid, SeqOp.count], rfl, fun _ => ⟨rfl, rfl⟩⟩

/-- C49: the other implementations of the sequence interface, `IRaz`, `IAStack<T,u32>`, `IAStack<T,()>` and `Vec`,
answer every program (any levels at least 1, any names) like plain stacks and never panic. -/
theorem C49 (ops : List (SeqOp X)) (hv : Valid 0 ops) (f : Nat) :
    irazImpl.run f () [] ops = .ok (plainSeqRun [] ops) ∧
    iastackImpl.run f () [] ops = .ok (plainSeqRun [] ops) ∧
    iastackUnitImpl.run f () [] ops = .ok (plainSeqRun [] ops) ∧
    vecImpl.run f () [] ops = .ok (plainSeqRun [] ops) := by
  have nofuel : ∀ {S : Type} (I : SeqImpl Unit S X), (∀ f g σ s, I.pop f σ s = I.pop g σ s) →
      ∀ (f g : Nat) σ pool ops, I.run f σ pool ops = I.run g σ pool ops := by
    intro S I h f g σ pool ops
    induction ops generalizing σ pool with
    | nil => rfl
    | cons op ops ih =>
      have : I.step f σ pool op = I.step g σ pool op := by
        cases op with
        | pop i => simp only [SeqImpl.step, h f g]
        | _ => rfl
      simp only [SeqImpl.run, this, ih]
  have fin : ∀ {S : Type} {I : SeqImpl Unit S X} {R : Unit → S → List X → Prop},
      Refines I (fun _ => True) R (fun _ _ => True) → (∀ f g σ s, I.pop f σ s = I.pop g σ s) →
      I.run f () [] ops = .ok (plainSeqRun [] ops) := by
    intro S I R h hp
    obtain ⟨f0, h1⟩ := h.run (σ := ()) (pool := []) (lpool := []) ops trivial .nil hv (.inl fun _ _ => trivial)
    rw [nofuel I hp f f0]
    exact h1 f0 (Nat.le_refl _)
  exact ⟨fin iraz_refines (fun _ _ _ _ => rfl), fin iastack_refines (fun _ _ _ _ => rfl),
    fin iastackUnit_refines (fun _ _ _ _ => rfl), fin vec_refines (fun _ _ _ _ => rfl)⟩

example : Valid 0 exProg := by simp [exProg, Valid, SeqOp.Valid, SeqOp.count]

end Iodyn.Eval
