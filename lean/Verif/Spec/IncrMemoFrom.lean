import Verif.Model.IncrMemoFrom
import Verif.Spec.IncrMap
/-
Namespaces in which archive stacks are converted again and again.
-/
namespace Iodyn
variable {E M : Type}
namespace Incr
open Iodyn.Heap (Tr Head Cell Mem ASt)
variable {D X : Type}

/-- Behind the handle `h` are these names and elements, from the top. -/
inductive StackView (σ : Mem D X) : Option Head → Stack X → Prop
  | nil : StackView σ none []
  | cons {h : Head} {x : X} {t : Option Head} {l : Stack X} (hc : σ.cells h.main = some (.body x t)) (ht : StackView σ t l) :
    StackView σ (some h) ((h.name, x) :: l)

/-- Behind the handle is this archive stack. -/
def AView (σ : Mem D (Nat × List E)) (hs : ASt E) (s : AStack E Nat) : Prop :=
  hs.current = s.current ∧ StackView σ hs.archived s.archived

/-- The names of the archive points. -/
def stackNames (s : AStack E Nat) : List Name := s.archived.filterMap (·.1)

/-- The namespaces that come from converting stacks one after the other, from either end. The stacks are in any stores; the names of the
archive points of one stack are different. -/
inductive Converted [RazMeta E M] [DecidableEq E] [DecidableEq M] : FSpace E M → Prop
  | start : Converted Space.empty
  | conv {s : FSpace E M} {w : End} {σ : Mem (TreeData E M) (Nat × List E)} {hs : ASt E} {a : AStack E Nat} {n : Nat} {o}
    (hc : Converted s) (hv : AView σ hs a) (hn : (stackNames a).Nodup) (ho : memoFromRun w σ n hs s = some (.ok o)) : Converted o.space

end Incr

/-! ### Clients -/

/-- What a client does. -/
inductive FEv (E I : Type) where
  /-- a step with sequences and stacks, see `SEv` -/
  | ev (x : SEv E I)
  /-- `ns(p, || RazTree::memo_from(&AtTail(s_j.clone())))`, or `AtHead`; the stack stays -/
  | conv (p : Name) (w : End) (j : Nat)

/-- What the client sees: of a converted stack, all there is. -/
inductive FAns (E M : Type) where
  | out (o : Out E)
  | made (t : RazTree E M)
  /-- the variable holds no stack -/
  | bad
  /-- the tree cannot be read -/
  | lost

/-- The other steps among the events. -/
def FEv.evs {I : Type} : List (FEv E I) → List (SEv E I)
  | [] => []
  | .ev x :: l => x :: FEv.evs l
  | .conv .. :: l => FEv.evs l

/-- One event with values: converted from scratch. -/
def SSt.fev [RazMeta E M] (st : SSt E M) : FEv E (RazMeta.Index E M) → P (SSt E M × FAns E M)
  | .ev x => do
    let (st', o) ← st.step x
    return (st', .out o)
  | .conv _ w j =>
    match st.stacks[j]? with
    | some (some s) => do
      let t ← w.conv s
      return (st, .made t)
    | _ => return (st, .bad)

/-- All events with values. -/
def SSt.fevs [RazMeta E M] : SSt E M → List (FEv E (RazMeta.Index E M)) → P (SSt E M × List (FAns E M))
  | st, [] => .ok (st, [])
  | st, ev :: l => do
    let (st', a) ← st.fev ev
    let (st'', as) ← SSt.fevs st' l
    return (st'', a :: as)

/-- What the client sees with values. -/
def fevAnswers [RazMeta E M] (l : List (FEv E (RazMeta.Index E M))) : P (List (FAns E M)) :=
  (SSt.fevs (⟨[], []⟩ : SSt E M) l).map (·.2)

namespace Heap
variable [RazMeta E M] [DecidableEq E] [DecidableEq M]

/-- One event over the store, with the incremental engine; `S` are the namespaces. -/
def HSSt.fev (st : HSSt E M) (S : Name → Incr.FSpace E M) :
    FEv E (RazMeta.Index E M) → HR E M (HSSt E M × (Name → Incr.FSpace E M) × FAns E M)
  | .ev x => do
    let (st', o) ← st.step .dcg x
    return (st', S, .out o)
  | .conv p w j =>
    match st.stacks[j]? with
    | some (some s) => do
      let (t, sp) ← Incr.memoFromIn w s (S p)
      return (st, fun q => if q = p then sp else S q,
        (← fun f σ => .ok (match Incr.readTree sp.mem f t.tree with
          | some v => .made ⟨t.info, v⟩
          | none => .lost, σ)))
    | _ => return (st, S, .bad)

/-- All events over the store. -/
def HSSt.fevs : HSSt E M → (Name → Incr.FSpace E M) → List (FEv E (RazMeta.Index E M)) →
    HR E M (HSSt E M × (Name → Incr.FSpace E M) × List (FAns E M))
  | st, S, [] => return (st, S, [])
  | st, S, ev :: l => do
    let (st', S', a) ← HSSt.fev st S ev
    let (st'', S'', as) ← HSSt.fevs st' S' l
    return (st'', S'', a :: as)

/-- What the client sees from an empty store: its answers, or the panic it ends with. -/
def FEvAnswers (l : List (FEv E (RazMeta.Index E M))) (r : P (List (FAns E M))) : Prop :=
  ∃ f0, ∀ f, f0 ≤ f → (HSSt.fevs (M := M) ⟨[], []⟩ (fun _ => Incr.Space.empty) l f Store.empty).map (fun x => x.1.2.2) = r
end Heap

end Iodyn
