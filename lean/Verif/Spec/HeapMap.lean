import Verif.Model.HeapMap
import Verif.Spec.Heap
/-
Clients that also map sequences, in the namespace and with the type of the sequence itself.
-/
namespace Iodyn
variable {E M C : Type}

/-- What a client does. `C` numbers the functions. -/
inductive TEv (E I C : Type) where
  /-- a statement, see `Cmd` -/
  | stmt (c : Cmd E I)
  /-- `v_i = v_i.map(f_c)`; with a clone before it, `let x = v_i.clone().map(f_c)` -/
  | map (c : C) (i : Nat)

/-- The statements among the events. -/
def TEv.stmts {I : Type} : List (TEv E I C) → List (Cmd E I)
  | [] => []
  | .stmt c :: l => c :: TEv.stmts l
  | _ :: l => TEv.stmts l

/-- One event with values. Mapping what is not a tree is rejected by rustc, and does nothing. -/
def Vars.tev [RazMeta E M] (fn : C → E → E) (vs : Vars E M) : TEv E (RazMeta.Index E M) C → P (Vars E M × Out E)
  | .stmt c => vs.step c
  | .map c i =>
    match vs[i]? with
    | some (some (.tree t)) => do
      let t' ← t.map (fn c)
      return (vs.set i (some (.tree t')), .unit)
    | _ => return (vs, .unit)

/-- All events with values. -/
def Vars.tevs [RazMeta E M] (fn : C → E → E) : Vars E M → List (TEv E (RazMeta.Index E M) C) → P (Vars E M × List (Out E))
  | vs, [] => .ok (vs, [])
  | vs, ev :: l => do
    let (vs', a) ← vs.tev fn ev
    let (vs'', as) ← Vars.tevs fn vs' l
    return (vs'', a :: as)

/-- The answers with values. -/
def tevAnswers (M : Type) [RazMeta E M] (fn : C → E → E) (l : List (TEv E (RazMeta.Index E M) C)) : P (List (Out E)) :=
  (Vars.tevs (M := M) fn [] l).map (·.2)

namespace Heap
variable [RazMeta E M]

/-- One event over the store. -/
def HVars.tev (e : Engine) (fn : C → E → E) (vs : HVars E M) : TEv E (RazMeta.Index E M) C → HR E M (HVars E M × Out E)
  | .stmt c => vs.step e c
  | .map c i =>
    match vs[i]? with
    | some (some (.tree t)) => do
      let t' ← t.map e (fn c)
      return (vs.set i (some (.tree t')), .unit)
    | _ => return (vs, .unit)

/-- All events over the store. -/
def HVars.tevs (e : Engine) (fn : C → E → E) : HVars E M → List (TEv E (RazMeta.Index E M) C) → HR E M (HVars E M × List (Out E))
  | vs, [] => return (vs, [])
  | vs, ev :: l => do
    let (vs', a) ← HVars.tev e fn vs ev
    let (vs'', as) ← HVars.tevs e fn vs' l
    return (vs'', a :: as)

/-- The result of a client on an empty store: its answers, or the panic it ends with. -/
def TEvAnswers (e : Engine) (fn : C → E → E) (l : List (TEv E (RazMeta.Index E M) C)) (r : P (List (Out E))) : Prop :=
  ∃ f0, ∀ f, f0 ≤ f → (HVars.tevs (M := M) e fn [] l f Store.empty).map (fun x => x.1.2) = r
end Heap

/-- One event with plain lists: `map` changes the variable it names and no other. -/
inductive LTEv {I : Type} (fn : C → E → E) : LVars E → TEv E I C → Out E → LVars E → Prop
  | stmt {vs vs' c o} : LVStep vs c o vs' → LTEv fn vs (.stmt c) o vs'
  | map {vs c i l} : vs.IsTree i l → LTEv fn vs (.map c i) .unit (vs.set i (some (.tree (l.map (fn c)))))
  /-- rejected by rustc -/
  | bad {vs c i} : (∀ l, ¬ vs.IsTree i l) → LTEv fn vs (.map c i) .unit vs

/-- All events with plain lists. -/
inductive LTEvs {I : Type} (fn : C → E → E) : LVars E → List (TEv E I C) → List (Out E) → LVars E → Prop
  | nil (vs) : LTEvs fn vs [] [] vs
  | cons {vs vs' vs'' ev l a as} : LTEv fn vs ev a vs' → LTEvs fn vs' l as vs'' → LTEvs fn vs (ev :: l) (a :: as) vs''

end Iodyn
