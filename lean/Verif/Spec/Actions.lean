import Verif.Model.Actions
/-
What the tables of the test driver are meant to contain.
-/
namespace Iodyn.Eval
variable {D O S W τ : Type}

/-- The changes of a session one after another, each with the time of the edit, the times of the computation and its answer: each
edit gets the data and the world as they are at that time, the computation gets the edited data. -/
inductive Rounds (edit : D → S → P (τ × D × S)) (comp : D → S → P (W × O × S)) : D → S → List (τ × W × O) → S → Prop
  | nil {d s} : Rounds edit comp d s [] s
  | cons {d s t d' s' w o s1 rows s2} : edit d s = .ok (t, d', s') → comp d' s' = .ok (w, o, s1) →
      Rounds edit comp d' s1 rows s2 → Rounds edit comp d s ((t, w, o) :: rows) s2

/-- Computations made of single folds by putting them one after another, with the number of folds. -/
inductive Staged {τ S : Type} : {D O : Type} → Nat → Computor (List τ) S D O → Prop
  | folder {D O : Type} (comp : D → S → P (τ × O × S)) : Staged 1 (folder comp)
  | ffolder {D A O : Type} (comp : D → S → P (τ × A × S)) (finish : A → S → P (O × S)) : Staged 1 (ffolder comp finish)
  | proj0 {Q T : Type} : Staged 0 (proj0 : Computor (List τ) S (Q × T) Q)
  | compute2 {I J K : Type} {m n : Nat} {a : Computor (List τ) S I J} {b : Computor (List τ) S J K} :
      Staged m a → Staged n b → Staged (m + n) (compute2 a b)

/-- Answer and world without times and clock. -/
def untimed {Q X Y : Type} (x : P (Y × X × (S × Q))) : P (X × S) := x.map fun r => (r.2.1, r.2.2.1)

/-- The driver with times around creation and edits. -/
def timedTable {Q R T : Type} (read : Q → Int × Q) (create : R → P (D × R)) (edit : D → R → P (D × R)) (comp : Computor W ((T × R) × Q) D O) :
    Nat → (T × R) × Q → P (Table Int W O × ((T × R) × Q)) :=
  testTable (span read fun w => (create w.2).map fun x => (x.1, (w.1, x.2))) (fun d => span read fun w => (edit d w.2).map fun x => (x.1, (w.1, x.2))) comp

/-- `SingleAppend` so many times. -/
def singles {E G R : Type} (C : Coord G E) (word : R → BitVec 64 × R) : Nat → EvalRaz E Count G → R → P (EvalRaz E Count G × R)
  | 0, s, rng => .ok (s, rng)
  | n+1, s, rng => do
    let (_, s, rng) ← singleAppend (fun s b rng => (EvalIRaz.append C word s b rng).map fun x => ((), x)) s rng
    singles C word n s rng

end Iodyn.Eval
