import Verif.Model.Eval
import Verif.Spec.Reach
/-
What the test harnesses of the evaluation suite are meant to do: random streams, and elements with an archive point
after every so many of them.
-/
namespace Iodyn.Eval
variable {E G : Type}

/-- The state of a generator after `n` draws. -/
def after {V : Type} (f : G → V × G) (g : G) : Nat → G
  | 0 => g
  | n+1 => after f (f g).2 n

/-- The `i`-th draw of a generator. -/
def draw {V : Type} (f : G → V × G) (g : G) (i : Nat) : V := (f (after f g i)).1

/-- The first `n` draws. -/
def draws {V : Type} (f : G → V × G) (g : G) (n : Nat) : List V := (List.range n).map (draw f g)

/-- Elements numbered from `c + 1`; after each element whose number is a multiple of `dg` there is an archive point, the
one after element `k` has level `lv (k / dg)`, and name `nm (k / q)` if `k` is also a multiple of `q`. -/
def stamped (dg q : Nat) (lv : Nat → Nat) (nm : Nat → Name) (c : Nat) (data : List E) : List (Item E) :=
  (data.zipIdx (c + 1)).flatMap fun p =>
    .elem p.1 :: if p.2 % dg = 0 then [.pend (lv (p.2 / dg)) (if p.2 % q = 0 then some (nm (p.2 / q)) else none)] else []

/-- The sequence after a batch edit: without its last item if that is an archive point at the very end. -/
def dropEnd (l : List (Item E)) : List (Item E) :=
  match l.reverse with
  | i :: r => if i.isMark then r.reverse else l
  | [] => l

/-- Whether the counters of a harness can take a batch: gauges of at least 1, and no overflow of the number types. -/
structure Fits {M : Type} (s : EvalRaz E M G) (batch : Nat) : Prop where
  datagauge : s.datagauge ≠ 0
  namegauge : s.namegauge ≠ 0
  gauges : s.namegauge * s.datagauge ≤ usizeMax
  counter : s.counter + batch ≤ usizeMax
  small : batch < usizeMax
  names : s.names + (batch / (s.namegauge * s.datagauge) + 1) ≤ usizeMax

/-- Edits of a harness with their batch sizes. -/
inductive Edit where
  | insert (batch : Nat)
  | append (batch : Nat)

/-- The batch size of an edit. -/
def Edit.size : Edit → Nat
  | insert n => n
  | append n => n

/-- An edit on a plain list and a random generator. -/
def Edit.spec (C : Coord G E) : Edit → List E × G → List E × G
  | insert n, (xs, g) =>
    let loc := (C.pos g).1 % xs.length
    (xs.take loc ++ draws C.elem (C.pos g).2 n ++ xs.drop loc, after C.elem (C.pos g).2 n)
  | append n, (xs, g) => (xs ++ draws C.elem g n, after C.elem g n)

/-- All edits one after another. -/
def specEdits (C : Coord G E) : List Edit → List E × G → List E × G
  | [], x => x
  | o :: os, x => specEdits C os (o.spec C x)

/-- An edit by the index-based harness. -/
def Edit.run {R : Type} (C : Coord G E) (word : R → BitVec 64 × R) : Edit → EvalRaz E Count G → R → P (EvalRaz E Count G × R)
  | insert n, s, rng => EvalIRaz.insert C word s n rng
  | append n, s, rng => EvalIRaz.append C word s n rng

/-- All edits one after another. -/
def runEdits {R : Type} (C : Coord G E) (word : R → BitVec 64 × R) : List Edit → EvalRaz E Count G → R → P (EvalRaz E Count G × R)
  | [], s, rng => .ok (s, rng)
  | o :: os, s, rng => do
    let (s, rng) ← o.run C word s rng
    runEdits C word os s rng

/-- An edit by the name-based harness. -/
def Edit.runN {R : Type} (C : Coord G E) (word : R → BitVec 64 × R) (order : List Name → List Name) :
    Edit → EvalRaz E Names G → R → P (EvalRaz E Names G × R)
  | insert n, s, rng => EvalRazNameIndex.insert C word order s n rng
  | append n, s, rng => EvalRazNameIndex.append C word s n rng

/-- All edits one after another, the hash map enumerating its keys differently each time. -/
def runEditsN {R : Type} (C : Coord G E) (word : R → BitVec 64 × R) :
    List (Edit × (List Name → List Name)) → EvalRaz E Names G → R → P (EvalRaz E Names G × R)
  | [], s, rng => .ok (s, rng)
  | (o, order) :: os, s, rng => do
    let (s, rng) ← o.runN C word order s rng
    runEditsN C word os s rng

/-- `m` is the last of the greatest elements. -/
def LastMax (le : E → E → Bool) (l : List E) (m : E) : Prop :=
  ∃ a b, l = a ++ m :: b ∧ (∀ x ∈ a, le x m = true) ∧ ∀ x ∈ b, le m x = false

end Iodyn.Eval
