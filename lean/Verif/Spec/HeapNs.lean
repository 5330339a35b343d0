import Verif.Spec.Heap
/-
Programs whose statements run in namespaces (`ns`, src/lib.rs:23-26), and which of the variables can still be used: a
statement may replace cells of other variables.
-/
namespace Iodyn
variable {E M : Type}

namespace Heap

/-- Nested `ns` calls; the first name is the innermost. -/
def inNs {D X A : Type} : NsPath → H D X A → H D X A
  | [], m => m
  | n :: p, m => inNs p (ns n m)

/-- A program with the namespace of each statement. -/
def HVars.runNs [RazMeta E M] (e : Engine) : HVars E M → List (NsPath × Cmd E (RazMeta.Index E M)) → HR E M (HVars E M × List (Out E))
  | vs, [] => return (vs, [])
  | vs, (p, c) :: cs => do
    let (vs', o) ← inNs p (vs.step e c)
    let (vs'', os) ← HVars.runNs e vs' cs
    return (vs'', o :: os)

/-- The result of a program on an empty store, as `Answers`. -/
def AnswersNs [RazMeta E M] (e : Engine) (cs : List (NsPath × Cmd E (RazMeta.Index E M))) (r : P (List (Out E))) : Prop :=
  ∃ f0, ∀ f, f0 ≤ f → (HVars.runNs (M := M) e [] cs f Store.empty).map (fun x => x.1.2) = r

end Heap

/-- The cells that a statement makes for its name: an archive point gets a stack cell and later two tree nodes, one with the
name and one with the name `name_pair(n, "tree")` (src/raz.rs:444). -/
def Cmd.cells {I : Type} : Cmd E I → List Name
  | .op _ (.archL _ (some n)) => [n, .pair n (.str "tree")]
  | .op _ (.archR _ (some n)) => [n, .pair n (.str "tree")]
  | .join _ _ (some n) _ => [n]
  | _ => []

/-- The statement mentions the variable. -/
def Cmd.uses {I : Type} (k : Nat) : Cmd E I → Bool
  | .clone i => i == k
  | .op i _ => i == k
  | .join i _ _ j => i == k || j == k
  | _ => false

/-- Where the cells of a variable may be: under these names in these namespaces. -/
structure Foot where
  names : List Name
  spaces : List NsPath

/-- Writing these names in the namespace `p` may replace a cell. -/
def Foot.hit (f : Foot) (p : NsPath) (w : List Name) : Bool := decide (p ∈ f.spaces) && w.any (fun n => decide (n ∈ f.names))

/-- What is known of each variable; `none` if one of its cells may have been replaced through another variable. -/
abbrev Feet := List (Option Foot)

/-- After writing these names in the namespace `p`. -/
def Feet.write (g : Feet) (p : NsPath) (w : List Name) : Feet := g.map (fun o => o.filter (fun f => !f.hit p w))

/-- The names that a statement on a permitted sequence may write: all of the sequence and its own. -/
def Feet.writes (g : Feet) {I : Type} : Cmd E I → List Name
  | .op i o => (g[i]?.join.elim [] Foot.names) ++ (Cmd.op i o).cells
  | c => c.cells

/-- After a statement in the namespace `p`; `none` if it is not permitted: it uses a variable with a cell that may have been
replaced, or a name that is in use in the same sequence. A statement on a sequence may write all cells of the sequence, in
the namespace of the statement. -/
def Feet.step (vs : Vars E M) (g : Feet) (p : NsPath) {I : Type} (c : Cmd E I) : Option Feet :=
  match c with
  | .new => some (g ++ [some ⟨[], [p]⟩])
  | .fromVec v => some (if v.isEmpty then g else g ++ [some ⟨[], [p]⟩])
  | .clone i =>
    match vs[i]? with
    | some (some _) => some (g ++ [g[i]?.join])
    | _ => some g
  | .op i o =>
    match vs[i]? with
    | some (some _) =>
      match g[i]?.join with
      | some f =>
        let w := f.names ++ (Cmd.op i o).cells
        if w.Nodup then some ((g.write p w).set i (some ⟨w, p :: f.spaces⟩)) else none
      | none => none
    | _ => some g
  | .join i lev nm j =>
    match vs[i]?, vs[j]? with
    | some (some (.tree _)), some (some (.tree _)) =>
      if i = j then some g
      else
        match g[i]?.join, g[j]?.join with
        | some a, some b =>
          let w := (Cmd.join (E := E) (I := I) i lev nm j).cells
          if (a.names ++ b.names ++ w).Nodup then
            some (((g.write p w).set i none).set j (some ⟨a.names ++ b.names ++ w, p :: (a.spaces ++ b.spaces)⟩))
          else none
        | _, _ => none
    | _, _ => some g

/-- Every statement of the program is permitted. -/
def owned [RazMeta E M] : Vars E M → Feet → List (NsPath × Cmd E (RazMeta.Index E M)) → Bool
  | _, _, [] => true
  | vs, g, (p, c) :: cs =>
    match g.step vs p c with
    | none => false
    | some g' =>
      match vs.step c with
      | .error _ => true
      | .ok (vs', _) => owned vs' g' cs

/-- No statement uses a sequence after one of its cells may have been replaced through another. -/
def Owned (M : Type) [RazMeta E M] (cs : List (NsPath × Cmd E (RazMeta.Index E M))) : Prop := owned (M := M) [] [] cs = true

end Iodyn
