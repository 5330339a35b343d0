import Verif.Spec.HeapNs
import Verif.Spec.HeapMap
import Verif.Spec.HeapMemoFrom
/-
Clients that map sequences and convert archive stacks in namespaces, as the harness does (eval/src/actions.rs:284-294, 416-446), and
go on with the sequence or the stack.
-/
namespace Iodyn
variable {E M C : Type}

/-- What a client does. `C` numbers the functions. -/
inductive CEv (E I C : Type) where
  /-- see `SEv` -/
  | ev (x : SEv E I)
  /-- `v_d = v_i.map(f_c)`; `v_i` stays -/
  | map (c : C) (i d : Nat)
  /-- `v_d = RazTree::memo_from(&AtTail(s_j.clone()))`; `s_j` stays -/
  | conv (w : End) (j d : Nat)

/-! ### With values -/

/-- One event. Events that rustc would reject do nothing, but that `v_d` has no value after them. -/
def SSt.cev [RazMeta E M] (fn : C → E → E) (st : SSt E M) : CEv E (RazMeta.Index E M) C → P (SSt E M × Out E)
  | .ev x => st.step x
  | .map c i d =>
    match st.vars[i]? with
    | some (some (.tree t)) => do
      let t' ← t.map (fn c)
      return (⟨st.vars.set d (some (.tree t')), st.stacks⟩, .unit)
    | _ => return (⟨st.vars.set d none, st.stacks⟩, .unit)
  | .conv w j d =>
    match st.stacks[j]? with
    | some (some s) => do
      let t ← w.conv s
      return (⟨st.vars.set d (some (.tree t)), st.stacks⟩, .unit)
    | _ => return (⟨st.vars.set d none, st.stacks⟩, .unit)

/-- All events. -/
def SSt.cevs [RazMeta E M] (fn : C → E → E) : SSt E M → List (CEv E (RazMeta.Index E M) C) → P (SSt E M × List (Out E))
  | st, [] => .ok (st, [])
  | st, ev :: l => do
    let (st', a) ← st.cev fn ev
    let (st'', as) ← SSt.cevs fn st' l
    return (st'', a :: as)

/-- The answers with values. -/
def cevAnswers (M : Type) [RazMeta E M] (fn : C → E → E) (l : List (CEv E (RazMeta.Index E M) C)) : P (List (Out E)) :=
  (SSt.cevs fn (⟨[], []⟩ : SSt E M) l).map (·.2)

/-! ### Over the store -/
namespace Heap
variable [RazMeta E M]

/-- One event, as `SSt.cev`. -/
def HSSt.cev (e : Engine) (fn : C → E → E) (st : HSSt E M) : CEv E (RazMeta.Index E M) C → HR E M (HSSt E M × Out E)
  | .ev x => st.step e x
  | .map c i d =>
    match st.vars[i]? with
    | some (some (.tree t)) => do
      let t' ← t.map e (fn c)
      return (⟨st.vars.set d (some (.tree t')), st.stacks⟩, .unit)
    | _ => return (⟨st.vars.set d none, st.stacks⟩, .unit)
  | .conv w j d =>
    match st.stacks[j]? with
    | some (some s) => do
      let t ← convH e w s
      return (⟨st.vars.set d (some (.tree t)), st.stacks⟩, .unit)
    | _ => return (⟨st.vars.set d none, st.stacks⟩, .unit)

/-- All events, each in its namespace. -/
def HSSt.cevs (e : Engine) (fn : C → E → E) : HSSt E M → List (NsPath × CEv E (RazMeta.Index E M) C) → HR E M (HSSt E M × List (Out E))
  | st, [] => return (st, [])
  | st, (p, ev) :: l => do
    let (st', a) ← inNs p (st.cev e fn ev)
    let (st'', as) ← HSSt.cevs e fn st' l
    return (st'', a :: as)

/-- The result of a client on an empty store: its answers, or the panic it ends with. -/
def CEvAnswers (e : Engine) (fn : C → E → E) (l : List (NsPath × CEv E (RazMeta.Index E M) C)) (r : P (List (Out E))) : Prop :=
  ∃ f0, ∀ f, f0 ≤ f → (HSSt.cevs (M := M) e fn ⟨[], []⟩ l f Store.empty).map (fun x => x.1.2) = r

end Heap

/-! ### Which variables can still be used -/

/-- What is known of each sequence and each stack. -/
structure CFeet where
  vars : Feet
  stacks : Feet

/-- After an event in the namespace `p`; `none` if it is not permitted, see `Feet.step`. The result of `map` or `memo_from` consists of
new cells in the namespace of the call, with the names of the source. -/
def CFeet.step (st : SSt E M) (g : CFeet) (p : NsPath) {I : Type} : CEv E I C → Option CFeet
  | .ev (.stmt c) => (g.vars.step st.vars p c).map (fun v => ⟨v, g.stacks.write p (g.vars.writes c)⟩)
  | .ev .stack => some ⟨g.vars, g.stacks ++ [some ⟨[], [p]⟩]⟩
  | .ev (.sclone j) =>
    match st.stacks[j]? with
    | some (some _) => some ⟨g.vars, g.stacks ++ [g.stacks[j]?.join]⟩
    | _ => some g
  | .ev (.spush _ _) => some g
  | .ev (.sarch j nm _) =>
    match st.stacks[j]? with
    | some (some _) =>
      match g.stacks[j]?.join with
      | some f =>
        if (f.names ++ nm.toList).Nodup then
          some ⟨g.vars.write p nm.toList, (g.stacks.write p nm.toList).set j (some ⟨f.names ++ nm.toList, p :: f.spaces⟩)⟩
        else none
      | none => none
    | _ => some g
  | .ev (.conv _ j) =>
    match st.stacks[j]? with
    | some (some _) =>
      match g.stacks[j]?.join with
      | some f =>
        if f.names.Nodup then some ⟨g.vars.write p f.names ++ [some ⟨f.names, [p]⟩], (g.stacks.write p f.names).set j none⟩ else none
      | none => none
    | _ => some g
  | .map _ i d =>
    match st.vars[i]? with
    | some (some (.tree _)) =>
      match g.vars[i]?.join with
      | some f =>
        if f.names.Nodup then some ⟨(g.vars.write p f.names).set d (some ⟨f.names, [p]⟩), g.stacks.write p f.names⟩ else none
      | none => none
    | _ => some ⟨g.vars.set d none, g.stacks⟩
  | .conv _ j d =>
    match st.stacks[j]? with
    | some (some _) =>
      match g.stacks[j]?.join with
      | some f =>
        if f.names.Nodup then some ⟨(g.vars.write p f.names).set d (some ⟨f.names, [p]⟩), g.stacks.write p f.names⟩ else none
      | none => none
    | _ => some ⟨g.vars.set d none, g.stacks⟩

/-- Every event is permitted. -/
def cowned [RazMeta E M] (fn : C → E → E) : SSt E M → CFeet → List (NsPath × CEv E (RazMeta.Index E M) C) → Bool
  | _, _, [] => true
  | st, g, (p, ev) :: l =>
    match g.step st p ev with
    | none => false
    | some g' =>
      match st.cev fn ev with
      | .error _ => true
      | .ok (st', _) => cowned fn st' g' l

/-- No event uses a sequence or a stack after one of its cells may have been replaced through another. -/
def COwned (M : Type) [RazMeta E M] (fn : C → E → E) (l : List (NsPath × CEv E (RazMeta.Index E M) C)) : Prop :=
  cowned fn (⟨[], []⟩ : SSt E M) ⟨[], []⟩ l = true

/-! ### Sessions -/

/-- The named cells that an event on the sources makes. -/
def SEv.cells {I : Type} : SEv E I → List Name
  | .stmt c => c.cells
  | .sarch _ nm _ => nm.toList
  | _ => []

/-- The event mentions sequence `k`. -/
def SEv.uses {I : Type} (k : Nat) : SEv E I → Bool
  | .stmt c => c.uses k
  | _ => false

/-- The client edits sequences and stacks in the namespaces `S`; in between it maps one or converts one, in another namespace, to
sequence 0, and uses the result, again outside of `S`. `A` are the names of the cells made in `S` so far, `B` those that the result
may have. -/
def MapSession (S : List NsPath) {I : Type} : List Name → List Name → List (NsPath × CEv E I C) → Prop
  | _, _, [] => True
  | A, B, (p, .ev x) :: l =>
    if p ∈ S then
      x.isClone = false ∧ (∀ w j, x ≠ .conv w j) ∧ x.uses 0 = false ∧ (A ++ x.cells).Nodup ∧ MapSession S (A ++ x.cells) B l
    else (∃ o, x = .stmt (.op 0 o)) ∧ (B ++ x.cells).Nodup ∧ MapSession S A (B ++ x.cells) l
  | A, _, (p, .map _ i d) :: l => p ∉ S ∧ i ≠ 0 ∧ d = 0 ∧ MapSession S A A l
  | A, _, (p, .conv _ _ d) :: l => p ∉ S ∧ d = 0 ∧ MapSession S A A l

/-! ### Conditions for plain lists -/

/-- The levels are in range. -/
def CEv.LevelOK {I : Type} : CEv E I C → Prop
  | .ev x => x.LevelOK
  | _ => True

/-- What is known of each stack, after an event: whether it was pushed to at all, and since its last archive point; see `Tops`. -/
def SEv.bits {I : Type} (bs : List (Option (Bool × Bool))) : SEv E I → List (Option (Bool × Bool))
  | .stmt _ => bs
  | .stack => bs ++ [some (false, false)]
  | .sclone j =>
    match bs[j]? with
    | some (some b) => bs ++ [some b]
    | _ => bs
  | .spush j _ =>
    match bs[j]? with
    | some (some _) => bs.set j (some (true, true))
    | _ => bs
  | .sarch j _ _ =>
    match bs[j]? with
    | some (some b) => bs.set j (some (b.1, false))
    | _ => bs
  | .conv _ j =>
    match bs[j]? with
    | some (some _) => bs.set j none
    | _ => bs

/-- Each stack that is converted was pushed to since its last archive point, or was never pushed to; see `Tops`. -/
def CTops {I : Type} : List (Option (Bool × Bool)) → List (CEv E I C) → Prop
  | _, [] => True
  | bs, .ev x :: l => (∀ w j b, x = .conv w j → bs[j]? = some (some b) → b.1 = true → b.2 = true) ∧ CTops (x.bits bs) l
  | bs, .map .. :: l => CTops bs l
  | bs, .conv _ j _ :: l => (∀ b, bs[j]? = some (some b) → b.1 = true → b.2 = true) ∧ CTops bs l

/-! ### With plain lists -/

/-- One event with plain lists: `map` and `memo_from` change the variable they are assigned to and no other. -/
inductive LCEv {I : Type} (fn : C → E → E) : LSSt E → CEv E I C → Out E → LSSt E → Prop
  | ev {st st' x o} : LSEv st x o st' → LCEv fn st (.ev x) o st'
  | map {vs ss c i d l} : vs.IsTree i l → LCEv fn ⟨vs, ss⟩ (.map c i d) .unit ⟨vs.set d (some (.tree (l.map (fn c)))), ss⟩
  | conv {vs ss w j d l} : ss[j]? = some (some l) → LCEv fn ⟨vs, ss⟩ (.conv w j d) .unit ⟨vs.set d (some (.tree (w.list l))), ss⟩
  /-- rejected by rustc -/
  | noMap {st c i d} : (∀ l, ¬ LVars.IsTree st.vars i l) → LCEv fn st (.map c i d) .unit ⟨st.vars.set d none, st.stacks⟩
  /-- rejected by rustc -/
  | noConv {st w j d} : (∀ l, st.stacks[j]? ≠ some (some l)) → LCEv fn st (.conv w j d) .unit ⟨st.vars.set d none, st.stacks⟩

/-- All events with plain lists. -/
inductive LCEvs {I : Type} (fn : C → E → E) : LSSt E → List (CEv E I C) → List (Out E) → LSSt E → Prop
  | nil (st) : LCEvs fn st [] [] st
  | cons {st st' st'' ev l a as} : LCEv fn st ev a st' → LCEvs fn st' l as st'' → LCEvs fn st (ev :: l) (a :: as) st''

end Iodyn
