import Verif.Model.HeapList
/-
Programs that use the lists of src/stack.rs, as programs on lists.
-/
namespace Iodyn.Heap
variable {X : Type}

/-- Stacks are lists of names and elements, heads are lists that are not empty, iterators are what is still to be visited. -/
structure Lists (X : Type) where
  stacks : List (List (Option Name × X))
  heads : List ((Option Name × X) × List (Option Name × X))
  iters : List (List (Option Name × X))

/-- One call on lists. -/
def Call.spec (v : Lists X) : Call X → Lists X × Out X
  | .newStack => ({ v with stacks := v.stacks ++ [[]] }, .made)
  | .isEmpty s => (v, (v.stacks[s]?.map fun l => Out.flag l.isEmpty).getD .absent)
  | .push s nm x =>
    match v.stacks[s]? with
    | none => (v, .absent)
    | some l => ({ v with stacks := v.stacks ++ [(nm, x) :: l] }, .made)
  | .peek s => (v, (v.stacks[s]?.map fun l => Out.elem (l.head?.map (·.2))).getD .absent)
  | .name s => (v, (v.stacks[s]?.map fun l => Out.name (l.head?.bind (·.1))).getD .absent)
  | .pull s =>
    match v.stacks[s]? with
    | some (_ :: l) => ({ v with stacks := v.stacks ++ [l] }, .made)
    | _ => (v, .absent)
  | .iter s =>
    match v.stacks[s]? with
    | none => (v, .absent)
    | some l => ({ v with iters := v.iters ++ [l] }, .made)
  | .wrap h =>
    match v.heads[h]? with
    | none => (v, .absent)
    | some (p, l) => ({ v with stacks := v.stacks ++ [p :: l] }, .made)
  | .unwrap s =>
    match v.stacks[s]? with
    | some (p :: l) => ({ v with heads := v.heads ++ [(p, l)] }, .made)
    | _ => (v, .absent)
  | .newHead nm x => ({ v with heads := v.heads ++ [((nm, x), [])] }, .made)
  | .pushHead h nm x =>
    match v.heads[h]? with
    | none => (v, .absent)
    | some (p, l) => ({ v with heads := v.heads ++ [((nm, x), p :: l)] }, .made)
  | .peekHead h => (v, (v.heads[h]?.map fun l => Out.elem (some l.1.2)).getD .absent)
  | .nameHead h => (v, (v.heads[h]?.map fun l => Out.name l.1.1).getD .absent)
  | .pullHead h =>
    match v.heads[h]? with
    | none => (v, .absent)
    | some (_, l) => ({ v with stacks := v.stacks ++ [l] }, .made)
  | .iterHead h =>
    match v.heads[h]? with
    | none => (v, .absent)
    | some (p, l) => ({ v with iters := v.iters ++ [p :: l] }, .made)
  | .iterName i => (v, (v.iters[i]?.map fun l => Out.name (l.head?.bind (·.1))).getD .absent)
  | .next i =>
    match v.iters[i]? with
    | none => (v, .absent)
    | some l => ({ v with iters := v.iters.set i l.tail }, .elem (l.head?.map (·.2)))

/-- Calls in turn, on lists. -/
def specCalls (v : Lists X) : List (Call X) → List (Out X)
  | [] => []
  | c :: cs => (c.spec v).2 :: specCalls (c.spec v).1 cs

/-- The names that a call gives to a cell. -/
def Call.cellNames : Call X → List Name
  | .push _ nm _ => nm.toList
  | .newHead nm _ => nm.toList
  | .pushHead _ nm _ => nm.toList
  | _ => []

end Iodyn.Heap
