import Verif.Proof.Focus
import Verif.Spec.Meta
/-
What the metadata of a well-formed tree says.
-/
namespace Iodyn
variable {E : Type}

theorem metaOf_count {t : Tree (TreeData E Count)} (h : WFo t) (lv nm) :
    (metaOf lv nm t : Count).n = (elemsOf t.items).length := by
  rcases h with rfl | h
  · rfl
  · induction h generalizing lv nm with
    | leaf v => simp [metaOf, RazMeta.fromVec, elemsOf, Item.elem?, List.filterMap_map, Function.comp_def]
    | @branch lv' nm' l r _ _ _ ih1 ih2 =>
      show (metaOf lv' nm' l : Count).n + (metaOf lv' nm' r : Count).n = _
      rw [ih1, ih2]
      simp

theorem mem_insert {h : List Name} {n m : Name} : m ∈ Names.insert h n ↔ m = n ∨ m ∈ h := by
  unfold Names.insert
  split
  · constructor
    · exact .inr
    · rintro (rfl | h) <;> assumption
  · simp

theorem mem_insertOpt {h : List Name} {n : Option Name} {m : Name} : m ∈ Names.insertOpt h n ↔ n = some m ∨ m ∈ h := by
  cases n with
  | none => simp [Names.insertOpt]
  | some n => simp [Names.insertOpt, mem_insert, eq_comm]

theorem mem_foldl_insert {l h : List Name} {m : Name} : m ∈ l.foldl Names.insert h ↔ m ∈ l ∨ m ∈ h := by
  induction l generalizing h with
  | nil => simp
  | cons n l ih => simp only [List.foldl_cons, ih, mem_insert, List.mem_cons]; tauto

theorem mem_fromMeta {l r : Names} {n : Option Name} {m : Name} :
    m ∈ (Names.fromMeta l r n).names ↔ n = some m ∨ m ∈ l.names ∨ m ∈ r.names := by
  simp only [Names.fromMeta, mem_insertOpt, mem_foldl_insert]
  simp only [List.not_mem_nil, or_false]
  tauto

theorem namesOf_append (a b : List (Item E)) : namesOf (a ++ b) = namesOf a ++ namesOf b := by
  simp [namesOf]
theorem namesOf_none (l : List (Item E)) (lev) : namesOf (.mark lev none :: l) = namesOf l := rfl
theorem namesOf_some (l : List (Item E)) (lev n) : namesOf (.mark lev (some n) :: l) = n :: namesOf l := rfl
theorem namesOf_elems (v : List E) : namesOf (v.map Item.elem) = [] := by
  simp [namesOf, List.filterMap_map]

theorem mem_metaOf_names {t : Tree (TreeData E Names)} (h : WFo t) (lv nm) (q : Name) :
    q ∈ (metaOf lv nm t : Names).names ↔ nm = some q ∨ q ∈ namesOf t.items := by
  rcases h with rfl | h
  · simp [metaOf, RazMeta.fromNone, mem_insertOpt, namesOf]
  · induction h generalizing lv nm with
    | leaf v => simp [metaOf, RazMeta.fromVec, mem_insertOpt, namesOf, List.filterMap_map]
    | @branch lv' n l r _ _ _ ih1 ih2 =>
      show q ∈ (Names.fromMeta (metaOf lv' n l) (metaOf lv' n r) nm).names ↔ _
      rw [mem_fromMeta, ih1, ih2]
      simp only [items_branch, namesOf_append, List.mem_append]
      cases n with
      | none => simp [namesOf_none]
      | some n =>
        simp only [namesOf_some, List.mem_cons, Option.some.injEq, eq_comm (a := n)]
        tauto

end Iodyn
