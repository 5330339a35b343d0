import Verif.Spec.Items
import Mathlib.Tactic.Common
/-
Well-formed trees and the basic cursor lemmas.
-/
namespace Iodyn
variable {E M : Type}

/-- Metadata that a node with this level and name stores for a branch. -/
def metaOf [RazMeta E M] (lv : Nat) (nm : Option Name) (t : Tree (TreeData E M)) : M :=
  match t with
  | .node _ _ (.leaf v) _ _ => RazMeta.fromVec v lv nm
  | .node _ _ (.branch a b) _ _ => RazMeta.fromMeta E a b lv nm
  | _ => RazMeta.fromNone E lv nm

/-- Well-formed (non-empty) trees: leaves have level 0, branches have level >= 1, two well-formed branches,
and metadata computed from them. -/
inductive WF [RazMeta E M] : Tree (TreeData E M) → Prop
  | leaf (v : List E) : WF (.node 0 none (.leaf v) .nil .nil)
  | branch {lv : Nat} {nm : Option Name} {l r : Tree (TreeData E M)} :
      1 ≤ lv → WF l → WF r → WF (.node lv nm (.branch (metaOf lv nm l) (metaOf lv nm r)) l r)

/-- Well-formed optional tree. -/
def WFo [RazMeta E M] (t : Tree (TreeData E M)) : Prop := t = .nil ∨ WF t

section
variable [RazMeta E M]

theorem WF.isSome {t : Tree (TreeData E M)} (h : WF t) : t.isSome = true := by
  cases h <;> rfl

theorem WF.peek {t : Tree (TreeData E M)} (h : WF t) :
    (∃ v, t.peek? = some (.leaf v)) ∨ (∃ a b, t.peek? = some (.branch a b)) := by
  cases h with
  | leaf v => exact .inl ⟨v, rfl⟩
  | branch => exact .inr ⟨_, _, rfl⟩

theorem WF.peek_ne {t : Tree (TreeData E M)} (h : WF t) : t.peek? ≠ some .dummy := by
  cases h <;> simp [Tree.peek?]

theorem rebuildMeta_peek {t : Tree (TreeData E M)} (h : t.peek? ≠ some .dummy) (lv nm) :
    rebuildMeta lv nm t.peek? = .ok (metaOf lv nm t) := by
  match t with
  | .nil => rfl
  | .node _ _ .dummy _ _ => simp [Tree.peek?] at h
  | .node _ _ (.leaf v) _ _ => rfl
  | .node _ _ (.branch a b) _ _ => rfl

theorem rebuild_eq {l r : Tree (TreeData E M)} {old : TreeData E M} (hl : l.peek? ≠ some .dummy)
    (hr : r.peek? ≠ some .dummy) (ho : ∀ v, old ≠ .leaf v) (lv nm) :
    TreeUpdate.rebuild l.peek? old lv nm r.peek? = .ok (.branch (metaOf lv nm l) (metaOf lv nm r)) := by
  show TreeData.rebuild _ _ _ _ _ = _
  unfold TreeData.rebuild
  split
  · exact absurd rfl (ho _)
  · rw [rebuildMeta_peek hl, rebuildMeta_peek hr]; rfl

theorem bin_eq {l r : Tree (TreeData E M)} (hl : l.peek? ≠ some .dummy)
    (hr : r.peek? ≠ some .dummy) (lv nm) :
    bin l lv nm r = .ok (.node lv nm (.branch (metaOf lv nm l) (metaOf lv nm r)) l r) := by
  have := rebuild_eq (old := .dummy) hl hr (by simp) lv nm
  simp only [bin]
  show (TreeData.rebuild _ _ _ _ _ >>= _) = _
  have h2 : TreeData.rebuild l.peek? .dummy lv nm r.peek? = .ok (.branch (metaOf lv nm l) (metaOf lv nm r)) := this
  rw [h2]; rfl

theorem treetopMeta_wf {t : Tree (TreeData E M)} (h : WFo t) : treetopMeta t = .ok (metaOf 0 none t) := by
  rcases h with rfl | h
  · rfl
  · cases h <;> rfl

theorem mkRazTree_wf {t : Tree (TreeData E M)} (h : WFo t) :
    mkRazTree t = .ok { info := metaOf 0 none t, tree := t } := by
  simp only [mkRazTree, treetopMeta_wf h]; rfl

end
end Iodyn
