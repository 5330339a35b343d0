import Verif.Proof.HeapLocal
import Verif.Spec.EditCost
/-
The path from the root of a tree to the place where `focus` puts the cursor.
-/
namespace Iodyn
open Heap
variable {E M D : Type}

/-- From the root `t` down to `s`: the names on the way (without that of `s`) and the number of steps. -/
inductive Pth : Tree D → Tree D → List Name → Nat → Prop
  | here (t : Tree D) : Pth t t [] 0
  | left {lv : Nat} {n : Option Name} {d : D} {l s : Tree D} {S : List Name} {m : Nat} (r : Tree D) (h : Pth l s S m) :
    Pth (.node lv n d l r) s (n.toList ++ S) (m + 1)
  | right {lv : Nat} {n : Option Name} {d : D} {r s : Tree D} {S : List Name} {m : Nat} (l : Tree D) (h : Pth r s S m) :
    Pth (.node lv n d l r) s (n.toList ++ S) (m + 1)

theorem Pth.downL {t s : Tree D} {S : List Name} {m : Nat} (h : Pth t s S m) : ∀ {lv n d l r}, s = .node lv n d l r →
    Pth t l (S ++ n.toList) (m + 1) := by
  induction h with
  | here t => rintro lv n d l r rfl; simpa using Pth.left r (.here l)
  | left r h ih => intro lv n d l r' hs; rw [List.append_assoc]; exact .left _ (ih hs)
  | right l h ih => intro lv n d l' r' hs; rw [List.append_assoc]; exact .right _ (ih hs)

theorem Pth.downR {t s : Tree D} {S : List Name} {m : Nat} (h : Pth t s S m) : ∀ {lv n d l r}, s = .node lv n d l r →
    Pth t r (S ++ n.toList) (m + 1) := by
  induction h with
  | here t => rintro lv n d l r rfl; simpa using Pth.right l (.here r)
  | left r h ih => intro lv n d l r' hs; rw [List.append_assoc]; exact .left _ (ih hs)
  | right l h ih => intro lv n d l' r' hs; rw [List.append_assoc]; exact .right _ (ih hs)

theorem depth_node {lv : Nat} {n : Option Name} {d : D} {l r : Tree D} (h : l ≠ .nil ∨ r ≠ .nil) :
    (Tree.node lv n d l r).depth = 1 + max l.depth r.depth := by
  cases l <;> cases r <;> first | (simp at h; done) | rfl

theorem Pth.ne {t s : Tree D} {S : List Name} {m : Nat} (h : Pth t s S m) (hs : s ≠ .nil) : t ≠ .nil := by
  cases h with
  | here => exact hs
  | left => simp
  | right => simp

theorem Pth.depth {t s : Tree D} {S : List Name} {m : Nat} (h : Pth t s S m) (hs : s ≠ .nil) : m + s.depth ≤ t.depth := by
  induction h with
  | here t => omega
  | left r h ih => have := ih hs; rw [depth_node (.inl (h.ne hs))]; omega
  | right l h ih => have := ih hs; rw [depth_node (.inr (h.ne hs))]; omega

theorem Pth.names {t s : Tree D} {S : List Name} {m : Nat} (h : Pth t s S m) : S ⊆ tN .dcg t := by
  induction h with
  | here t => simp
  | left r h ih =>
    intro x hx
    simp only [tN, nm, List.mem_append] at hx ⊢
    rcases hx with hx | hx
    · tauto
    · exact .inl (ih hx)
  | right l h ih =>
    intro x hx
    simp only [tN, nm, List.mem_append] at hx ⊢
    rcases hx with hx | hx
    · tauto
    · exact .inr (.inr (ih hx))

/-- The subtrees of a tree. -/
def subs : Tree D → List (Tree D)
  | .nil => []
  | .node lv n d l r => .node lv n d l r :: (subs l ++ subs r)

theorem subs_self {t : Tree D} (h : t ≠ .nil) : t ∈ subs t := by
  cases t with
  | nil => exact absurd rfl h
  | node => simp [subs]

theorem subs_names {w : Tree D} : ∀ {t : Tree D}, w ∈ subs t → tN .dcg w ⊆ tN .dcg t
  | .nil, h => by simp [subs] at h
  | .node lv n d l r, h => by
    simp only [subs, List.mem_cons, List.mem_append] at h
    rcases h with rfl | h | h
    · exact List.Subset.refl _
    · intro x hx
      simp only [tN, List.mem_append]
      exact .inl (subs_names h hx)
    · intro x hx
      simp only [tN, List.mem_append]
      exact .inr (.inr (subs_names h hx))

/-- A named node beside the path has no name of the path below it. -/
theorem Pth.beside {t s : Tree D} {S : List Name} {m : Nat} (h : Pth t s S m) (hn : (tN .dcg t).Nodup) :
    ∀ {lv : Nat} {n : Name} {d : D} {l r : Tree D}, .node lv (some n) d l r ∈ subs t → n ∉ S → Dis (tN .dcg (.node lv (some n) d l r)) S := by
  induction h with
  | here t => intro lv n d l r _ _ x _ hx; cases hx
  | @left lv0 n0 d0 l0 s S m r0 h ih =>
    intro lv n d l r hw hns
    have hc := nodup_count hn
    simp only [tN, nm, List.count_append] at hc
    simp only [subs, List.mem_cons, List.mem_append] at hw
    rcases hw with hw | hw | hw
    · cases hw; simp at hns
    · have h1 := ih (count_nodup fun x => by have := hc x; omega) hw (fun hx => hns (List.mem_append_right _ hx))
      intro x hx hx'
      rcases List.mem_append.1 hx' with hx' | hx'
      · have a1 := List.count_pos_iff.2 (subs_names hw hx)
        have a2 := List.count_pos_iff.2 hx'
        have := hc x; omega
      · exact h1 x hx hx'
    · intro x hx hx'
      have a1 := List.count_pos_iff.2 (subs_names hw hx)
      rcases List.mem_append.1 hx' with hx' | hx'
      · have a2 := List.count_pos_iff.2 hx'
        have := hc x; omega
      · have a2 := List.count_pos_iff.2 (h.names hx')
        have := hc x; omega
  | @right lv0 n0 d0 r0 s S m l0 h ih =>
    intro lv n d l r hw hns
    have hc := nodup_count hn
    simp only [tN, nm, List.count_append] at hc
    simp only [subs, List.mem_cons, List.mem_append] at hw
    rcases hw with hw | hw | hw
    · cases hw; simp at hns
    · intro x hx hx'
      have a1 := List.count_pos_iff.2 (subs_names hw hx)
      rcases List.mem_append.1 hx' with hx' | hx'
      · have a2 := List.count_pos_iff.2 hx'
        have := hc x; omega
      · have a2 := List.count_pos_iff.2 (h.names hx')
        have := hc x; omega
    · have h1 := ih (count_nodup fun x => by have := hc x; omega) hw (fun hx => hns (List.mem_append_right _ hx))
      intro x hx hx'
      rcases List.mem_append.1 hx' with hx' | hx'
      · have a1 := List.count_pos_iff.2 (subs_names hw hx)
        have a2 := List.count_pos_iff.2 hx'
        have := hc x; omega
      · exact h1 x hx hx'

/-- The forests of the cursor are the path from `t`. -/
def AtPath (t : Tree D) (c : Cursor D) : Prop :=
  ∃ S m, Pth t c.tree S m ∧ (∀ x, x ∈ eN .dcg c.lForest ++ eN .dcg c.rForest ↔ x ∈ S) ∧ c.lForest.length + c.rForest.length = m

theorem AtPath.ofTree (t : Tree D) : AtPath t (Cursor.ofTree t) := ⟨[], 0, .here t, by simp [Cursor.ofTree, eN], rfl⟩

theorem AtPath.right {t : Tree D} {d : Bool} {lf rf : List (Bool × TNode D)} {lv : Nat} {n : Option Name} {x : D} {l r : Tree D} (b : Bool)
    (h : AtPath t ⟨d, lf, .node lv n x l r, rf⟩) : AtPath t ⟨b, (d, ⟨lv, n, x, l, r⟩) :: lf, r, rf⟩ := by
  obtain ⟨S, m, h1, h2, h3⟩ := h
  refine ⟨_, _, h1.downR rfl, fun y => ?_, ?_⟩
  · have := h2 y
    simp only [eN, List.flatMap_cons, nm, List.mem_append] at this ⊢
    tauto
  · simp only [List.length_cons] at h3 ⊢; omega

theorem AtPath.left {t : Tree D} {d : Bool} {lf rf : List (Bool × TNode D)} {lv : Nat} {n : Option Name} {x : D} {l r : Tree D} (b : Bool)
    (h : AtPath t ⟨d, lf, .node lv n x l r, rf⟩) : AtPath t ⟨b, lf, l, (d, ⟨lv, n, x, l, r⟩) :: rf⟩ := by
  obtain ⟨S, m, h1, h2, h3⟩ := h
  refine ⟨_, _, h1.downL rfl, fun y => ?_, ?_⟩
  · have := h2 y
    simp only [eN, List.flatMap_cons, nm, List.mem_append] at this ⊢
    tauto
  · simp only [List.length_cons] at h3 ⊢; omega

theorem AtPath.downLeft {t : Tree D} {c : Cursor D} (h : AtPath t c) : AtPath t c.downLeft.1 := by
  obtain ⟨d, lf, t', rf⟩ := c
  cases t' with
  | nil => exact h
  | node lv n x l r =>
    simp only [Cursor.downLeft, Cursor.downLeftForce]
    split
    · exact h
    · simp; exact h.left false

theorem AtPath.downRight {t : Tree D} {c : Cursor D} (h : AtPath t c) : AtPath t c.downRight.1 := by
  obtain ⟨d, lf, t', rf⟩ := c
  cases t' with
  | nil => exact h
  | node lv n x l r =>
    simp only [Cursor.downRight, Cursor.downRightForce]
    split
    · exact h
    · simp; exact h.right false

theorem AtPath.downRightAll {t : Tree D} : ∀ (t' : Tree D) (c : Cursor D), c.tree = t' → AtPath t c → AtPath t c.downRightAll := by
  intro t'
  induction t' with
  | nil =>
    intro c hc h
    unfold Cursor.downRightAll
    split
    · rename_i heq; simp [Cursor.downRight, Cursor.downRightForce, hc] at heq
    · exact h
  | node lv nm x l r ihl ihr =>
    intro c hc h
    obtain ⟨d, lf, t, rf⟩ := c
    simp only at hc; subst hc
    rw [downRightAll_node]
    split
    · exact ihr _ rfl (h.right false)
    · exact h

variable [RazMeta E M]

theorem focusLoop_path {t : Tree (TreeData E M)} : ∀ (n : Nat) (c : Cursor (TreeData E M)) (i : RazMeta.Index E M)
    (c' : Cursor (TreeData E M)) (i' : RazMeta.Index E M), AtPath t c →
    RazTree.focusLoop n c i = .ok (some (c', i')) → AtPath t c' := by
  intro n
  induction n with
  | zero =>
    intro c i c' i' h hf
    unfold RazTree.focusLoop at hf
    obtain ⟨d, -, hf⟩ := bind_ok.1 hf
    cases d <;> (simp at hf; exact hf.1 ▸ h)
  | succ n ih =>
    intro c i c' i' h hf
    unfold RazTree.focusLoop at hf
    obtain ⟨d, -, hf⟩ := bind_ok.1 hf
    cases d with
    | dummy => simp at hf; exact hf.1 ▸ h
    | leaf v => simp at hf; exact hf.1 ▸ h
    | branch a b =>
      simp only at hf
      obtain ⟨nav, -, hf⟩ := bind_ok.1 hf
      cases nav with
      | left j =>
        simp only at hf
        obtain ⟨-, -, hf⟩ := bind_ok.1 hf
        exact ih _ _ _ _ h.downLeft hf
      | right j =>
        simp only at hf
        obtain ⟨-, -, hf⟩ := bind_ok.1 hf
        exact ih _ _ _ _ h.downRight hf
      | here =>
        simp only at hf
        obtain ⟨-, -, hf⟩ := bind_ok.1 hf
        exact ih _ _ _ _ (AtPath.downRightAll _ _ rfl h.downLeft) hf
      | nowhere => simp at hf

/-- The forests after `focus` are a path in the tree, and the stacks have no archive points. -/
theorem focus_path {t : RazTree E M} {i : RazMeta.Index E M} {z : Raz E M} (h : t.focus i = .ok (some z)) :
    (∃ s S m, Pth t.tree s S m ∧ (∀ x, x ∈ eN .dcg z.lForest.lForest ++ eN .dcg z.rForest.rForest ↔ x ∈ S) ∧
      z.lForest.lForest.length + z.rForest.rForest.length = m ∧ m ≤ t.tree.depth) ∧ z.lStack.archived = [] ∧ z.rStack.archived = [] := by
  unfold RazTree.focus at h
  split at h
  · rename_i ht
    simp at h
    subst h
    exact ⟨⟨_, _, _, .here _, by simp [RazTree.emptyRaz, Cursor.new, eN], rfl, Nat.zero_le _⟩, rfl, rfl⟩
  · obtain ⟨x, h1, h⟩ := bind_ok.1 h
    match x with
    | none => simp at h
    | some (c, i') =>
      simp only at h
      obtain ⟨S, m, k1, k2, k3⟩ := focusLoop_path _ _ _ _ _ (AtPath.ofTree _) h1
      have hne : c.split.2.1 = c.tree := rfl
      match ht : c.split.2.1 with
      | .nil => simp [ht] at h
      | .node _ _ .dummy _ _ => simp [ht] at h
      | .node _ _ (.branch ..) _ _ => simp [ht] at h
      | .node _ _ (.leaf v) _ _ =>
        simp only [ht] at h
        obtain ⟨⟨a, b⟩, h2, h⟩ := bind_ok.1 h
        simp [pure, Except.pure] at h
        rw [← h]
        rw [hne] at ht
        have := k1.depth (by rw [ht]; simp)
        exact ⟨⟨_, S, m, k1, k2, k3, by omega⟩, rfl, rfl⟩

end Iodyn
