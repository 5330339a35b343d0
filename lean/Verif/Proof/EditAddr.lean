import Verif.Proof.EditPath
/-
Addresses in a tree: sets of nodes that are closed upwards.
-/
namespace Iodyn
open Heap
variable {E M D : Type}

/-- The part of a tree at an address (`true` is to the right). -/
def below : Tree D → List Bool → Tree D
  | t, [] => t
  | .nil, _ :: _ => .nil
  | .node _ _ _ l r, b :: a => below (if b then r else l) a

theorem below_nil (a : List Bool) : below (.nil : Tree D) a = .nil := by cases a <;> rfl

theorem below_append : ∀ (t : Tree D) (a b : List Bool), below t (a ++ b) = below (below t a) b
  | t, [], b => by cases t <;> rfl
  | .nil, _ :: a, b => by rw [below_nil, below_nil, below_nil]
  | .node _ _ _ l r, c :: a, b => by simp only [List.cons_append, below]; exact below_append _ a b

/-- The names at addresses. -/
def namesAt (t : Tree D) (A : List (List Bool)) : List Name := A.flatMap fun a => (below t a).name?.toList

theorem namesAt_length (t : Tree D) : ∀ A : List (List Bool), (namesAt t A).length ≤ A.length
  | [] => Nat.le_refl _
  | a :: A => by
    have := namesAt_length t A
    simp only [namesAt, List.flatMap_cons, List.length_append, List.length_cons] at this ⊢
    have h1 : (below t a).name?.toList.length ≤ 1 := by cases (below t a).name? <;> simp
    omega

theorem namesAt_mono {t : Tree D} {A B : List (List Bool)} (h : A ⊆ B) : namesAt t A ⊆ namesAt t B := by
  intro x hx
  obtain ⟨a, ha, hx⟩ := List.mem_flatMap.1 hx
  exact List.mem_flatMap.2 ⟨a, h ha, hx⟩

theorem mem_namesAt {t : Tree D} {A : List (List Bool)} {x : Name} : x ∈ namesAt t A ↔ ∃ a ∈ A, (below t a).name? = some x := by
  simp [namesAt, List.mem_flatMap, Option.mem_def]

theorem below_name : ∀ {t : Tree D} {a : List Bool} {x : Name}, (below t a).name? = some x → x ∈ tN .dcg t
  | .nil, a, x, h => by rw [below_nil] at h; cases h
  | .node lv n d l r, [], x, h => by
    simp only [below, Tree.name?] at h
    simp [tN, nm, h]
  | .node lv n d l r, b :: a, x, h => by
    have := below_name (t := if b then r else l) (a := a) h
    cases b <;> simp [tN] at this ⊢ <;> tauto

theorem name_below : ∀ {t : Tree D} {x : Name}, x ∈ tN .dcg t → ∃ a, (below t a).name? = some x
  | .nil, x, h => by cases h
  | .node lv n d l r, x, h => by
    simp only [tN, nm, List.mem_append] at h
    rcases h with h | h | h
    · obtain ⟨a, ha⟩ := name_below h
      exact ⟨false :: a, ha⟩
    · exact ⟨[], by simpa [below, Tree.name?] using h⟩
    · obtain ⟨a, ha⟩ := name_below h
      exact ⟨true :: a, ha⟩

theorem below_inj : ∀ {t : Tree D} {a b : List Bool} {x : Name}, (tN .dcg t).Nodup → (below t a).name? = some x → (below t b).name? = some x → a = b
  | .nil, a, b, x, _, h, _ => by rw [below_nil] at h; cases h
  | .node lv n d l r, a, b, x, hn, h1, h2 => by
    have hc := nodup_count hn x
    simp only [tN, nm, List.count_append] at hc
    have here : ∀ {a : List Bool}, (below (.node lv n d l r) a).name? = some x →
        (a = [] ∧ 0 < n.toList.count x) ∨ (∃ a', a = false :: a' ∧ (below l a').name? = some x ∧ 0 < (tN .dcg l).count x) ∨
          (∃ a', a = true :: a' ∧ (below r a').name? = some x ∧ 0 < (tN .dcg r).count x) := by
      intro a ha
      rcases a with _ | ⟨c, a⟩
      · exact .inl ⟨rfl, by simp only [below, Tree.name?] at ha; rw [ha]; simp⟩
      · cases c
        · exact .inr (.inl ⟨a, rfl, ha, List.count_pos_iff.2 (below_name ha)⟩)
        · exact .inr (.inr ⟨a, rfl, ha, List.count_pos_iff.2 (below_name ha)⟩)
    rcases here h1 with ⟨rfl, p⟩ | ⟨a', rfl, g1, p⟩ | ⟨a', rfl, g1, p⟩ <;>
      rcases here h2 with ⟨rfl, q⟩ | ⟨b', rfl, g2, q⟩ | ⟨b', rfl, g2, q⟩ <;> first | rfl | omega | skip
    · rw [below_inj (count_nodup fun y => by have := nodup_count hn y; simp only [tN, List.count_append] at this; omega) g1 g2]
    · rw [below_inj (count_nodup fun y => by have := nodup_count hn y; simp only [tN, List.count_append] at this; omega) g1 g2]

theorem subs_below : ∀ {t w : Tree D}, w ∈ subs t → ∃ a, below t a = w
  | .nil, w, h => by cases h
  | .node lv n d l r, w, h => by
    simp only [subs, List.mem_cons, List.mem_append] at h
    rcases h with rfl | h | h
    · exact ⟨[], rfl⟩
    · obtain ⟨a, ha⟩ := subs_below h
      exact ⟨false :: a, ha⟩
    · obtain ⟨a, ha⟩ := subs_below h
      exact ⟨true :: a, ha⟩

theorem below_depth : ∀ {t : Tree D} {a : List Bool}, below t a ≠ .nil → a.length + (below t a).depth ≤ t.depth
  | t, [], _ => by cases t <;> simp [below]
  | .nil, _ :: _, h => by simp [below] at h
  | .node lv n d l r, b :: a, h => by
    have := below_depth (t := if b then r else l) (a := a) h
    cases b
    · simp only [Bool.false_eq_true, if_false, below, List.length_cons] at this h ⊢
      have hl : l ≠ .nil := by rintro rfl; rw [below_nil] at h; exact h rfl
      rw [depth_node (.inl hl)]; omega
    · simp only [if_true, below, List.length_cons] at this h ⊢
      have hl : r ≠ .nil := by rintro rfl; rw [below_nil] at h; exact h rfl
      rw [depth_node (.inr hl)]; omega

/-- With an address all those above it. -/
def Closed (A : List (List Bool)) : Prop := ∀ a b, a ++ b ∈ A → a ∈ A

/-- A named node at an address outside has no name of the set below it. -/
theorem Closed.beside {A : List (List Bool)} (h : Closed A) {t : Tree D} (hn : (tN .dcg t).Nodup) {lv : Nat} {n : Name} {d : D} {l r : Tree D}
    (hw : .node lv (some n) d l r ∈ subs t) (hns : n ∉ namesAt t A) : Dis (tN .dcg (.node lv (some n) d l r)) (namesAt t A) := by
  intro x hx hx'
  obtain ⟨b, hb⟩ := subs_below hw
  rw [← hb] at hx
  obtain ⟨c, hc⟩ := name_below hx
  rw [← below_append] at hc
  obtain ⟨a, ha, hax⟩ := mem_namesAt.1 hx'
  rw [below_inj hn hax hc] at ha
  exact hns (mem_namesAt.2 ⟨b, h b c ha, by rw [hb]; rfl⟩)

/-- The entries of a left forest are nodes at these addresses; the right branch may be another one. -/
def LeftAt (t : Tree D) (A : List (List Bool)) (us : List (Bool × TNode D)) : Prop :=
  ∀ p ∈ us, ∃ a ∈ A, ∃ d r, below t a = .node p.2.level p.2.name d p.2.l r

/-- The same for a right forest. -/
def RightAt (t : Tree D) (A : List (List Bool)) (us : List (Bool × TNode D)) : Prop :=
  ∀ p ∈ us, ∃ a ∈ A, ∃ d l, below t a = .node p.2.level p.2.name d l p.2.r

theorem LeftAt.mono {t : Tree D} {A B : List (List Bool)} {us : List (Bool × TNode D)} (h : LeftAt t A us) (hs : A ⊆ B) : LeftAt t B us := by
  intro p hp
  obtain ⟨a, ha, x⟩ := h p hp
  exact ⟨a, hs ha, x⟩

theorem RightAt.mono {t : Tree D} {A B : List (List Bool)} {us : List (Bool × TNode D)} (h : RightAt t A us) (hs : A ⊆ B) : RightAt t B us := by
  intro p hp
  obtain ⟨a, ha, x⟩ := h p hp
  exact ⟨a, hs ha, x⟩

theorem LeftAt.names {t : Tree D} {A : List (List Bool)} {us : List (Bool × TNode D)} (h : LeftAt t A us) : eN .dcg us ⊆ namesAt t A := by
  intro x hx
  obtain ⟨p, hp, hx⟩ := List.mem_flatMap.1 hx
  obtain ⟨a, ha, d, r, e⟩ := h p hp
  refine mem_namesAt.2 ⟨a, ha, ?_⟩
  rw [e]
  simpa [nm, Tree.name?] using hx

theorem RightAt.names {t : Tree D} {A : List (List Bool)} {us : List (Bool × TNode D)} (h : RightAt t A us) : eN .dcg us ⊆ namesAt t A := by
  intro x hx
  obtain ⟨p, hp, hx⟩ := List.mem_flatMap.1 hx
  obtain ⟨a, ha, d, r, e⟩ := h p hp
  refine mem_namesAt.2 ⟨a, ha, ?_⟩
  rw [e]
  simpa [nm, Tree.name?] using hx

/-- All proper prefixes. -/
def above (a : List Bool) : List (List Bool) := (List.range a.length).map fun n => a.take n

theorem mem_above {a b : List Bool} : b ∈ above a ↔ ∃ c, c ≠ [] ∧ b ++ c = a := by
  simp only [above, List.mem_map, List.mem_range]
  constructor
  · rintro ⟨n, hn, rfl⟩
    exact ⟨a.drop n, by simp [List.drop_eq_nil_iff]; omega, List.take_append_drop n a⟩
  · rintro ⟨c, hc, rfl⟩
    refine ⟨b.length, ?_, by simp⟩
    have := List.length_pos_iff.2 hc
    simp; omega

theorem above_closed (a : List Bool) : Closed (above a) := by
  intro b c h
  obtain ⟨d, hd, e⟩ := mem_above.1 h
  exact mem_above.2 ⟨c ++ d, by simp [hd], by rw [← e, List.append_assoc]⟩

theorem above_length (a : List Bool) : (above a).length = a.length := by simp [above]

/-- The addresses from `a` along one side, at most `n` steps. -/
def spine (a : List Bool) (b : Bool) (n : Nat) : List (List Bool) := (List.range n).map fun j => a ++ List.replicate j b

theorem spine_length (a : List Bool) (b : Bool) (n : Nat) : (spine a b n).length = n := by simp [spine]

theorem mem_spine {a c : List Bool} {b : Bool} {n : Nat} : c ∈ spine a b n ↔ ∃ j < n, c = a ++ List.replicate j b := by
  simp only [spine, List.mem_map, List.mem_range]
  exact ⟨fun ⟨j, h, e⟩ => ⟨j, h, e.symm⟩, fun ⟨j, h, e⟩ => ⟨j, h, e.symm⟩⟩

theorem replicate_prefix {b : Bool} : ∀ {j : Nat} {c d : List Bool}, c ++ d = List.replicate j b → c = List.replicate c.length b ∧ c.length ≤ j := by
  intro j c d h
  have h1 : ∀ x ∈ c, x = b := fun x hx => List.eq_of_mem_replicate (h ▸ List.mem_append_left d hx)
  refine ⟨List.eq_replicate_iff.2 ⟨rfl, h1⟩, ?_⟩
  have := congrArg List.length h
  simp at this; omega

theorem Closed.spine {A : List (List Bool)} (h : Closed A) {a : List Bool} (ha : a ∈ A) (c b : Bool) (n : Nat) : Closed (A ++ spine (a ++ [c]) b n) := by
  intro x y hxy
  rcases List.mem_append.1 hxy with hxy | hxy
  · exact List.mem_append_left _ (h x y hxy)
  · obtain ⟨j, hj, e⟩ := mem_spine.1 hxy
    rcases List.append_eq_append_iff.1 e with ⟨p, e1, e2⟩ | ⟨p, e1, e2⟩
    · rcases List.eq_nil_or_concat p with rfl | ⟨p', q, rfl⟩
      · simp only [List.append_nil] at e1
        subst e1
        exact List.mem_append_right _ (mem_spine.2 ⟨0, by omega, by simp⟩)
      · rw [List.concat_eq_append, ← List.append_assoc] at e1
        have := List.append_inj_left' e1 rfl
        subst this
        exact List.mem_append_left _ (h _ _ ha)
    · obtain ⟨e3, e4⟩ := replicate_prefix e2.symm
      rw [e3] at e1
      exact List.mem_append_right _ (mem_spine.2 ⟨p.length, by omega, e1⟩)

theorem downRightAll_at {t : Tree D} : ∀ (t' : Tree D) (c : Cursor D) {A : List (List Bool)} {a : List Bool}, c.tree = t' → below t a = c.tree →
    LeftAt t A c.lForest → LeftAt t (A ++ spine a true (c.tree.depth + 1)) c.downRightAll.lForest := by
  intro t'
  induction t' with
  | nil =>
    intro c A a hc ha h
    have : c.downRightAll = c := by
      unfold Cursor.downRightAll
      split
      · rename_i heq; simp [Cursor.downRight, Cursor.downRightForce, hc] at heq
      · rfl
    rw [this]
    exact h.mono (List.subset_append_left _ _)
  | node lv n x l r ihl ihr =>
    intro c A a hc ha h
    obtain ⟨d, lf, t1, rf⟩ := c
    simp only at hc ha h; subst hc
    rw [downRightAll_node]
    split
    · rename_i hr
      have hne : r ≠ .nil := by rintro rfl; cases hr
      have := ihr ⟨false, (d, ⟨lv, n, x, l, r⟩) :: lf, r, rf⟩ (A := A ++ [a]) (a := a ++ [true]) rfl (by rw [below_append, ha]; simp [below]) (by
        intro p hp
        rcases List.mem_cons.1 hp with rfl | hp
        · exact ⟨a, by simp, x, r, ha⟩
        · exact h.mono (List.subset_append_left _ _) p hp)
      refine this.mono ?_
      intro b hb
      simp only [List.mem_append, List.mem_singleton] at hb ⊢
      rw [depth_node (.inr hne)]
      rcases hb with (hb | rfl) | hb
      · exact .inl hb
      · exact .inr (mem_spine.2 ⟨0, by omega, by simp⟩)
      · obtain ⟨j, hj, rfl⟩ := mem_spine.1 hb
        exact .inr (mem_spine.2 ⟨j + 1, by omega, by simp [List.replicate_succ]⟩)
    · exact h.mono (List.subset_append_left _ _)

theorem downLeftAll_at {t : Tree D} : ∀ (t' : Tree D) (c : Cursor D) {A : List (List Bool)} {a : List Bool}, c.tree = t' → below t a = c.tree →
    RightAt t A c.rForest → RightAt t (A ++ spine a false (c.tree.depth + 1)) c.downLeftAll.rForest := by
  intro t'
  induction t' with
  | nil =>
    intro c A a hc ha h
    have : c.downLeftAll = c := by
      unfold Cursor.downLeftAll
      split
      · rename_i heq; simp [Cursor.downLeft, Cursor.downLeftForce, hc] at heq
      · rfl
    rw [this]
    exact h.mono (List.subset_append_left _ _)
  | node lv n x l r ihl ihr =>
    intro c A a hc ha h
    obtain ⟨d, lf, t1, rf⟩ := c
    simp only at hc ha h; subst hc
    rw [downLeftAll_node]
    split
    · rename_i hr
      have hne : l ≠ .nil := by rintro rfl; cases hr
      have := ihl ⟨false, lf, l, (d, ⟨lv, n, x, l, r⟩) :: rf⟩ (A := A ++ [a]) (a := a ++ [false]) rfl (by rw [below_append, ha]; simp [below]) (by
        intro p hp
        rcases List.mem_cons.1 hp with rfl | hp
        · exact ⟨a, by simp, x, l, ha⟩
        · exact h.mono (List.subset_append_left _ _) p hp)
      refine this.mono ?_
      intro b hb
      simp only [List.mem_append, List.mem_singleton] at hb ⊢
      rw [depth_node (.inl hne)]
      rcases hb with (hb | rfl) | hb
      · exact .inl hb
      · exact .inr (mem_spine.2 ⟨0, by omega, by simp⟩)
      · obtain ⟨j, hj, rfl⟩ := mem_spine.1 hb
        exact .inr (mem_spine.2 ⟨j + 1, by omega, by simp [List.replicate_succ]⟩)
    · exact h.mono (List.subset_append_left _ _)

/-- The right spine of a tree at an address. -/
theorem spine_SpR {t : Tree D} : ∀ (s : Tree D) {a : List Bool}, below t a = s → SpR .dcg (namesAt t (spine a true (s.depth + 1))) s := by
  intro s
  induction s with
  | nil => intro a _; trivial
  | node lv n x l r _ ih =>
    intro a ha
    refine ⟨?_, ?_⟩
    · intro y hy
      exact mem_namesAt.2 ⟨a, mem_spine.2 ⟨0, by omega, by simp⟩, by rw [ha]; simpa [nm, Tree.name?] using hy⟩
    · by_cases hr : r = .nil
      · subst hr; trivial
      · have h1 := ih (a := a ++ [true]) (by rw [below_append, ha]; simp [below])
        have mono : ∀ {S S' : List Name} {w : Tree D}, S ⊆ S' → SpR .dcg S w → SpR .dcg S' w := by
          intro S S' w hs
          induction w with
          | nil => exact id
          | node _ _ _ _ _ _ ih => exact fun h => ⟨List.Subset.trans h.1 hs, ih h.2⟩
        refine mono (namesAt_mono ?_) h1
        intro b hb
        obtain ⟨j, hj, rfl⟩ := mem_spine.1 hb
        rw [depth_node (.inr hr)]
        exact mem_spine.2 ⟨j + 1, by omega, by simp [List.replicate_succ]⟩

/-! ### The place where `focus` puts the cursor -/

/-- The cursor is at the address, and its entries are the nodes above. -/
def AtAddr (t : Tree D) (c : Cursor D) : Prop := ∃ a, below t a = c.tree ∧ LeftAt t (above a) c.lForest ∧ RightAt t (above a) c.rForest

theorem AtAddr.ofTree (t : Tree D) : AtAddr t (Cursor.ofTree t) := ⟨[], (by cases t <;> rfl), fun p hp => (by cases hp), fun p hp => (by cases hp)⟩

theorem above_sub (a : List Bool) (b : Bool) : above a ⊆ above (a ++ [b]) := by
  intro c hc
  obtain ⟨d, hd, rfl⟩ := mem_above.1 hc
  exact mem_above.2 ⟨d ++ [b], by simp, by simp⟩

theorem self_above (a : List Bool) (b : Bool) : a ∈ above (a ++ [b]) := mem_above.2 ⟨[b], by simp, rfl⟩

theorem AtAddr.right {t : Tree D} {d : Bool} {lf rf : List (Bool × TNode D)} {lv : Nat} {n : Option Name} {x : D} {l r : Tree D} (b : Bool)
    (h : AtAddr t ⟨d, lf, .node lv n x l r, rf⟩) : AtAddr t ⟨b, (d, ⟨lv, n, x, l, r⟩) :: lf, r, rf⟩ := by
  obtain ⟨a, h1, h2, h3⟩ := h
  refine ⟨a ++ [true], by rw [below_append, h1]; simp [below], ?_, h3.mono (above_sub a _)⟩
  intro p hp
  rcases List.mem_cons.1 hp with rfl | hp
  · exact ⟨a, self_above a _, x, r, h1⟩
  · exact h2.mono (above_sub a _) p hp

theorem AtAddr.left {t : Tree D} {d : Bool} {lf rf : List (Bool × TNode D)} {lv : Nat} {n : Option Name} {x : D} {l r : Tree D} (b : Bool)
    (h : AtAddr t ⟨d, lf, .node lv n x l r, rf⟩) : AtAddr t ⟨b, lf, l, (d, ⟨lv, n, x, l, r⟩) :: rf⟩ := by
  obtain ⟨a, h1, h2, h3⟩ := h
  refine ⟨a ++ [false], by rw [below_append, h1]; simp [below], h2.mono (above_sub a _), ?_⟩
  intro p hp
  rcases List.mem_cons.1 hp with rfl | hp
  · exact ⟨a, self_above a _, x, l, h1⟩
  · exact h3.mono (above_sub a _) p hp

theorem AtAddr.downLeft {t : Tree D} {c : Cursor D} (h : AtAddr t c) : AtAddr t c.downLeft.1 := by
  obtain ⟨d, lf, t', rf⟩ := c
  cases t' with
  | nil => exact h
  | node lv n x l r =>
    simp only [Cursor.downLeft, Cursor.downLeftForce]
    split
    · exact h
    · simp; exact h.left false

theorem AtAddr.downRight {t : Tree D} {c : Cursor D} (h : AtAddr t c) : AtAddr t c.downRight.1 := by
  obtain ⟨d, lf, t', rf⟩ := c
  cases t' with
  | nil => exact h
  | node lv n x l r =>
    simp only [Cursor.downRight, Cursor.downRightForce]
    split
    · exact h
    · simp; exact h.right false

theorem AtAddr.downRightAll {t : Tree D} : ∀ (t' : Tree D) (c : Cursor D), c.tree = t' → AtAddr t c → AtAddr t c.downRightAll := by
  intro t'
  induction t' with
  | nil =>
    intro c hc h
    unfold Cursor.downRightAll
    split
    · rename_i heq; simp [Cursor.downRight, Cursor.downRightForce, hc] at heq
    · exact h
  | node lv nm x l r ihl ihr =>
    intro c hc h
    obtain ⟨d, lf, t, rf⟩ := c
    simp only at hc; subst hc
    rw [downRightAll_node]
    split
    · exact ihr _ rfl (h.right false)
    · exact h

variable [RazMeta E M]

theorem focusLoop_addr {t : Tree (TreeData E M)} : ∀ (n : Nat) (c : Cursor (TreeData E M)) (i : RazMeta.Index E M)
    (c' : Cursor (TreeData E M)) (i' : RazMeta.Index E M), AtAddr t c →
    RazTree.focusLoop n c i = .ok (some (c', i')) → AtAddr t c' := by
  intro n
  induction n with
  | zero =>
    intro c i c' i' h hf
    unfold RazTree.focusLoop at hf
    obtain ⟨d, -, hf⟩ := bind_ok.1 hf
    cases d <;> (simp at hf; exact hf.1 ▸ h)
  | succ n ih =>
    intro c i c' i' h hf
    unfold RazTree.focusLoop at hf
    obtain ⟨d, -, hf⟩ := bind_ok.1 hf
    cases d with
    | dummy => simp at hf; exact hf.1 ▸ h
    | leaf v => simp at hf; exact hf.1 ▸ h
    | branch a b =>
      simp only at hf
      obtain ⟨nav, -, hf⟩ := bind_ok.1 hf
      cases nav with
      | left j =>
        simp only at hf
        obtain ⟨-, -, hf⟩ := bind_ok.1 hf
        exact ih _ _ _ _ h.downLeft hf
      | right j =>
        simp only at hf
        obtain ⟨-, -, hf⟩ := bind_ok.1 hf
        exact ih _ _ _ _ h.downRight hf
      | here =>
        simp only at hf
        obtain ⟨-, -, hf⟩ := bind_ok.1 hf
        exact ih _ _ _ _ (AtAddr.downRightAll _ _ rfl h.downLeft) hf
      | nowhere => simp at hf

/-- The entries after `focus` are the nodes above an address, and the stacks have no archive points. -/
theorem focus_addr {t : RazTree E M} {i : RazMeta.Index E M} {z : Raz E M} (h : t.focus i = .ok (some z)) :
    (∃ A, Closed A ∧ A.length ≤ t.tree.depth ∧ LeftAt t.tree A z.lForest.lForest ∧ RightAt t.tree A z.rForest.rForest) ∧
      z.lStack.archived = [] ∧ z.rStack.archived = [] := by
  unfold RazTree.focus at h
  split at h
  · simp at h
    subst h
    exact ⟨⟨[], fun a b h => (by cases h), Nat.zero_le _, fun p hp => (by cases hp), fun p hp => (by cases hp)⟩, rfl, rfl⟩
  · obtain ⟨x, h1, h⟩ := bind_ok.1 h
    match x with
    | none => simp at h
    | some (c, i') =>
      simp only at h
      obtain ⟨a, k1, k2, k3⟩ := focusLoop_addr _ _ _ _ _ (AtAddr.ofTree _) h1
      have hne : c.split.2.1 = c.tree := rfl
      match ht : c.split.2.1 with
      | .nil => simp [ht] at h
      | .node _ _ .dummy _ _ => simp [ht] at h
      | .node _ _ (.branch ..) _ _ => simp [ht] at h
      | .node _ _ (.leaf v) _ _ =>
        simp only [ht] at h
        obtain ⟨⟨p, q⟩, h2, h⟩ := bind_ok.1 h
        simp [pure, Except.pure] at h
        rw [← h]
        rw [hne] at ht
        have := below_depth (t := t.tree) (a := a) (by rw [k1, ht]; simp)
        exact ⟨⟨above a, above_closed a, by rw [above_length]; omega, k2, k3⟩, rfl, rfl⟩

end Iodyn
