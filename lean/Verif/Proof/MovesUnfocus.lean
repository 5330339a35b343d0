import Verif.Proof.MovesJoin
import Verif.Proof.MeanDepth
/-
The moves of `unfocus`.
-/
namespace Iodyn
open Cursor
variable {E M : Type}

/-- The number of archive points. -/
def markCount (l : List (Item E)) : Nat := (marksOf l).length

@[simp] theorem markCount_nil : markCount ([] : List (Item E)) = 0 := rfl
@[simp] theorem markCount_append (a b : List (Item E)) : markCount (a ++ b) = markCount a + markCount b := by simp [markCount, marksOf]
@[simp] theorem markCount_reverse (a : List (Item E)) : markCount a.reverse = markCount a := by simp [markCount, marksOf, List.filterMap_reverse]
@[simp] theorem markCount_mark (lv nm) (l : List (Item E)) : markCount (.mark lv nm :: l) = markCount l + 1 := by simp [markCount, marksOf]
@[simp] theorem markCount_elems (v : List E) : markCount (v.map .elem) = 0 := by
  induction v with
  | nil => rfl
  | cons a v ih => simpa [markCount, marksOf] using ih

variable [RazMeta E M]

theorem descR_depth {ℓ : Nat} (hl : 1 ≤ ℓ) {t : Tree (TreeData E M)} (h : WF t) : descR ℓ t ≤ t.depth := by
  induction h with
  | leaf v => rw [descR, if_pos (by omega)]; exact Nat.zero_le _
  | @branch lv nm l r h1 hl hr ihl ihr =>
    rw [WF.depth_branch hl]
    have := descR_node ℓ lv nm (.branch (metaOf lv nm l) (metaOf lv nm r)) l r
    omega

theorem descL_depth {ℓ : Nat} {t : Tree (TreeData E M)} (h : WF t) : descL ℓ t ≤ t.depth := by
  induction h with
  | leaf v => rw [descL, if_pos (by omega)]; exact Nat.zero_le _
  | @branch lv nm l r h1 hl hr ihl ihr =>
    rw [WF.depth_branch hl]
    have := descL_node ℓ lv nm (.branch (metaOf lv nm l) (metaOf lv nm r)) l r
    omega

theorem depth_marks {t : Tree (TreeData E M)} (h : WF t) : t.depth ≤ markCount t.items := by
  induction h with
  | leaf v => exact Nat.zero_le _
  | @branch lv nm l r h1 hl hr ihl ihr =>
    rw [WF.depth_branch hl]
    simp only [items_branch, markCount_append, markCount_mark]
    omega

/-- The steps that a join goes down are not more than the archive points. -/
theorem RS.marks {c : Cursor (TreeData E M)} (h : JInv c) {ℓ : Nat} (hl : 1 ≤ ℓ) : RS ℓ (markCount (cItems c)) c := by
  have hf : ∀ (l : List (Bool × TNode (TreeData E M))), FR l → ∀ p ∈ l, 1 + descR ℓ p.2.r ≤ markCount (Cursor.rightSide l) := by
    intro l
    induction l with
    | nil => intro _ p hp; cases hp
    | cons q l ih =>
      intro h p hp
      simp only [rightSide_cons, List.cons_append, markCount_mark, markCount_append]
      rcases List.mem_cons.1 hp with rfl | hp
      · have h1 := (FR_cons.1 h).1.2.1
        have := descR_depth hl h1
        have := depth_marks h1
        omega
      · have := ih (FR_cons.1 h).2 p hp
        omega
  refine ⟨fun _ => ?_, fun p hp => ?_⟩
  · have := descR_depth hl h.t
    have := depth_marks h.t
    simp only [cItems, markCount_append]
    omega
  · have := hf _ h.r p hp
    simp only [cItems, markCount_append]
    omega

theorem RS.ofTree {t : Tree (TreeData E M)} (h : WF t) {ℓ : Nat} (hl : 1 ≤ ℓ) : RS ℓ t.depth (Cursor.ofTree t) :=
  ⟨fun _ => descR_depth hl h, fun p hp => (by cases hp)⟩
theorem LS.ofTree {t : Tree (TreeData E M)} (h : WF t) {ℓ : Nat} : LS ℓ t.depth (Cursor.ofTree t) :=
  ⟨fun _ => descL_depth h, fun p hp => (by cases hp)⟩

theorem descendLeft_shape {level N : Nat} {t : Tree (TreeData E M)} (h : WF t) : ∀ {d lf rf} {c' : Cursor (TreeData E M)}, t.depth ≤ N →
    (∀ p ∈ rf, WF p.2.r ∧ 1 + p.2.r.depth ≤ N) → descendLeft level ⟨d, lf, t, rf⟩ = .ok c' →
    WF c'.tree ∧ c'.tree.depth ≤ N ∧ ∀ p ∈ c'.rForest, WF p.2.r ∧ 1 + p.2.r.depth ≤ N := by
  induction h with
  | leaf v =>
    intro d lf rf c' ht hf h
    rw [descendLeft_node, if_pos (Nat.zero_le _)] at h
    cases h
    exact ⟨WF.leaf v, ht, hf⟩
  | @branch lv nm l r h1 hl hr ihl ihr =>
    intro d lf rf c' ht hf h
    rw [descendLeft_node] at h
    split at h
    · cases h
      exact ⟨WF.branch h1 hl hr, ht, hf⟩
    · rw [WF.depth_branch hl] at ht
      refine ihl (by omega) (fun p hp => ?_) h
      rcases List.mem_cons.1 hp with rfl | hp
      · exact ⟨hr, by show 1 + r.depth ≤ N; omega⟩
      · exact hf p hp

theorem descendRight_shape {level N : Nat} (hlev : 1 ≤ level) {t : Tree (TreeData E M)} (h : WF t) : ∀ {d lf rf} {c' : Cursor (TreeData E M)}, t.depth ≤ N →
    (∀ p ∈ lf, WF p.2.l ∧ 1 + p.2.l.depth ≤ N) → descendRight level ⟨d, lf, t, rf⟩ = .ok c' →
    WF c'.tree ∧ c'.tree.depth ≤ N ∧ ∀ p ∈ c'.lForest, WF p.2.l ∧ 1 + p.2.l.depth ≤ N := by
  induction h with
  | leaf v =>
    intro d lf rf c' ht hf h
    rw [descendRight_node, if_pos (by omega)] at h
    cases h
    exact ⟨WF.leaf v, ht, hf⟩
  | @branch lv nm l r h1 hl hr ihl ihr =>
    intro d lf rf c' ht hf h
    rw [descendRight_node] at h
    split at h
    · cases h
      exact ⟨WF.branch h1 hl hr, ht, hf⟩
    · rw [WF.depth_branch hl] at ht
      refine ihr (by omega) (fun p hp => ?_) h
      rcases List.mem_cons.1 hp with rfl | hp
      · exact ⟨hl, by show 1 + l.depth ≤ N; omega⟩
      · exact hf p hp

/-- After a join with a tree on the right. -/
theorem join_tree_right {lc c : Cursor (TreeData E M)} {T : Tree (TreeData E M)} {level : Nat} {name : Option Name} (hT : WF T)
    (h : join lc level name .dummy (Cursor.ofTree T) = .ok c) {ℓ : Nat} (hℓ : 1 ≤ ℓ) : RS ℓ (1 + T.depth) c := by
  unfold join at h
  obtain ⟨l1, a1, h⟩ := bind_ok.1 h
  obtain ⟨r1, b1, h⟩ := bind_ok.1 h
  obtain ⟨l2, a2, h⟩ := bind_ok.1 h
  obtain ⟨l3, a3, h⟩ := bind_ok.1 h
  obtain ⟨r2, b2, h⟩ := bind_ok.1 h
  obtain ⟨r3, b3, h⟩ := bind_ok.1 h
  obtain ⟨y, hy, h⟩ := bind_ok.1 h
  cases h
  cases b1
  cases b2
  obtain ⟨h1, h2, h3⟩ := descendLeft_shape hT (N := T.depth) (Nat.le_refl _) (fun p hp => (by cases hp)) b3
  refine ⟨fun _ => ?_, fun p hp => ?_⟩
  · have := descR_node ℓ level name y l3.tree r3.tree
    have := descR_depth hℓ h1
    dsimp only
    omega
  · obtain ⟨h4, h5⟩ := h3 p hp
    have := descR_depth hℓ h4
    omega

/-- After a join with a tree on the left. -/
theorem join_tree_left {rc c : Cursor (TreeData E M)} {T : Tree (TreeData E M)} {level : Nat} {name : Option Name} (hlev : 1 ≤ level) (hT : WF T)
    (h : join (Cursor.ofTree T) level name .dummy rc = .ok c) {ℓ : Nat} : LS ℓ (1 + T.depth) c := by
  unfold join at h
  obtain ⟨l1, a1, h⟩ := bind_ok.1 h
  obtain ⟨r1, b1, h⟩ := bind_ok.1 h
  obtain ⟨l2, a2, h⟩ := bind_ok.1 h
  obtain ⟨l3, a3, h⟩ := bind_ok.1 h
  obtain ⟨r2, b2, h⟩ := bind_ok.1 h
  obtain ⟨r3, b3, h⟩ := bind_ok.1 h
  obtain ⟨y, hy, h⟩ := bind_ok.1 h
  cases h
  cases a1
  cases a2
  obtain ⟨h1, h2, h3⟩ := descendRight_shape hlev hT (N := T.depth) (Nat.le_refl _) (fun p hp => (by cases hp)) a3
  refine ⟨fun _ => ?_, fun p hp => ?_⟩
  · have := descL_node ℓ level name y l3.tree r3.tree
    have := descL_depth (ℓ := ℓ) h1
    dsimp only
    omega
  · obtain ⟨h4, h5⟩ := h3 p hp
    have := descL_depth (ℓ := ℓ) h4
    omega

/-! ### The loops -/

omit [RazMeta E M] in
theorem pre_cons (cur : List E) (anm alev av rest lev nm) : pre ⟨cur, (anm, alev, av) :: rest⟩ (some lev) nm =
    .mark lev nm :: cur.reverse.map .elem ++ pre ⟨av, rest⟩ (some alev) (Raz.treeName ⟨cur, (anm, alev, av) :: rest⟩) := by
  simp [pre, side_mk cur, side_arch, Item.settle, Raz.treeName, AStack.name, Stack.name, Function.comp_def]


theorem joinLeftLoopC_cost (arch : Stack (Nat × List E)) :
    ∀ (cur : List E) (lev : Option Nat) (nm : Option Name) (c : Cursor (TreeData E M)),
      PreOK ⟨cur, arch⟩ lev → JInv c → (∀ ℓ, LS ℓ 1 c) →
      ∃ c' k, Costs (Raz.joinLeftLoopC ⟨cur, arch⟩ c lev nm (Raz.treeName ⟨cur, arch⟩)) c' k ∧ k + c'.height ≤ c.height + 2 * markCount (pre ⟨cur, arch⟩ lev nm) := by
  induction arch with
  | nil =>
    intro cur lev nm c hp hc hs
    obtain ⟨-, hp⟩ := hp
    cases lev with
    | none =>
      simp only [AStack.mk.injEq] at hp
      obtain ⟨rfl, -⟩ := hp
      rw [Raz.joinLeftLoopC_none nextArchive_nil]
      exact ⟨c, 0, Costs.pure _, by omega⟩
    | some lev =>
      obtain ⟨h1, h2⟩ := hp
      simp only at h2
      obtain ⟨c', e1, e2, -, e3⟩ := join_ok (name := nm) h1 (JInv.ofTree (WF.leaf cur)) hc
      obtain ⟨k, k1, k2⟩ := joinC_cost e1 (RS.ofTree (WF.leaf cur) h1) (hs lev)
      rw [Raz.joinLeftLoopC_some (nextArchive_last h2)]
      refine ⟨c', 0 + (k + 0), (Costs.still rfl).bind (k1.bind ?_), ?_⟩
      · rw [Raz.joinLeftLoopC_none nextArchive_nil]
        exact Costs.pure _
      · have : (Tree.node 0 none (TreeData.leaf cur) .nil .nil : Tree (TreeData E M)).depth = 0 := rfl
        have : (Cursor.ofTree (Tree.node 0 none (TreeData.leaf cur) .nil .nil : Tree (TreeData E M))).height = 0 := rfl
        simp only [pre, markCount_mark]
        omega
  | cons p rest ih =>
    obtain ⟨anm, alev, av⟩ := p
    intro cur lev nm c hp hc hs
    obtain ⟨hso, hp⟩ := hp
    cases lev with
    | none => simp at hp
    | some lev =>
      obtain ⟨h1, h2⟩ := hp
      simp only at h2
      have hav := hso (anm, alev, av) (by simp)
      obtain ⟨c', e1, e2, -, e3⟩ := join_ok (name := nm) h1 (JInv.ofTree (WF.leaf cur)) hc
      obtain ⟨k, k1, k2⟩ := joinC_cost e1 (RS.ofTree (WF.leaf cur) h1) (hs lev)
      obtain ⟨c'', j, f1, f2⟩ := ih av (some alev) (Raz.treeName ⟨cur, (anm, alev, av) :: rest⟩) c'
        ⟨fun p hp => hso p (by simp at hp ⊢; exact .inr hp), hav⟩ e2 (fun ℓ => join_tree_left h1 (WF.leaf cur) e1)
      rw [Raz.joinLeftLoopC_some (nextArchive_cons cur anm alev av rest)]
      refine ⟨c'', 0 + (k + j), (Costs.still rfl).bind (k1.bind f1), ?_⟩
      have : (Tree.node 0 none (TreeData.leaf cur) .nil .nil : Tree (TreeData E M)).depth = 0 := rfl
      have : (Cursor.ofTree (Tree.node 0 none (TreeData.leaf cur) .nil .nil : Tree (TreeData E M))).height = 0 := rfl
      have e : markCount (pre ⟨cur, (anm, alev, av) :: rest⟩ (some lev) nm) = markCount (pre ⟨av, rest⟩ (some alev) (Raz.treeName ⟨cur, (anm, alev, av) :: rest⟩)) + 1 := by
        rw [pre_cons]
        simp
      rw [e]
      omega

theorem joinRightLoopC_cost (arch : Stack (Nat × List E)) :
    ∀ (cur : List E) (lev : Option Nat) (nm : Option Name) (c : Cursor (TreeData E M)),
      PreOK ⟨cur, arch⟩ lev → JInv c → ∀ n, 1 ≤ n → (∀ ℓ, 1 ≤ ℓ → RS ℓ n c) →
      ∃ c' k, Costs (Raz.joinRightLoopC ⟨cur, arch⟩ c lev nm (Raz.treeName ⟨cur, arch⟩)) c' k ∧ k + c'.height ≤ c.height + 2 * n + 2 * markCount (pre ⟨cur, arch⟩ lev nm) := by
  induction arch with
  | nil =>
    intro cur lev nm c hp hc n hn hs
    obtain ⟨-, hp⟩ := hp
    cases lev with
    | none =>
      simp only [AStack.mk.injEq] at hp
      obtain ⟨rfl, -⟩ := hp
      rw [Raz.joinRightLoopC_none nextArchive_nil]
      exact ⟨c, 0, Costs.pure _, by omega⟩
    | some lev =>
      obtain ⟨h1, h2⟩ := hp
      simp only at h2
      obtain ⟨c', e1, e2, -, e3⟩ := join_ok (name := nm) h1 hc (JInv.ofTree (WF.leaf cur.reverse))
      obtain ⟨k, k1, k2⟩ := joinC_cost e1 (hs lev h1) (LS.ofTree (WF.leaf cur.reverse))
      rw [Raz.joinRightLoopC_some (nextArchive_last h2)]
      refine ⟨c', 0 + (k + 0), (Costs.still rfl).bind (k1.bind ?_), ?_⟩
      · rw [Raz.joinRightLoopC_none nextArchive_nil]
        exact Costs.pure _
      · have : (Tree.node 0 none (TreeData.leaf cur.reverse) .nil .nil : Tree (TreeData E M)).depth = 0 := rfl
        have : (Cursor.ofTree (Tree.node 0 none (TreeData.leaf cur.reverse) .nil .nil : Tree (TreeData E M))).height = 0 := rfl
        simp only [pre, markCount_mark]
        omega
  | cons p rest ih =>
    obtain ⟨anm, alev, av⟩ := p
    intro cur lev nm c hp hc n hn hs
    obtain ⟨hso, hp⟩ := hp
    cases lev with
    | none => simp at hp
    | some lev =>
      obtain ⟨h1, h2⟩ := hp
      simp only at h2
      have hav := hso (anm, alev, av) (by simp)
      obtain ⟨c', e1, e2, -, e3⟩ := join_ok (name := nm) h1 hc (JInv.ofTree (WF.leaf cur.reverse))
      obtain ⟨k, k1, k2⟩ := joinC_cost e1 (hs lev h1) (LS.ofTree (WF.leaf cur.reverse))
      obtain ⟨c'', j, f1, f2⟩ := ih av (some alev) (Raz.treeName ⟨cur, (anm, alev, av) :: rest⟩) c'
        ⟨fun p hp => hso p (by simp at hp ⊢; exact .inr hp), hav⟩ e2 1 (Nat.le_refl _) (fun ℓ hℓ => join_tree_right (WF.leaf cur.reverse) e1 hℓ)
      rw [Raz.joinRightLoopC_some (nextArchive_cons cur anm alev av rest)]
      refine ⟨c'', 0 + (k + j), (Costs.still rfl).bind (k1.bind f1), ?_⟩
      have : (Tree.node 0 none (TreeData.leaf cur.reverse) .nil .nil : Tree (TreeData E M)).depth = 0 := rfl
      have : (Cursor.ofTree (Tree.node 0 none (TreeData.leaf cur.reverse) .nil .nil : Tree (TreeData E M))).height = 0 := rfl
      have e : markCount (pre ⟨cur, (anm, alev, av) :: rest⟩ (some lev) nm) = markCount (pre ⟨av, rest⟩ (some alev) (Raz.treeName ⟨cur, (anm, alev, av) :: rest⟩)) + 1 := by
        rw [pre_cons]
        simp
      rw [e]
      omega

/-! ### The forests -/

omit [RazMeta E M] in
/-- The left branch of an entry of the left forest is below it. -/
theorem LC.under {l : List (Bool × TNode (TreeData E M))} (h : LC l) {p : Bool × TNode (TreeData E M)} (hp : p ∈ l) : descR p.2.level p.2.l = 0 := by
  have := (h.c p hp).1
  cases hl : p.2.l with
  | nil => rfl
  | node lv nm x l r =>
    rw [hl] at this
    rw [descR, if_pos (this lv rfl)]
omit [RazMeta E M] in
theorem RC.under {l : List (Bool × TNode (TreeData E M))} (h : RC l) {p : Bool × TNode (TreeData E M)} (hp : p ∈ l) : descL p.2.level p.2.r = 0 := by
  have := (h.c p hp).2.1
  cases hl : p.2.r with
  | nil => rfl
  | node lv nm x l r =>
    rw [hl] at this
    rw [descL, if_pos (this lv rfl)]

theorem joinLeftForestC_cost {lf : Cursor (TreeData E M)} {t : Tree (TreeData E M)} (hl : LInv lf) (hc : LC lf.lForest) (ht : WF t) :
    ∃ jc k, Costs (Raz.joinLeftForestC lf (Cursor.ofTree t)) jc k ∧ (k + jc.height ≤ lf.lForest.length + 2 * t.depth + 1 ∧ lf.lForest.length ≤ k + jc.height) ∧ JInv jc ∧
      ∀ ℓ, 1 ≤ ℓ → RS ℓ (1 + t.depth) jc := by
  rcases hf : lf.lForest with _ | ⟨⟨d, u⟩, rest⟩
  · refine ⟨Cursor.ofTree t, 1 + 0, (upC_cost (hl.up_nil hf)).bind ?_, ?_, JInv.ofTree ht, fun ℓ hℓ => ?_⟩
    · exact Costs.pure _
    · rw [List.length_nil]
      exact ⟨Nat.le_add_left _ _, Nat.zero_le _⟩
    · have := RS.ofTree ht hℓ
      exact ⟨fun h => Nat.le_trans (this.tree h) (by omega), this.forest |> fun h p hp => Nat.le_trans (h p hp) (by omega)⟩
  · obtain ⟨c', a, b, t', h1, h2, h3, h4, ⟨h5, h6, h7⟩, h8⟩ := hl.up_cons hf
    have hd : c'.downLeftForce .discard = ({ c' with tree := u.l, dirty := true }, true) := by
      simp [Cursor.downLeftForce, h4]
    have hj2 : JInv ({ c' with tree := u.l, dirty := true } : Cursor (TreeData E M)) :=
      ⟨by rw [h2]; exact h8, by simp [h3], h6, .inl rfl⟩
    obtain ⟨jc', j1, j2, -, j3⟩ := join_ok (name := u.name) h7 hj2 (JInv.ofTree ht)
    have hu := hc.under (p := (d, u)) (by rw [hf]; exact List.mem_cons_self)
    obtain ⟨k, k1, k2⟩ := joinC_cost (n := 0) j1 ⟨fun _ => Nat.le_of_eq hu, fun p hp => (by rw [show ({ c' with tree := u.l, dirty := true } : Cursor (TreeData E M)).rForest = [] from h3] at hp; cases hp)⟩
      (LS.ofTree ht)
    refine ⟨jc', 1 + (0 + (1 + k)), (upC_cost h1).bind ?_, ?_, j2, fun ℓ hℓ => join_tree_right ht j1 hℓ⟩
    · dsimp only
      rw [if_pos (by decide)]
      refine (Costs.still (a := u.level) (by simp [Cursor.peekLevel, h4, Tree.level?, unwrap])).bind ?_
      refine Costs.bind (a := c'.downLeftForce .discard) (k := 1) (Costs.pure _).move ?_
      rw [hd]
      simp only [Cursor.peekName, h4, Tree.name?]
      exact k1
    · have e1 : ({ c' with tree := u.l, dirty := true } : Cursor (TreeData E M)).height = rest.length := by simp [Cursor.height, h2, h3]
      have e2 : (Cursor.ofTree t).height = 0 := rfl
      simp only [List.length_cons]
      omega

theorem joinRightForestC_cost {rf jc : Cursor (TreeData E M)} (hr : RInv rf) (hc : RC rf.rForest) (hj : JInv jc) {n : Nat} (hs : ∀ ℓ, 1 ≤ ℓ → RS ℓ n jc) :
    ∃ jc' k, Costs (Raz.joinRightForestC jc rf) jc' k ∧ (k + jc'.height ≤ jc.height + rf.rForest.length + 2 * n + 1 ∧ jc.height + rf.rForest.length ≤ k + jc'.height) ∧ JInv jc' := by
  rcases hf : rf.rForest with _ | ⟨⟨d, u⟩, rest⟩
  · refine ⟨jc, 1 + 0, (upC_cost (hr.up_nil hf)).bind ?_, ?_, hj⟩
    · exact Costs.pure _
    · rw [List.length_nil]; omega
  · obtain ⟨c', a, b, t', h1, h2, h3, h4, ⟨h5, h6, h7⟩, h8⟩ := hr.up_cons hf
    have hd : c'.downRightForce .discard = ({ c' with tree := u.r, dirty := true }, true) := by
      simp [Cursor.downRightForce, h4]
    have hj2 : JInv ({ c' with tree := u.r, dirty := true } : Cursor (TreeData E M)) :=
      ⟨by simp [h3], by rw [h2]; exact h8, h6, .inl rfl⟩
    obtain ⟨jc', j1, j2, -, j3⟩ := join_ok (name := u.name) h7 hj hj2
    have hu := hc.under (p := (d, u)) (by rw [hf]; exact List.mem_cons_self)
    obtain ⟨k, k1, k2⟩ := joinC_cost (m := 0) j1 (hs _ h7)
      ⟨fun _ => Nat.le_of_eq hu, fun p hp => (by rw [show ({ c' with tree := u.r, dirty := true } : Cursor (TreeData E M)).lForest = [] from h3] at hp; cases hp)⟩
    refine ⟨jc', 1 + (0 + (1 + k)), (upC_cost h1).bind ?_, ?_, j2⟩
    · dsimp only
      rw [if_pos (by decide)]
      refine (Costs.still (a := u.level) (by simp [Cursor.peekLevel, h4, Tree.level?, unwrap])).bind ?_
      refine Costs.bind (a := c'.downRightForce .discard) (k := 1) (Costs.pure _).move ?_
      rw [hd]
      simp only [Cursor.peekName, h4, Tree.name?]
      exact k1
    · have e1 : ({ c' with tree := u.r, dirty := true } : Cursor (TreeData E M)).height = rest.length := by simp [Cursor.height, h2, h3]
      simp only [List.length_cons]
      omega

theorem joinForestsC_cost {t : Tree (TreeData E M)} {lf rf : Cursor (TreeData E M)} (ht : WF t) (hl : LInv lf) (hr : RInv rf) (cl : LC lf.lForest)
    (cr : RC rf.rForest) : ∃ t' k, Costs (Raz.joinForestsC t lf rf) t' k ∧ k ≤ lf.lForest.length + rf.rForest.length + 4 * t.depth + 5 ∧ lf.lForest.length + rf.rForest.length ≤ k := by
  obtain ⟨j1, k1, a1, a2, a3, a4⟩ := joinLeftForestC_cost hl cl ht
  obtain ⟨j2, k2, b1, b2, b3⟩ := joinRightForestC_cost hr cr a3 a4
  obtain ⟨c, u1, u2, u3, -⟩ := upAll_ok j2.height j2 b3 (Nat.le_refl _)
  refine ⟨_, _, a1.bind (b1.bind ((upAllC_cost (Nat.le_refl _) u1).bind (Costs.still (mkRazTree_wf (.inr u2))))), ?_⟩
  omega

/-! ### The centre -/

omit [RazMeta E M] in
theorem side_count (s : AStack E Nat) : markCount s.side = s.archived.length := by
  obtain ⟨cur, arch⟩ := s
  simp only [AStack.side, markCount_append, markCount_elems, Nat.zero_add]
  induction arch with
  | nil => rfl
  | cons p rest ih =>
    simp only [List.flatMap_cons, List.cons_append, List.length_cons]
    rw [show markCount (Item.pend p.2.1 p.1 :: (p.2.2.reverse.map Item.elem ++ rest.flatMap fun p => Item.pend p.2.1 p.1 :: p.2.2.reverse.map Item.elem)) =
      markCount (p.2.2.reverse.map Item.elem ++ rest.flatMap fun p => Item.pend p.2.1 p.1 :: p.2.2.reverse.map Item.elem) + 1 by simp [markCount, marksOf]]
    rw [markCount_append, markCount_elems, ih, Nat.zero_add]

omit [RazMeta E M] in
theorem settle_count (l : List (Item E)) : markCount (l.map Item.settle) = markCount l := by
  induction l with
  | nil => rfl
  | cons a l ih =>
    cases a <;> simpa [markCount, marksOf, Item.settle] using ih

omit [RazMeta E M] in
theorem cons_count (a : Item E) (l : List (Item E)) : markCount l ≤ markCount (a :: l) := by
  rw [show a :: l = [a] ++ l from rfl, markCount_append]
  omega

omit [RazMeta E M] in
theorem glue_count (a b : List (Item E)) : markCount (glue a b) ≤ markCount a + markCount b := by
  rcases a with _ | ⟨x, a⟩ <;> rcases b with _ | ⟨y, b⟩
  · exact Nat.zero_le _
  · simp only [glue]
    have := cons_count y b
    split <;> omega
  · simp only [glue]
    have := cons_count x a
    split <;> simp only [markCount_reverse] <;> omega
  · simp only [glue]
    have := cons_count x a
    have := cons_count y b
    split
    · split <;> simp only [markCount_append, markCount_reverse] <;> omega
    · simp only [markCount_append, markCount_reverse]
      omega

/-- The tree between the two stacks. -/
theorem centerTreeC_cost {ls rs : AStack E Nat} {lf rf : Cursor (TreeData E M)} (hl : StackOK ls) (hr : StackOK rs) {ce : Raz.Center E} (hc : Raz.center ls rs = .ok ce)
    {v : List E} (hv : ce.vec = some v) :
    ∃ t k, Costs (Raz.centerTreeC ce lf rf) (some (t, lf, rf)) k ∧ WF t ∧ t.depth ≤ ls.archived.length + rs.archived.length ∧
      k ≤ 4 * (ls.archived.length + rs.archived.length) + 3 := by
  obtain ⟨ce', c1, c2, c3, c4⟩ := center_ok hl hr
  rw [hc] at c1
  cases c1
  rw [hv] at c4
  obtain ⟨-, hg⟩ := c4
  have hn : markCount (pre ce.lStack ce.lLev ce.lNm) + markCount (pre ce.rStack ce.rLev ce.rNm) ≤ ls.archived.length + rs.archived.length := by
    have h1 := glue_count ls.side rs.side
    have h2 := congrArg markCount (hg [] [] (.inl rfl) (.inl rfl))
    rw [settle_count] at h2
    simp only [List.append_nil, List.map_nil, List.reverse_nil, List.nil_append, markCount_append, markCount_reverse, markCount_elems] at h2
    rw [side_count, side_count] at h1
    omega
  have hw : JInv (Cursor.ofTree (leaf v none) : Cursor (TreeData E M)) := JInv.ofTree (M := M) (WF.leaf v)
  obtain ⟨j1, a1, a2, a3⟩ := joinLeftLoop_ok ce.lStack.archived ce.lStack.current ce.lLev ce.lNm (Raz.treeName ce.lStack) (Cursor.ofTree (leaf v none)) c2 rfl hw
  obtain ⟨j2, b1, b2, b3⟩ := joinRightLoop_ok ce.rStack.archived ce.rStack.current ce.rLev ce.rNm (Raz.treeName ce.rStack) j1 c3 rfl a2
  obtain ⟨j3, d1, d2, d3, -⟩ := upAll_ok j2.height j2 b2 (Nat.le_refl _)
  obtain ⟨j1', k1, x1, x2⟩ := joinLeftLoopC_cost ce.lStack.archived ce.lStack.current ce.lLev ce.lNm (Cursor.ofTree (leaf v none)) c2 hw
    (fun ℓ => ⟨fun h => Nat.le_trans ((LS.ofTree (WF.leaf (M := M) v)).tree h) (Nat.zero_le _), fun p hp => (by cases hp)⟩)
  obtain rfl : j1' = j1 := by
    have := x1.same (Raz.joinLeftLoop_same _ _ _ _ _)
    rw [this] at a1
    exact Except.ok.inj a1
  have hm : markCount (cItems j1') = markCount (pre ce.lStack ce.lLev ce.lNm) := by
    rw [a3]
    simp [cItems, Cursor.ofTree, leaf]
  obtain ⟨j2', k2, y1, y2⟩ := joinRightLoopC_cost ce.rStack.archived ce.rStack.current ce.rLev ce.rNm j1' c3 a2 (1 + markCount (cItems j1')) (by omega)
    (fun ℓ hℓ => ⟨fun h => Nat.le_trans ((RS.marks a2 hℓ).tree h) (by omega), fun p hp => Nat.le_trans ((RS.marks a2 hℓ).forest p hp) (by omega)⟩)
  obtain rfl : j2' = j2 := by
    have := y1.same (Raz.joinRightLoop_same _ _ _ _ _)
    rw [this] at b1
    exact Except.ok.inj b1
  refine ⟨j3.tree, k1 + (k2 + (j2'.height + 1 + (0 + 0))), ?_, d2, ?_, ?_⟩
  · unfold Raz.centerTreeC
    rw [hv]
    exact x1.bind (y1.bind ((upAllC_cost (Nat.le_refl _) d1).bind ((Costs.still (a := j3.tree) (by simp [Raz.unwrapTree, Cursor.atTree, d2.isSome, pure, Except.pure])).bind (Costs.pure _))))
  · have := depth_marks d2
    rw [d3, b3, markCount_append, hm] at this
    exact Nat.le_trans this hn
  · rw [hm] at y2
    have : (Cursor.ofTree (leaf (M := M) v none)).height = 0 := rfl
    have e1 : (⟨ce.lStack.current, ce.lStack.archived⟩ : AStack E Nat) = ce.lStack := rfl
    have e2 : (⟨ce.rStack.current, ce.rStack.archived⟩ : AStack E Nat) = ce.rStack := rfl
    rw [e1] at x2
    rw [e2] at y2
    omega

/-! ### All of `unfocus` -/

/-- The moves of `unfocus`: the two paths, eight for each pending archive point, and, only when nothing stands on either side, the depth of the branch beside the cursor. -/
theorem unfocusC_cost {z : Raz E M} (h : ZInv z) (hc : ZC z) {D : Nat} (hl : ∀ p ∈ z.lForest.lForest, p.2.l.depth ≤ D) (hr : ∀ p ∈ z.rForest.rForest, p.2.r.depth ≤ D) :
    ∃ t k, Costs z.unfocusC t k ∧
      k ≤ z.path + 8 * (z.lStack.archived.length + z.rStack.archived.length) + 8 + (if z.lStack.isEmpty ∧ z.rStack.isEmpty then 4 * D else 0) ∧ z.path ≤ k := by
  obtain ⟨hlf, hrf, hls, hrs⟩ := h
  obtain ⟨ce, c1, c2, c3, c4⟩ := center_ok hls hrs
  unfold Raz.unfocusC Raz.path
  cases hv : ce.vec with
  | some v =>
    obtain ⟨t, k1, a1, a2, a3, a4⟩ := centerTreeC_cost (lf := z.lForest) (rf := z.rForest) hls hrs c1 hv
    obtain ⟨t', k2, b1, b2⟩ := joinForestsC_cost a2 hlf hrf hc.l hc.r
    refine ⟨t', _, (Costs.still c1).bind (a1.bind b1), ?_⟩
    omega
  | none =>
    rw [hv] at c4
    obtain ⟨h1, h2⟩ := c4
    rw [if_pos ⟨by rw [h1]; rfl, by rw [h2]; rfl⟩]
    rcases hf : z.lForest.lForest with _ | ⟨⟨d, u⟩, rest⟩
    · rcases hf2 : z.rForest.rForest with _ | ⟨⟨d, u⟩, rest⟩
      · refine ⟨_, _, (Costs.still c1).bind (Costs.bind (a := none) (k := 1 + (1 + 0)) ?_ (Costs.still (mkRazTree_wf (.inl rfl)))), ?_⟩
        · unfold Raz.centerTreeC
          rw [hv]
          refine (upC_cost (hlf.up_nil hf)).bind ?_
          dsimp only
          rw [if_pos rfl]
          refine (upC_cost (hrf.up_nil hf2)).bind ?_
          dsimp only
          rw [if_pos rfl]
          exact Costs.pure _
        · rw [List.length_nil]; omega
      · obtain ⟨c', a, b, t, u1, u2, u3, u4, ⟨u5, u6, u7⟩, u8⟩ := hrf.up_cons hf2
        have hc' : RInv c' := ⟨u3, by rw [u2]; exact u8, by simp [u4, Tree.peek?]⟩
        have hcr : RC c'.rForest := by
          have := hc.r
          rw [hf2] at this
          rw [u2]
          exact this.tail
        obtain ⟨t', k2, b1, b2⟩ := joinForestsC_cost u6 hlf hc' hc.l hcr
        refine ⟨t', _, (Costs.still c1).bind (Costs.bind (a := some (u.r, z.lForest, c')) (k := 1 + (1 + (0 + 0))) ?_ b1), ?_⟩
        · unfold Raz.centerTreeC
          rw [hv]
          refine (upC_cost (hlf.up_nil hf)).bind ?_
          dsimp only
          rw [if_pos rfl]
          refine (upC_cost u1).bind ?_
          dsimp only
          rw [if_neg (by decide)]
          exact (Costs.still (a := u.r) (by simp [Raz.unwrapTree, Cursor.rightTree, u4, u6.isSome])).bind (Costs.pure _)
        · have : u.r.depth ≤ D := hr (d, u) (by rw [hf2]; exact List.mem_cons_self)
          rw [hf, u2] at b2
          simp only [List.length_cons, List.length_nil] at b2 ⊢
          omega
    · obtain ⟨c', a, b, t, u1, u2, u3, u4, ⟨u5, u6, u7⟩, u8⟩ := hlf.up_cons hf
      have hc' : LInv c' := ⟨by rw [u2]; exact u8, u3, by simp [u4, Tree.peek?]⟩
      have hcl : LC c'.lForest := by
        have := hc.l
        rw [hf] at this
        rw [u2]
        exact this.tail
      obtain ⟨t', k2, b1, b2⟩ := joinForestsC_cost u6 hc' hrf hcl hc.r
      refine ⟨t', _, (Costs.still c1).bind (Costs.bind (a := some (u.l, c', z.rForest)) (k := 1 + (0 + 0)) ?_ b1), ?_⟩
      · unfold Raz.centerTreeC
        rw [hv]
        refine (upC_cost u1).bind ?_
        dsimp only
        rw [if_neg (by decide)]
        exact (Costs.still (a := u.l) (by simp [Raz.unwrapTree, Cursor.leftTree, u4, u6.isSome])).bind (Costs.pure _)
      · have : u.l.depth ≤ D := hl (d, u) (by rw [hf]; exact List.mem_cons_self)
        rw [u2] at b2
        simp only [List.length_cons] at b2 ⊢
        omega

end Iodyn
