import Verif.Proof.UniqueMean
/-
How far edits at several places are seen by the updates after them.
-/
namespace Iodyn.Incr.Uq
open Iodyn.Heap (Tr Cell Mem)
open Iodyn.Skip
variable {E M X : Type} {L : Nat} {hash : E → Word}

/-! ### One update -/

/-- Two lists of updates that are the same for the update of `y`: what differs is hidden by updates after it, which both lists (and `D`) have. -/
inductive Hidden (L : Nat) (hash : E → Word) (y : E) : List (Loc × E) → List (Loc × E) → List (Loc × E) → Prop
  | same (D q : List (Loc × E)) : Hidden L hash y D q q
  | keep {D b b' : List (Loc × E)} (w : Loc × E) (h : Hidden L hash y (D ++ [w]) b b') : Hidden L hash y D (w :: b) (w :: b')
  | hole {D b b' : List (Loc × E)} (U V : List (Loc × E))
    (hz : ∀ z, z ∈ U ∨ z ∈ V → ∃ x ∈ D, common L (hash y) (hash z.2) < common L (hash x.2) (hash z.2)) (h : Hidden L hash y D b b') :
    Hidden L hash y D (U ++ b) (V ++ b')

theorem hidden_find {y : E} {D b b' : List (Loc × E)} (h : Hidden L hash y D b b') (p : Nat → Bool) :
    (D ++ b).find? (fun w => p (shares L hash y w)) = (D ++ b').find? (fun w => p (shares L hash y w)) := by
  induction h with
  | same => rfl
  | keep w _ ih => simpa using ih
  | @hole D b b' U V hz _ ih =>
    have e := find_hidden (fun w => p (shares L hash y w)) D U [] b (fun z h hp => by
      rcases h with h | h
      · obtain ⟨x, hx, hlt⟩ := hz z (.inl h)
        exact ⟨x, hx, by rw [show shares L hash y x = shares L hash y z from common_hidden hlt]; exact hp⟩
      · cases h)
    have e' := find_hidden (fun w => p (shares L hash y w)) D V [] b' (fun z h hp => by
      rcases h with h | h
      · obtain ⟨x, hx, hlt⟩ := hz z (.inr h)
        exact ⟨x, hx, by rw [show shares L hash y x = shares L hash y z from common_hidden hlt]; exact hp⟩
      · cases h)
    rw [e, e']
    exact ih

theorem hidden_filter {y : E} {D b b' : List (Loc × E)} (h : Hidden L hash y D b b') :
    b.filter (fun w => decide (shares L hash y w = L)) = b'.filter (fun w => decide (shares L hash y w = L)) := by
  induction h with
  | same => rfl
  | keep w _ ih => rw [List.filter_cons, List.filter_cons, ih]
  | @hole D b b' U V hz _ ih =>
    have e : ∀ W : List (Loc × E), (∀ z ∈ W, z ∈ U ∨ z ∈ V) → W.filter (fun w => decide (shares L hash y w = L)) = [] := fun W hW => by
      rw [List.filter_eq_nil_iff]
      intro z hz'
      obtain ⟨x, -, hlt⟩ := hz z (hW z hz')
      have := (le_common L (hash x.2) (hash z.2)).1
      simp only [decide_eq_true_eq]
      unfold shares
      omega
    rw [List.filter_append, List.filter_append, e U (fun _ => .inl), e V (fun _ => .inr), ih]

/-- An update does not see what is hidden from it. -/
theorem hidden_sees {y : E} {b b' : List (Loc × E)} (h : Hidden L hash y [] b b') : sees L hash b y = sees L hash b' y := by
  unfold sees
  congr 1
  · refine List.map_congr_left fun j _ => ?_
    have := hidden_find h fun n => decide (n = j)
    exact congrArg _ this
  · refine List.map_congr_left fun j _ => ?_
    have := hidden_find h fun n => decide (j ≤ n)
    exact congrArg _ this
  · rw [hidden_filter h]

/-! ### Stages -/

/-- Two lists of updates that differ at several places. For each place: the elements there, and those of the updates after it that both lists have. -/
inductive Woven : List (List E × List E) → List (Loc × E) → List (Loc × E) → Prop
  | same (q : List (Loc × E)) : Woven [] q q
  | keep {hs : List (List E × List E)} {b b' : List (Loc × E)} (w : Loc × E) (h : Woven hs b b') :
    Woven (hs.map fun q => (q.1, w.2 :: q.2)) (w :: b) (w :: b')
  | hole {hs : List (List E × List E)} {b b' : List (Loc × E)} (zs : List E) (U V : List (Loc × E)) (hz : ∀ z, z ∈ U ∨ z ∈ V → z.2 ∈ zs) (h : Woven hs b b') :
    Woven ((zs, []) :: hs) (U ++ b) (V ++ b')

/-- The update of `y` may see one of the places. -/
def Hits (L : Nat) (hash : E → Word) (hs : List (List E × List E)) (y : E) : Prop :=
  ∃ q ∈ hs, ∃ z ∈ q.1, ∀ x ∈ q.2, common L (hash x) (hash z) ≤ common L (hash y) (hash z)

theorem woven_hidden {y : E} {hs : List (List E × List E)} {b b' : List (Loc × E)} (h : Woven hs b b') : ∀ D : List (Loc × E),
    (∀ q ∈ hs, ∀ z ∈ q.1, ∃ x ∈ D.map (·.2) ++ q.2, common L (hash y) (hash z) < common L (hash x) (hash z)) → Hidden L hash y D b b' := by
  induction h with
  | same q => exact fun D _ => .same D q
  | @keep hs b b' w _ ih =>
    intro D hq
    refine .keep w (ih _ fun q hm z hz => ?_)
    obtain ⟨x, hx, hlt⟩ := hq (q.1, w.2 :: q.2) (List.mem_map_of_mem (f := fun q => (q.1, w.2 :: q.2)) hm) z hz
    refine ⟨x, ?_, hlt⟩
    simpa using hx
  | @hole hs b b' zs U V hz _ ih =>
    intro D hq
    refine .hole U V (fun z h => ?_) (ih D fun q hm => hq q (List.mem_cons_of_mem _ hm))
    obtain ⟨x, hx, hlt⟩ := hq _ List.mem_cons_self z.2 (hz z h)
    rw [List.append_nil] at hx
    obtain ⟨w, hw, rfl⟩ := List.mem_map.1 hx
    exact ⟨w, hw, hlt⟩

theorem woven_sees {y : E} {hs : List (List E × List E)} {b b' : List (Loc × E)} (h : Woven hs b b') (hn : ¬ Hits L hash hs y) : sees L hash b y = sees L hash b' y := by
  refine hidden_sees (woven_hidden h [] fun q hq z hz => ?_)
  by_contra hno
  refine hn ⟨q, hq, z, hz, fun x hx => Nat.le_of_not_lt fun hlt => hno ⟨x, by simpa using hx, hlt⟩⟩

theorem woven_head {y : E} {hs : List (List E × List E)} {b b' : List (Loc × E)} (h : Woven hs b b') (hf : ∀ q ∈ hs, q.1 ≠ []) (hn : ¬ Hits L hash hs y) :
    b.head? = b'.head? := by
  cases h with
  | same => rfl
  | keep => rfl
  | hole zs U V hz h =>
    obtain ⟨z, hm⟩ := List.exists_mem_of_ne_nil _ (hf _ List.mem_cons_self)
    exact absurd ⟨(zs, []), List.mem_cons_self, z, hm, fun x hx => by cases hx⟩ hn

/-- Two stages that differ at several places before. -/
structure Away (hs : List (List E × List E)) (s t : Stage E) : Prop where
  before : Woven hs s.before t.before
  name : s.name = t.name
  cntr : s.cntr = t.cntr
  full : ∀ q ∈ hs, q.1 ≠ []

/-- More updates that both have. -/
def later (hs : List (List E × List E)) (v : List E) : List (List E × List E) := hs.map fun q => (q.1, v.reverse ++ q.2)

/-- How many elements may see one of the places, for each place. -/
def touches (L : Nat) (hash : E → Word) (hs : List (List E × List E)) (v : List E) : Nat := (hs.map fun q => touched L hash q.1 q.2 v).sum

theorem touches_append (hs : List (List E × List E)) (a b : List E) : touches L hash hs (a ++ b) = touches L hash hs a + touches L hash (later hs a) b := by
  unfold touches later
  rw [List.map_map, ← List.sum_map_add]
  exact congrArg _ (List.map_congr_left fun q _ => touched_append a b q.2)

theorem touches_hit {hs : List (List E × List E)} {y : E} {v : List E} (h : Hits L hash hs y) : 1 ≤ touches L hash hs (y :: v) := by
  obtain ⟨q, hq, hz⟩ := h
  have h1 : touched L hash q.1 q.2 (y :: v) ≤ touches L hash hs (y :: v) := by
    unfold touches
    exact List.le_sum_of_mem (List.mem_map_of_mem (f := fun q : List E × List E => touched L hash q.1 q.2 (y :: v)) hq)
  rw [touched, if_pos hz] at h1
  omega

theorem Away.put {hs : List (List E × List E)} {s t : Stage E} (h : Away hs s t) (x : E) : Away (later hs [x]) (s.put x) (t.put x) := by
  refine ⟨?_, h.name, congrArg (· + 1) h.cntr, ?_⟩
  · have := Woven.keep (cellLoc s.name s.cntr, x) h.before
    rw [put_before, put_before, ← h.name, ← h.cntr]
    exact this
  · intro q hq
    obtain ⟨q0, hq0, rfl⟩ := List.mem_map.1 hq
    exact h.full q0 hq0

theorem later_append (hs : List (List E × List E)) (a b : List E) : later (later hs a) b = later hs (a ++ b) := by
  unfold later
  rw [List.map_map]
  refine List.map_congr_left fun q _ => ?_
  simp

theorem later_nil (hs : List (List E × List E)) : later hs [] = hs := by simp [later]

theorem Away.puts (v : List E) : ∀ {hs : List (List E × List E)} {s t : Stage E}, Away hs s t → Away (later hs v) (v.foldl Stage.put s) (v.foldl Stage.put t) := by
  induction v with
  | nil => intro hs s t h; rw [later_nil]; exact h
  | cons x v ih =>
    intro hs s t h
    have := ih (h.put x)
    rw [later_append] at this
    exact this

theorem Away.leaf {hs : List (List E × List E)} {s t : Stage E} (h : Away hs s t) (l : Leaf E) : Away (later hs l.2.2) (s.leaf l) (t.leaf l) := by
  have := h.puts l.2.2
  unfold Stage.leaf
  cases l.1 with
  | none => exact this
  | some n => exact ⟨this.before, rfl, rfl, this.full⟩

theorem Away.seesAll_eq (v : List E) : ∀ {hs : List (List E × List E)} {s t : Stage E}, Away hs s t → touches L hash hs v = 0 → seesAll L hash s v = seesAll L hash t v := by
  induction v with
  | nil => exact fun _ _ => rfl
  | cons y v ih =>
    intro hs s t h h0
    have h1 : ¬ Hits L hash hs y := fun hh => by have := touches_hit (v := v) hh; omega
    rw [show y :: v = [y] ++ v from rfl, touches_append] at h0
    rw [seesAll, seesAll, woven_sees h.before h1, ih (h.put y) (by omega)]

theorem Away.view_eq {hs : List (List E × List E)} {s t : Stage E} (h : Away hs s t) {l : Leaf E} (hl : l.2.2 ≠ []) (h0 : touches L hash hs l.2.2 = 0) :
    leafView L hash s l = leafView L hash t l := by
  unfold leafView
  rw [h.seesAll_eq l.2.2 h0]
  have : s.handle L = t.handle L := by
    cases hv : l.2.2 with
    | nil => exact absurd hv hl
    | cons y v =>
      rw [hv] at h0
      unfold Stage.handle
      rw [h.name, h.cntr, woven_head (L := L) (hash := hash) (y := y) h.before h.full fun hh => by have := touches_hit (v := v) hh; omega]
  rw [this]

variable [DecidableEq E]

/-- The leaves that both have. -/
theorem Away.kept (LV : List (LeafView E)) (ls : List (Leaf E)) : ∀ {hs : List (List E × List E)} {s t : Stage E}, Away hs s t → (∀ l ∈ ls, l.2.2 ≠ []) →
    (∀ w ∈ leafViews L hash s ls, w ∈ LV) → (leafViews L hash t ls).countP (fun w => decide (w ∉ LV)) ≤ touches L hash hs (leafElems ls) ∧
      Away (later hs (leafElems ls)) (ls.foldl Stage.leaf s) (ls.foldl Stage.leaf t) := by
  induction ls with
  | nil => intro hs s t h _ _; exact ⟨Nat.zero_le _, by rw [show leafElems ([] : List (Leaf E)) = [] from rfl, later_nil]; exact h⟩
  | cons l ls ih =>
    intro hs s t h hne hm
    have e : leafElems (l :: ls) = l.2.2 ++ leafElems ls := rfl
    rw [leafViews] at hm
    obtain ⟨h1, h2⟩ := ih (h.leaf l) (fun l' hl => hne l' (List.mem_cons_of_mem _ hl)) (fun w hw => hm w (List.mem_cons_of_mem _ hw))
    rw [later_append] at h2
    refine ⟨?_, h2⟩
    rw [e, touches_append, leafViews, List.countP_cons]
    split
    · next hv =>
      have : touches L hash hs l.2.2 ≠ 0 := fun h0 => by
        rw [← h.view_eq (hne l List.mem_cons_self) h0] at hv
        exact (of_decide_eq_true hv) (hm _ List.mem_cons_self)
      omega
    · omega

/-! ### Several edits -/

/-- An edit: the leaves `old` give way to `new`; then come the leaf `next` and others, which stay. -/
structure Block (E : Type) where
  old : List (Leaf E)
  new : List (Leaf E)
  next : Leaf E
  kept : List (Leaf E)

/-- The leaves before and after the edits. -/
def leavesBefore (bs : List (Block E)) : List (Leaf E) := bs.flatMap fun b => b.old ++ b.next :: b.kept
def leavesAfter (bs : List (Block E)) : List (Leaf E) := bs.flatMap fun b => b.new ++ b.next :: b.kept
/-- The elements that stay, except those of the leaves right after the edits. -/
def keptElems (bs : List (Block E)) : List E := bs.flatMap fun b => leafElems b.kept
/-- The elements that the edit changes, and those of the next leaf. -/
def Block.elems (b : Block E) : List E := leafElems (b.old ++ b.new ++ [b.next])

/-- The leaves that are new, those right after the edits, and those that may see an edit. -/
def blockCost (L : Nat) (hash : E → Word) : List (Block E) → Nat
  | [] => 0
  | b :: bs => b.new.length + 1 + touched L hash b.elems [] (keptElems (b :: bs)) + blockCost L hash bs

omit [DecidableEq E] in
theorem views_len (ls : List (Leaf E)) (s : Stage E) : (leafViews L hash s ls).length = ls.length := by
  have := congrArg List.length (views_length (L := L) (hash := hash) ls s)
  simpa using this

omit [DecidableEq E] in
theorem views_three (a b c : List (Leaf E)) (s : Stage E) : leafViews L hash s (a ++ (b ++ c)) =
    leafViews L hash s a ++ (leafViews L hash (a.foldl Stage.leaf s) b ++ leafViews L hash (b.foldl Stage.leaf (a.foldl Stage.leaf s)) c) := by
  rw [leafViews_append, leafViews_append]

omit [DecidableEq E] in
theorem leafElems_append (C C' : List (Leaf E)) : leafElems (C ++ C') = leafElems C ++ leafElems C' := List.flatMap_append

omit [DecidableEq E] in
theorem Away.block {hs : List (List E × List E)} {s t : Stage E} (h : Away hs s t) {b : Block E} {n : Name} (hn : b.next.1 = some n) (hne : b.next.2.2 ≠ []) :
    Away ((b.elems, []) :: hs) ((b.old ++ [b.next]).foldl Stage.leaf s) ((b.new ++ [b.next]).foldl Stage.leaf t) := by
  obtain ⟨WA, eA, mA⟩ := leaves_new (b.old ++ [b.next]) s
  obtain ⟨WB, eB, mB⟩ := leaves_new (b.new ++ [b.next]) t
  have nm : ∀ (C : List (Leaf E)) (s : Stage E), ((C ++ [b.next]).foldl Stage.leaf s).name = n ∧ ((C ++ [b.next]).foldl Stage.leaf s).cntr = 0 := by
    intro C s
    rw [List.foldl_append, List.foldl_cons, List.foldl_nil]
    unfold Stage.leaf
    rw [hn]
    exact ⟨rfl, rfl⟩
  refine ⟨?_, (nm _ _).1.trans (nm _ _).1.symm, (nm _ _).2.trans (nm _ _).2.symm, ?_⟩
  · rw [eA, eB]
    refine .hole _ WA WB (fun z hz => ?_) h.before
    unfold Block.elems
    rcases hz with hz | hz
    · have := mA z hz
      simp only [leafElems_append, List.mem_append] at this ⊢
      rcases this with h | h
      · exact .inl (.inl h)
      · exact .inr h
    · have := mB z hz
      simp only [leafElems_append, List.mem_append] at this ⊢
      rcases this with h | h
      · exact .inl (.inr h)
      · exact .inr h
  · intro q hq
    rcases List.mem_cons.1 hq with rfl | hq
    · intro h0
      unfold Block.elems at h0
      rw [leafElems_append] at h0
      have h2 := (List.append_eq_nil_iff.1 h0).2
      simp only [leafElems, List.flatMap_cons, List.flatMap_nil, List.append_nil] at h2
      exact hne h2
    · exact h.full q hq

/-- The leaves after several edits that depend on something else. -/
theorem blocks_changed (LV : List (LeafView E)) (A B : List (Leaf E)) (bs : List (Block E)) : ∀ {hs : List (List E × List E)} {s t : Stage E}, Away hs s t →
    (∀ b ∈ bs, ∃ n, b.next.1 = some n) → (∀ l ∈ leavesBefore bs, l.2.2 ≠ []) → (∀ w ∈ leafViews L hash s (leavesBefore bs ++ A), w ∈ LV) →
    (leafViews L hash t (leavesAfter bs ++ B)).countP (fun w => decide (w ∉ LV)) ≤ touches L hash hs (keptElems bs) + blockCost L hash bs + B.length := by
  induction bs with
  | nil =>
    intro hs s t h _ _ _
    have := List.countP_le_length (p := fun w => decide (w ∉ LV)) (l := leafViews L hash t (leavesAfter [] ++ B))
    rw [views_len] at this
    have e : leavesAfter ([] : List (Block E)) ++ B = B := rfl
    rw [e] at this ⊢
    omega
  | cons b bs ih =>
    intro hs s t h hb hne hm
    obtain ⟨n, hn⟩ := hb b List.mem_cons_self
    have eb : leavesBefore (b :: bs) ++ A = (b.old ++ [b.next]) ++ (b.kept ++ (leavesBefore bs ++ A)) := by simp [leavesBefore]
    have ea : leavesAfter (b :: bs) ++ B = (b.new ++ [b.next]) ++ (b.kept ++ (leavesAfter bs ++ B)) := by simp [leavesAfter]
    have ek : keptElems (b :: bs) = leafElems b.kept ++ keptElems bs := rfl
    have hmem : ∀ l, l = b.next ∨ l ∈ b.kept ∨ l ∈ leavesBefore bs → l ∈ leavesBefore (b :: bs) := by
      intro l hl
      show l ∈ (b.old ++ b.next :: b.kept) ++ leavesBefore bs
      simp only [List.mem_append, List.mem_cons]
      tauto
    have h1 := h.block hn (hne _ (hmem _ (.inl rfl)))
    rw [eb, views_three] at hm
    obtain ⟨k1, k2⟩ := h1.kept LV b.kept (L := L) (hash := hash) (fun l hl => hne l (hmem l (.inr (.inl hl)))) (fun w hw => hm w (List.mem_append_right _ (List.mem_append_left _ hw)))
    have h3 := ih k2 (fun b' hb' => hb b' (List.mem_cons_of_mem _ hb')) (fun l hl => hne l (hmem l (.inr (.inr hl)))) (fun w hw => hm w (List.mem_append_right _ (List.mem_append_right _ hw)))
    rw [ea, views_three, List.countP_append, List.countP_append]
    have h4 := List.countP_le_length (p := fun w => decide (w ∉ LV)) (l := leafViews L hash t (b.new ++ [b.next]))
    rw [views_len, List.length_append, List.length_singleton] at h4
    have e1 : ∀ v : List E, touches L hash ((b.elems, []) :: hs) v = touched L hash b.elems [] v + touches L hash hs v := fun v => rfl
    have h5 := touches_append (L := L) (hash := hash) ((b.elems, []) :: hs) (leafElems b.kept) (keptElems bs)
    have h6 := e1 (keptElems (b :: bs))
    rw [← ek] at h5
    rw [blockCost]
    omega

/-- The mean of the leaves that are new, right after the edits, or may see an edit. -/
theorem blocks_mean [Fintype E] (hL : L ≤ 63) {r m : Nat} (bs : List (Block E)) (hr : ∀ y, (keptElems bs).count y ≤ r) (hm : (keptElems bs).toFinset.card ≤ m) :
    ∑ w : E → Fin (2 ^ 64), blockCost L (hashOf w) bs ≤ (2 ^ 64) ^ Fintype.card E *
      ((bs.map fun b => b.new.length + 1).sum + (bs.map fun b => b.elems.length).sum * (r * (Nat.clog 2 m + 2 + m / 2 ^ L))) := by
  induction bs with
  | nil => simp [blockCost]
  | cons b bs ih =>
    have ek : keptElems (b :: bs) = leafElems b.kept ++ keptElems bs := rfl
    have h1 := ih (fun y => by have := hr y; rw [ek, List.count_append] at this; omega)
      (Nat.le_trans (Finset.card_le_card fun y hy => by
        rw [List.mem_toFinset] at hy ⊢
        rw [ek]
        exact List.mem_append_right _ hy) hm)
    have h2 := touched_mean hL b.elems hr
    have h3 : b.elems.length * (r * (Nat.clog 2 (keptElems (b :: bs)).toFinset.card + 2 + (keptElems (b :: bs)).toFinset.card / 2 ^ L)) ≤
        b.elems.length * (r * (Nat.clog 2 m + 2 + m / 2 ^ L)) :=
      Nat.mul_le_mul_left _ (Nat.mul_le_mul_left _ (Nat.add_le_add (Nat.add_le_add_right (Nat.clog_mono_right 2 hm) 2) (Nat.div_le_div_right hm)))
    have h4 := Nat.le_trans h2 (Nat.mul_le_mul_left _ h3)
    simp only [blockCost, List.map_cons, List.sum_cons]
    rw [Finset.sum_add_distrib, Finset.sum_add_distrib, Finset.sum_const, Finset.card_univ, Fintype.card_fun, Fintype.card_fin, smul_eq_mul]
    generalize (2 ^ 64) ^ Fintype.card E = N at *
    generalize r * (Nat.clog 2 m + 2 + m / 2 ^ L) = R at *
    have e : N * (b.new.length + 1 + (bs.map fun b => b.new.length + 1).sum + (b.elems.length + (bs.map fun b => b.elems.length).sum) * R) =
        N * (b.new.length + 1) + N * (b.elems.length * R) + N * ((bs.map fun b => b.new.length + 1).sum + (bs.map fun b => b.elems.length).sum * R) := by ring
    rw [e]
    exact Nat.add_le_add (Nat.add_le_add_left h4 _) h1

end Iodyn.Incr.Uq
