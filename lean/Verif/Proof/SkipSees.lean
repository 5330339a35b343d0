import Verif.Spec.UniqueWork
import Verif.Proof.SkipCost
import Verif.Proof.IncrWork
/-
The searches and updates of `unique_elms` without memoisation, with what they depend on.
-/
namespace Iodyn.Incr.Uq
open Iodyn.Heap (Tr Cell Mem)
open Iodyn.Skip
variable {E M X : Type}

/-! ### Common bits -/

theorem common_below {L j : Nat} {k h w : Word} (hj : j < common L k h) : common L h w = j ↔ common L k w = j := by
  have hL := (le_common L k h).1
  have a := (((le_common L k h).2 (j + 1)).1 hj).2
  rw [common_eq (by omega), common_eq (by omega)]
  exact ⟨fun e => Diverge.of_agree a.symm e, fun e => Diverge.of_agree a e⟩

theorem common_next {L c : Nat} {k h w : Word} (hc : c < L) (e : common L k h = c) : common L h w = c ↔ c + 1 ≤ common L k w := by
  have d := (common_eq hc _ _).1 e
  rw [common_eq hc]
  constructor
  · intro d'
    exact ((le_common L k w).2 _).2 ⟨hc, d.symm.both d'⟩
  · intro h'
    have a := (((le_common L k w).2 _).1 h').2
    exact (Diverge.of_agree a d).symm

theorem common_full {L : Nat} {k h w : Word} (e : common L k h = L) : common L h w = common L k w :=
  common_congr ((((le_common L k h).2 L).1 (by omega)).2.symm) (fun _ _ => rfl)

/-! ### What an update sees -/

section
variable {L : Nat} {hash : E → Word}

theorem find_skip {A : Type} {p : A → Bool} {a b : List A} (h : ∀ w ∈ a, p w = false) : (a ++ b).find? p = b.find? p := by
  rw [List.find?_append, List.find?_eq_none.2 (fun w hw => by simp [h w hw])]
  rfl

theorem find_congr {A : Type} {p q : A → Bool} {l : List A} (h : ∀ w ∈ l, p w = q w) : l.find? p = l.find? q := by
  induction l with
  | nil => rfl
  | cons x l ih =>
    rw [List.find?_cons, List.find?_cons, h x List.mem_cons_self, ih fun w hw => h w (List.mem_cons_of_mem _ hw)]

theorem links_get (before : List (Loc × E)) (y : E) (j : Nat) :
    (sees L hash before y).links[j]? = if j < L then some ((before.find? fun w => decide (shares L hash y w = j)).map (·.1)) else none := by
  simp only [sees, List.getElem?_map]
  split
  · rename_i h; rw [List.getElem?_range h]; rfl
  · rename_i h; rw [List.getElem?_eq_none (by simp; omega)]; rfl

theorem links_length (before : List (Loc × E)) (y : E) : (sees L hash before y).links.length = L := by simp [sees]

theorem leads_get (before : List (Loc × E)) (y : E) {j : Nat} (hj : j ≤ L) :
    ((sees L hash before y).leads[j]?).join = (before.find? fun w => decide (j ≤ shares L hash y w)).map fun w => (w.1, shares L hash y w) := by
  simp only [sees, List.getElem?_map]
  rw [List.getElem?_range (by omega)]
  rfl

theorem shares_le (y : E) (w : Loc × E) : shares L hash y w ≤ L := (le_common _ _ _).1

/-- The latest update that shares at least `b` bits. -/
structure LeadAt (L : Nat) (hash : E → Word) (before : List (Loc × E)) (y : E) (b : Nat) (a : Loc) (x : E) (newer rest : List (Loc × E)) : Prop where
  split : before = newer ++ (a, x) :: rest
  less : ∀ w ∈ newer, shares L hash y w < b
  more : b ≤ shares L hash y (a, x)

theorem leadAt {before : List (Loc × E)} {y : E} {b : Nat} {a : Loc} {x : E} (h : before.find? (fun w => decide (b ≤ shares L hash y w)) = some (a, x)) :
    ∃ newer rest, LeadAt L hash before y b a x newer rest := by
  rw [List.find?_eq_some_iff_append] at h
  obtain ⟨h1, newer, rest, h2, h3⟩ := h
  refine ⟨newer, rest, h2, fun w hw => ?_, by simpa using h1⟩
  have := h3 w hw
  simp only [decide_eq_false_iff_not, Bool.not_eq_true', Nat.not_le] at this
  exact this

variable {before : List (Loc × E)} {y : E} {b : Nat} {a : Loc} {x : E} {newer rest : List (Loc × E)}

theorem LeadAt.link (h : LeadAt L hash before y b a x newer rest) {j : Nat} (hb : b ≤ j) (hj : j < shares L hash y (a, x)) :
    (sees L hash before y).links[j]? = (sees L hash rest x).links[j]? := by
  rw [links_get, links_get]
  have : before.find? (fun w => decide (shares L hash y w = j)) = rest.find? (fun w => decide (shares L hash x w = j)) := by
    rw [h.split, find_skip, List.find?_cons]
    · have : decide (shares L hash y (a, x) = j) = false := by simp; omega
      rw [this]
      refine find_congr fun w _ => ?_
      rw [decide_eq_decide]
      exact (common_below hj).symm
    · intro w hw
      have := h.less w hw
      simp; omega
  rw [this]

theorem LeadAt.here (h : LeadAt L hash before y b a x newer rest) (hc : shares L hash y (a, x) < L) :
    (sees L hash before y).links[shares L hash y (a, x)]? = some (some a) := by
  rw [links_get, if_pos hc, h.split, find_skip, List.find?_cons]
  · simp
  · intro w hw
    have := h.less w hw
    have := h.more
    simp; omega

theorem LeadAt.onward (h : LeadAt L hash before y b a x newer rest) (hc : shares L hash y (a, x) < L) :
    (sees L hash rest x).links[shares L hash y (a, x)]? = some (((sees L hash before y).leads[shares L hash y (a, x) + 1]?).join.map (·.1)) := by
  rw [links_get, if_pos hc, leads_get _ _ (by omega), h.split, find_skip, List.find?_cons]
  · have : decide (shares L hash y (a, x) + 1 ≤ shares L hash y (a, x)) = false := by simp
    rw [this]
    simp only [Option.map_map]
    congr 1
    rw [show (rest.find? fun w => decide (shares L hash x w = shares L hash y (a, x))) = rest.find? fun w => decide (shares L hash y (a, x) + 1 ≤ shares L hash y w) from ?_]
    · rfl
    · refine find_congr fun w _ => ?_
      rw [decide_eq_decide]
      exact common_next hc rfl
  · intro w hw
    have := h.less w hw
    have := h.more
    simp; omega

theorem LeadAt.same_full (h : LeadAt L hash before y b a x newer rest) (hc : shares L hash y (a, x) = L) :
    (sees L hash before y).same = x :: (sees L hash rest x).same := by
  have hb : b ≤ L := hc ▸ h.more
  simp only [sees]
  rw [h.split, List.filter_append, List.filter_cons, if_pos (by simpa using hc)]
  rw [List.filter_eq_nil_iff.2, List.nil_append, List.map_cons]
  · congr 2
    refine List.filter_congr fun w _ => ?_
    have : shares L hash x w = shares L hash y w := common_full hc
    rw [this]
  · intro w hw
    have := h.less w hw
    simp; omega

/-! ### One step of a search -/

theorem mask_eq (hL : 1 ≤ L) : makeMask L = .ok (maskLoop L 0#64) := by
  unfold makeMask; rw [if_pos (by omega)]

theorem masked_low (hL : L ≤ 63) (z : Word) : Masked L (lowBits L z) := by
  intro t ht
  unfold lowBits
  rw [BitVec.getLsbD_and, maskLoop_spec]
  simp; omega

theorem agree_low (hL : 1 ≤ L) (hL' : L ≤ 63) (z : Word) : Agree (lowBits L z) z L := agree_mask hL' (mask_eq hL) z

theorem common_low (hL : 1 ≤ L) (hL' : L ≤ 63) (u z : Word) : common L (lowBits L u) (lowBits L z) = common L u z :=
  common_congr (agree_low hL hL' u) (agree_low hL hL' z)

variable [DecidableEq E]

/-- What the function of the search shows of a cell. -/
theorem LeadAt.view (hL : 1 ≤ L) (hL' : L ≤ 63) (h : LeadAt L hash before y b a x newer rest) :
    skipView ⟨L, lowBits L (hash y), b⟩ a (cellOf L hash (sees L hash rest x) x) = .ok (
      if shares L hash y (a, x) = L then ⟨(sees L hash before y).links.drop b, none, some (kvsOf (sees L hash before y).same)⟩
      else
        let next := (((sees L hash before y).leads[shares L hash y (a, x) + 1]?).join).map (·.1)
        ⟨((sees L hash before y).links.drop b).take (shares L hash y (a, x) - b) ++ [some a] ++
          (if next.isSome then [] else List.replicate (L - shares L hash y (a, x) - 1) none), next, none⟩) := by
  have hcL : shares L hash y (a, x) ≤ L := shares_le _ _
  have hb : b ≤ L := Nat.le_trans h.more hcL
  have hlen : (sees L hash rest x).links.length = L := links_length _ _
  have s1 : shiftRight (lowBits L (hash y)) b = .ok (lowBits L (hash y) >>> b) := by simp [shiftRight]; omega
  have s2 : shiftRight (lowBits L (hash x)) b = .ok (lowBits L (hash x) >>> b) := by simp [shiftRight]; omega
  have hcom : common L (lowBits L (hash y)) (lowBits L (hash x)) = shares L hash y (a, x) := common_low hL hL' _ _
  have ag : Agree (lowBits L (hash y)) (lowBits L (hash x)) b := (((le_common L _ _).2 b).1 (hcom ▸ h.more)).2
  unfold skipView cellOf
  by_cases hc : shares L hash y (a, x) = L
  · rw [if_pos hc]
    have he : lowBits L (hash y) = lowBits L (hash x) :=
      eq_of_agree (((le_common L _ _).2 L).1 (by rw [hcom, hc])).2 (masked_low hL' _) (masked_low hL' _)
    have hcopy := copyLoop_spec (sees L hash rest x).links (L - b) b (by omega)
    have hlinks : (sees L hash before y).links = (sees L hash before y).links.take b ++ (sees L hash rest x).links.drop b := by
      refine List.ext_getElem? fun j => ?_
      rcases Nat.lt_or_ge j b with hj | hj
      · rw [List.getElem?_append_left (by simp [links_length]; omega), List.getElem?_take, if_pos hj]
      · have hl : ((sees L hash before y).links.take b).length = b := by simp [links_length]; omega
        rw [List.getElem?_append_right (by omega), hl, List.getElem?_drop, Nat.add_sub_cancel' hj]
        rcases Nat.lt_or_ge j L with hj' | hj'
        · exact h.link hj (by omega)
        · rw [List.getElem?_eq_none (by rw [links_length]; omega), List.getElem?_eq_none (by rw [links_length]; omega)]
    have hd : (sees L hash before y).links.drop b = (sees L hash rest x).links.drop b := by
      conv_lhs => rw [hlinks]
      exact List.drop_left' (by simp [links_length]; omega)
    rw [hd, h.same_full hc]
    simp only [buildPathStep, s1, he, hcopy, bind, Except.bind, pure, Except.pure, s2, if_true]
  · rw [if_neg hc]
    have hcL' : shares L hash y (a, x) < L := by omega
    have hdv : Diverge (lowBits L (hash y)) (lowBits L (hash x)) (shares L hash y (a, x)) := (common_eq hcL' _ _).1 hcom
    have hne : ¬ Agree (lowBits L (hash y)) (lowBits L (hash x)) (sees L hash rest x).links.length := by
      rw [hlen]; exact fun h' => hdv.2 (h' _ hcL')
    have hne2 : ¬ (lowBits L (hash x) >>> b = lowBits L (hash y) >>> b) := by
      rw [shift_eq_iff ag.symm]
      intro e
      rw [e] at hdv
      exact hdv.2 rfl
    obtain ⟨d, o, h1, h2, h3, h4, h5⟩ := matchLoop_spec (K := E) (V := Unit) a (sees L hash rest x).links (lowBits L (hash y)) (lowBits L (hash x)) (L - b) b []
      (by omega) ag hne
    have hd : d = shares L hash y (a, x) := by
      rw [← hcom]; exact ((common_eq (by omega) _ _).2 h3).symm
    subst hd
    rw [h.onward hcL'] at h4
    cases h4
    have htake : ((sees L hash before y).links.drop b).take (shares L hash y (a, x) - b) = ((sees L hash rest x).links.drop b).take (shares L hash y (a, x) - b) := by
      refine List.ext_getElem? fun j => ?_
      rw [List.getElem?_take, List.getElem?_take]
      split
      · rw [List.getElem?_drop, List.getElem?_drop]
        exact h.link (by omega) (by omega)
      · rfl
    simp only [buildPathStep, s1, s2, hne2, h5, bind, Except.bind, if_false, htake, hlen, List.nil_append]

/-! ### Searches -/

/-- The cells hold what the updates made. -/
def CellsOk (L : Nat) (hash : E → Word) (τ : Store (Path E Unit)) : List (Loc × E) → Prop
  | [] => True
  | (l, x) :: rest => τ.cells l = some (cellOf L hash (sees L hash rest x) x) ∧ CellsOk L hash τ rest

theorem CellsOk.at {τ : Store (Path E Unit)} : ∀ {newer : List (Loc × E)}, CellsOk L hash τ (newer ++ (a, x) :: rest) →
    τ.cells a = some (cellOf L hash (sees L hash rest x) x)
  | [], h => h.1
  | _ :: _, h => CellsOk.at h.2

variable {V K R A : Type} {callee : K → Store (Path E Unit) → Option (P (Rec V (Path E Unit) ObsParam (ObsRes E Unit) K R R))} {σ : Store V}

theorem thenT_nil (o : Option (P (Rec V (Path E Unit) ObsParam (ObsRes E Unit) K R A))) : thenT [] [] o = o := by
  rcases o with _ | _ | _ <;> rfl

theorem thenT_thenT (r1 r2 : List (Loc × V)) (f1 f2 : List (Fact (Path E Unit) ObsParam (ObsRes E Unit))) (o : Option (P (Rec V (Path E Unit) ObsParam (ObsRes E Unit) K R A))) :
    thenT r1 f1 (thenT r2 f2 o) = thenT (r1 ++ r2) (f1 ++ f2) o := by
  rcases o with _ | _ | _ <;> simp [thenT]

/-- What a search finds among the elements of its hash. -/
def bucketOf (l : List E) : Option (List (E × Option Unit)) := if l = [] then none else some (kvsOf l)

theorem texec_search (hL : 1 ≤ L) (hL' : L ≤ 63) {τ : Store (Path E Unit)} (ck : CellsOk L hash τ before)
    (k : List (Option Loc) × Option (List (E × Option Unit)) → OProg V (Path E Unit) ObsParam (ObsRes E Unit) K R A) :
    ∀ (fuel b : Nat) (a : Loc) (x : E) (cur : List (Option Loc)), cur.length = b → L - b < fuel →
      before.find? (fun w => decide (b ≤ shares L hash y w)) = some (a, x) →
      texec skipView callee σ (searchFrom L (lowBits L (hash y)) fuel a cur k) τ =
        thenT [] (lookFacts L (lowBits L (hash y)) (sees L hash before y) fuel b)
          (texec skipView callee σ (k (cur ++ (sees L hash before y).links.drop b, bucketOf (sees L hash before y).same)) τ) := by
  intro fuel
  induction fuel with
  | zero => intro b a x cur _ hf; omega
  | succ fuel ih =>
    intro b a x cur hcur hf hlead
    obtain ⟨newer, rest, h⟩ := leadAt hlead
    have hcL : shares L hash y (a, x) ≤ L := shares_le _ _
    have hb : b ≤ L := Nat.le_trans h.more hcL
    have hcell : τ.cells a = some (cellOf L hash (sees L hash rest x) x) := by rw [h.split] at ck; exact ck.at
    have hleads : ((sees L hash before y).leads[b]?).join = some (a, shares L hash y (a, x)) := by rw [leads_get _ _ hb, hlead]; rfl
    have hview := h.view hL hL'
    have hlk : (sees L hash before y).links.length = L := links_length _ _
    unfold searchFrom lookFacts
    simp only [texec, hcell, hcur, hview, hleads]
    by_cases hc : shares L hash y (a, x) = L
    · simp only [if_pos hc]
      have hne : (sees L hash before y).same ≠ [] := by rw [h.same_full hc]; simp
      have hass : decide ((cur ++ (sees L hash before y).links.drop b).length = L) = true := by simp [hcur, hlk]; omega
      simp only [bucketOf, if_neg hne, assertO, hass, if_true]
    · simp only [if_neg hc]
      have hcL' : shares L hash y (a, x) < L := by omega
      have hbc := h.more
      have hsplit : (sees L hash before y).links.drop b = ((sees L hash before y).links.drop b).take (shares L hash y (a, x) - b) ++ [some a] ++
          (sees L hash before y).links.drop (shares L hash y (a, x) + 1) := by
        have e1 := List.take_append_drop (shares L hash y (a, x) - b) ((sees L hash before y).links.drop b)
        rw [List.drop_drop, Nat.add_sub_cancel' hbc] at e1
        have e2 : (sees L hash before y).links.drop (shares L hash y (a, x)) = some a :: (sees L hash before y).links.drop (shares L hash y (a, x) + 1) := by
          rw [List.drop_eq_getElem_cons (by omega)]
          congr 1
          have := h.here hcL'
          rw [List.getElem?_eq_getElem (by omega)] at this
          exact Option.some.inj this
        rw [e2] at e1
        exact e1.symm.trans (by simp)
      have htl : (((sees L hash before y).links.drop b).take (shares L hash y (a, x) - b)).length = shares L hash y (a, x) - b := by simp [hlk]; omega
      cases hn : ((sees L hash before y).leads[shares L hash y (a, x) + 1]?).join with
      | none =>
        have hno : before.find? (fun w => decide (shares L hash y (a, x) + 1 ≤ shares L hash y w)) = none := by
          rw [leads_get _ _ (by omega)] at hn
          simpa using hn
        rw [List.find?_eq_none] at hno
        have hno : ∀ w ∈ before, shares L hash y w ≤ shares L hash y (a, x) := fun w hw => by
          have := hno w hw
          simp only [decide_eq_true_eq, Nat.not_le] at this
          omega
        have hdrop : (sees L hash before y).links.drop (shares L hash y (a, x) + 1) = List.replicate (L - shares L hash y (a, x) - 1) none := by
          refine List.ext_getElem? fun j => ?_
          rw [List.getElem?_drop, links_get, List.getElem?_replicate]
          by_cases hj : shares L hash y (a, x) + 1 + j < L
          · rw [if_pos hj, if_pos (by omega), List.find?_eq_none.2]
            · rfl
            · intro w hw
              have := hno w hw
              simp; omega
          · rw [if_neg hj, if_neg (by omega)]
        have hsame : (sees L hash before y).same = [] := by
          simp only [sees, List.map_eq_nil_iff, List.filter_eq_nil_iff, decide_eq_true_eq]
          intro w hw
          have := hno w hw
          omega
        have hfin : lookFacts L (lowBits L (hash y)) (sees L hash before y) fuel (shares L hash y (a, x) + 1) = [] := by
          cases fuel with
          | zero => rfl
          | succ f => unfold lookFacts; simp only [hn]
        have hass : decide ((cur ++ (((sees L hash before y).links.drop b).take (shares L hash y (a, x) - b) ++ [some a] ++
            List.replicate (L - shares L hash y (a, x) - 1) none)).length = L) = true := by
          simp only [List.length_append, htl, List.length_replicate, hcur, List.length_singleton, decide_eq_true_eq]; omega
        simp only [Option.map_none, Option.isSome_none, Bool.false_eq_true, if_false, assertO, hass, if_true, hfin]
        have e3 : cur ++ (sees L hash before y).links.drop b = cur ++ (((sees L hash before y).links.drop b).take (shares L hash y (a, x) - b) ++ [some a] ++
            List.replicate (L - shares L hash y (a, x) - 1) none) := by
          rw [← hdrop, ← hsplit]
        rw [hsame, e3]
        rfl
      | some q =>
        obtain ⟨a', c'⟩ := q
        have hq : ∃ x', before.find? (fun w => decide (shares L hash y (a, x) + 1 ≤ shares L hash y w)) = some (a', x') := by
          rw [leads_get _ _ (by omega)] at hn
          obtain ⟨w, hw1, hw2⟩ := Option.map_eq_some_iff.1 hn
          cases hw2
          exact ⟨w.2, hw1⟩
        obtain ⟨x', hx'⟩ := hq
        simp only [Option.map_some, Option.isSome_some, if_true, List.append_nil]
        rw [ih (shares L hash y (a, x) + 1) a' x' _ (by simp [hcur, hlk]; omega) (by omega) hx', thenT_thenT, List.append_assoc cur, ← hsplit]
        rfl

/-! ### Updates -/

theorem kvs_update (x : E) (l : List E) :
    (if l = [] then [(x, some ())] else
      if (Skip.updateLoop x (some ()) (kvsOf l) [] none false).2.2 then (Skip.updateLoop x (some ()) (kvsOf l) [] none false).1
      else (Skip.updateLoop x (some ()) (kvsOf l) [] none false).1 ++ [(x, some ())]) = kvsOf (x :: l) := by
  split
  · rename_i h; subst h; rfl
  · simp only [updateLoop_spec, kvsOf, List.nil_append, Bool.false_or]
    by_cases hx : x ∈ (kvsOf l).map (·.1)
    · have : (kvsOf l).any (fun q => decide (x = q.1)) = true := by
        obtain ⟨q, hq, rfl⟩ := List.mem_map.1 hx
        exact List.any_eq_true.2 ⟨q, hq, by simp⟩
      rw [if_pos hx, if_pos this]
    · have : (kvsOf l).any (fun q => decide (x = q.1)) = false := by
        rw [Bool.eq_false_iff]
        intro h
        obtain ⟨q, hq, h⟩ := List.any_eq_true.1 h
        exact hx (List.mem_map.2 ⟨q, hq, (of_decide_eq_true h).symm⟩)
      rw [if_neg hx, this]
      simp only [Bool.false_eq_true, if_false]
      congr 1
      conv_rhs => rw [← List.map_id (kvsOf l)]
      refine List.map_congr_left fun q hq => ?_
      rw [if_neg fun e => hx (List.mem_map.2 ⟨q, hq, e.symm⟩)]
      rfl

theorem texec_put (hL : 1 ≤ L) (hL' : L ≤ 63) (st : Stage E) {τ : Store (Path E Unit)} (hp : τ.path = []) (ck : CellsOk L hash τ st.before) (x : E)
    (k : Skiplist → OProg V (Path E Unit) ObsParam (ObsRes E Unit) K R A) :
    texec skipView callee σ (putProg hash (st.handle L) x k) τ =
      thenT [] (putFacts L hash (cellLoc st.name st.cntr) (sees L hash st.before x) x)
        (texec skipView callee σ (k ((st.put x).handle L)) (τ.set (cellLoc st.name st.cntr) (cellOf L hash (sees L hash st.before x) x))) := by
  unfold putProg extProg
  simp only [Stage.handle, mask_eq hL]
  have hlow : hash x &&& maskLoop L 0#64 = lowBits L (hash x) := rfl
  have hlk : (sees L hash st.before x).links.length = L := links_length _ _
  cases hb : st.before with
  | nil =>
    have e : (fillEmpty [] L : List (Option Loc)) = (sees L hash ([] : List (Loc × E)) x).links := by
      simp [fillEmpty, sees, List.map_const']
    have hf : lookFacts L (lowBits L (hash x)) (sees L hash ([] : List (Loc × E)) x) (L + 1) 0 = [] := by
      unfold lookFacts
      rw [leads_get _ _ (by omega)]
      rfl
    simp only [List.head?_nil, Option.map_none, texec, Store.cell, hp, hlow, e, putFacts, hf, List.nil_append, Stage.put, hb, List.head?_cons, Option.map_some]
    rfl
  | cons w bs =>
    simp only [List.head?_cons, Option.map_some]
    rw [hlow, texec_search hL hL' (before := st.before) ck _ (L + 1) 0 w.1 w.2 [] rfl (by omega) (by rw [hb, List.find?_cons]; simp), putFacts, ← hb]
    have hk := kvs_update x (sees L hash st.before x).same
    have e2 : ∀ (Y Z : Option (P (Rec V (Path E Unit) ObsParam (ObsRes E Unit) K R A))), Y = thenT [] [.made (cellLoc st.name st.cntr) (cellOf L hash (sees L hash st.before x) x)] Z →
        thenT [] (lookFacts L (lowBits L (hash x)) (sees L hash st.before x) (L + 1) 0) Y =
          thenT [] (lookFacts L (lowBits L (hash x)) (sees L hash st.before x) (L + 1) 0 ++ [.made (cellLoc st.name st.cntr) (cellOf L hash (sees L hash st.before x) x)]) Z := by
      intro Y Z h
      rw [h, thenT_thenT]; rfl
    refine e2 _ _ ?_
    have hfill : fillEmpty (sees L hash st.before x).links L = (sees L hash st.before x).links := by simp [fillEmpty, hlk]
    by_cases hs : (sees L hash st.before x).same = []
    · rw [if_pos hs] at hk
      simp only [bucketOf, if_pos hs, texec, Store.cell, hp, List.drop_zero, List.nil_append, hfill, Stage.put, List.head?_cons, Option.map_some, cellOf, ← hk]
      rfl
    · rw [if_neg hs] at hk
      simp only [bucketOf, if_neg hs, texec, Store.cell, hp, List.drop_zero, List.nil_append, hk, Stage.put, List.head?_cons, Option.map_some, cellOf]
      rfl
end

end Iodyn.Incr.Uq
