import Verif.Proof.SkipSame
import Verif.Proof.MovesJoin
import Verif.Proof.Skiplist
/-
The cells that searches in the skip list force.
-/
namespace Iodyn.Skip
variable {K V : Type}

/-! ### Common bits and leaders -/

theorem le_common (L : Nat) (x y : Word) : common L x y ≤ L ∧ ∀ j, j ≤ common L x y ↔ j ≤ L ∧ Agree x y j := by
  induction L with
  | zero =>
    refine ⟨Nat.le_refl _, fun j => ?_⟩
    constructor
    · intro h
      have : j = 0 := Nat.le_zero.1 h
      subst this
      exact ⟨Nat.le_refl _, fun t ht => absurd ht (Nat.not_lt_zero t)⟩
    · exact fun h => h.1
  | succ L ih =>
    have e : common (L + 1) x y = common L x y + if ∀ t, t < L + 1 → x.getLsbD t = y.getLsbD t then 1 else 0 := by
      unfold common
      rw [List.range_succ, List.countP_append, List.countP_singleton]
      simp only [decide_eq_true_eq]
    by_cases h : Agree x y (L + 1)
    · have := (ih.2 L).2 ⟨Nat.le_refl _, h.mono (Nat.le_succ L)⟩
      have e' : common (L + 1) x y = L + 1 := by rw [e, if_pos (show ∀ t, t < L + 1 → x.getLsbD t = y.getLsbD t from h)]; have := ih.1; omega
      rw [e']
      exact ⟨Nat.le_refl _, fun j => ⟨fun hj => ⟨hj, h.mono hj⟩, fun hj => hj.1⟩⟩
    · rw [e, if_neg (show ¬ ∀ t, t < L + 1 → x.getLsbD t = y.getLsbD t from h)]
      refine ⟨by have := ih.1; omega, fun j => ?_⟩
      rw [Nat.add_zero, ih.2 j]
      refine ⟨fun hj => ⟨by omega, hj.2⟩, fun hj => ⟨?_, hj.2⟩⟩
      rcases Nat.lt_or_ge L j with h1 | h1
      · exact absurd (hj.2.mono h1) h
      · exact h1

theorem common_eq {L j : Nat} (hj : j < L) (x y : Word) : common L x y = j ↔ Diverge x y j := by
  obtain ⟨h1, h2⟩ := le_common L x y
  constructor
  · intro h
    have a := (h2 j).1 (by omega)
    refine ⟨a.2, fun e => ?_⟩
    have := (h2 (j + 1)).2 ⟨hj, a.2.succ e⟩
    omega
  · intro h
    have a := (h2 j).2 ⟨by omega, h.1⟩
    rcases Nat.lt_or_ge j (common L x y) with b | b
    · exact absurd (((h2 (j + 1)).1 b).2 j (Nat.lt_succ_self j)) h.2
    · omega

theorem common_self (L : Nat) (x : Word) : common L x x = L :=
  Nat.le_antisymm (le_common L x x).1 (((le_common L x x).2 L).2 ⟨Nat.le_refl _, fun _ _ => rfl⟩)

theorem common_congr {L : Nat} {x x' y y' : Word} (hx : Agree x x' L) (hy : Agree y y' L) : common L x y = common L x' y' := by
  have key : ∀ j, j ≤ common L x y ↔ j ≤ common L x' y' := fun j => by
    rw [(le_common L x y).2, (le_common L x' y').2]
    refine and_congr_right fun hj => ⟨fun h => ?_, fun h => ?_⟩
    · exact ((hx.mono hj).symm.trans h).trans (hy.mono hj)
    · exact ((hx.mono hj).trans h).trans (hy.mono hj).symm
  exact Nat.le_antisymm ((key _).1 (Nat.le_refl _)) ((key _).2 (Nat.le_refl _))

theorem leaders_none : ∀ (b : Nat) (l : List Nat), (∀ x ∈ l, x < b) → leaders b l = 0
  | _, [], _ => rfl
  | b, x :: l, h => by
    rw [leaders, if_neg (by have := h x List.mem_cons_self; omega)]
    exact leaders_none b l fun y hy => h y (List.mem_cons_of_mem _ hy)

theorem leaders_drop {A : Type} (f : A → Nat) (q : A → Bool) (b : Nat) : ∀ (l : List A), (∀ x, q x = true → f x < b) →
    leaders b ((l.dropWhile q).map f) = leaders b (l.map f)
  | [], _ => rfl
  | x :: l, h => by
    rw [List.dropWhile_cons]
    split
    · rename_i hq
      rw [leaders_drop f q b l h, List.map_cons, leaders, if_neg (by have := h x hq; omega)]
    · rfl

theorem dropWhile_imp {A : Type} {p q : A → Bool} (h : ∀ x, q x = true → p x = true) : ∀ l : List A, (l.dropWhile q).dropWhile p = l.dropWhile p
  | [] => rfl
  | x :: l => by
    rw [List.dropWhile_cons]
    split
    · rename_i hq
      rw [dropWhile_imp h l, List.dropWhile_cons, if_pos (h x hq)]
    · rfl

/-! ### What the cells point to -/

section
variable (σ : Store (Path K V)) (H : Loc → List Word) (pl : Loc → Nat)

/-- An entry of a path vector is the cell of the latest of some updates. -/
def Linked (L : Nat) (t : List Word) : Option Loc → Prop
  | none => t = []
  | some b => pl b = L ∧ H b = t ∧ ∃ p, σ.cells b = some p

/-- The updates that differ from `h` in bit `j` for the first time start the list. -/
def fromBit (L : Nat) (h : Word) (j : Nat) (t : List Word) : List Word := t.dropWhile fun x => decide (common L h x ≠ j)

structure PastOk (a : Loc) (p : Path K V) : Prop where
  len : p.paths.length = pl a
  masked : Masked (pl a) p.hash
  links : ∃ t, H a = p.hash :: t ∧ ∀ j o, p.paths[j]? = some o → Linked σ H pl (pl a) (fromBit (pl a) p.hash j t) o

def PastInv : Prop := ∀ a p, σ.cells a = some p → PastOk σ H pl a p

variable {σ H pl}

theorem fromBit_skip {L j d : Nat} {key h : Word} (hd : d < L) (hj : j ≠ d) (dv : Diverge key h d) (t : List Word) : fromBit L key j (h :: t) = fromBit L key j t := by
  unfold fromBit
  rw [List.dropWhile_cons, if_pos]
  rw [decide_eq_true_eq, (common_eq hd _ _).2 dv]
  exact fun e => hj e.symm

theorem fromBit_same {L j d : Nat} {key h : Word} (hd : d < L) (hj : j < d) (dv : Diverge key h d) (t : List Word) : fromBit L key j t = fromBit L h j t := by
  unfold fromBit
  congr 1
  funext x
  have a : Agree key h (j + 1) := dv.1.mono hj
  rw [decide_eq_decide, not_iff_not, common_eq (by omega), common_eq (by omega)]
  exact ⟨fun e => Diverge.of_agree a e, fun e => Diverge.of_agree a.symm e⟩

theorem past_bit {L d : Nat} {key h x : Word} (hd : d < L) (dv : Diverge key h d) (hx : common L h x ≠ d) : common L key x < d + 1 := by
  rcases Nat.lt_or_ge (common L key x) (d + 1) with h1 | h1
  · exact h1
  · exfalso
    have a := (((le_common L key x).2 (d + 1)).1 h1).2
    refine hx ((common_eq hd _ _).2 ⟨dv.1.symm.trans (a.mono (Nat.le_succ d)), ?_⟩)
    rw [← a d (Nat.lt_succ_self d)]
    exact fun e => dv.2 e.symm

theorem fromBit_next {L j d : Nat} {key h : Word} (hd : d < L) (hj : d < j) (dv : Diverge key h d) (t : List Word) :
    fromBit L key j (fromBit L h d t) = fromBit L key j t := by
  refine dropWhile_imp (fun x hx => ?_) t
  rw [decide_eq_true_eq] at hx ⊢
  have := past_bit hd dv hx
  omega

/-- A search forces the cells of the leaders, and builds a path vector for a new cell. -/
theorem recC_cost (inv : PastInv σ H pl) {L : Nat} (hL : L ≤ 63) {key : Word} (mk : Masked L key) (fuel : Nat) {a : Loc} {p : Path K V} (ha : σ.cells a = some p)
    (hpl : pl a = L) (cur : List (Option Loc)) (hc : cur.length ≤ L) (hf : L - cur.length < fuel) (ag : Agree key p.hash cur.length) :
    ∃ v r, Costs (buildPathRecC σ L key fuel a cur) (cur ++ v, r) (leaders cur.length ((H a).map (common L key))) ∧ cur.length + v.length = L ∧
      ∀ t o, v[t]? = some o → Linked σ H pl L (fromBit L key (cur.length + t) (H a)) o := by
  induction fuel generalizing a p cur with
  | zero => omega
  | succ fuel ih =>
    have ok := inv a p ha
    have hlen : p.paths.length = L := ok.len.trans hpl
    have hmask : Masked L p.hash := hpl ▸ ok.masked
    obtain ⟨tl, htl, hlinks⟩ := ok.links
    rw [hpl] at hlinks
    have s1 : shiftRight key cur.length = .ok (key >>> cur.length) := by simp [shiftRight]; omega
    have s2 : shiftRight p.hash cur.length = .ok (p.hash >>> cur.length) := by simp [shiftRight]; omega
    have hforce : Costs (forceC σ a) p 1 := fun n => by simp [forceC, move, still, Store.force, ha, bind, StateT.bind, Except.bind]
    by_cases he : p.hash = key
    · have hcopy := copyLoop_spec p.paths (L - cur.length) cur.length (by omega)
      have hstep : buildPathStep a p L key cur.length = .ok ⟨p.paths.drop cur.length, none, some p.kvs⟩ := by
        simp [buildPathStep, s1, he, hcopy, bind, Except.bind, pure, Except.pure]
      have hlead : leaders cur.length ((H a).map (common L key)) = 1 := by
        rw [htl, List.map_cons, he, common_self, leaders, if_pos hc, leaders_none _ _ fun x hx => ?_]
        obtain ⟨y, -, rfl⟩ := List.mem_map.1 hx
        have := (le_common L key y).1
        omega
      refine ⟨p.paths.drop cur.length, some p.kvs, ?_, by simp; omega, ?_⟩
      · rw [hlead]
        unfold buildPathRecC
        have h2 : decide ((cur ++ p.paths.drop cur.length).length = L) = true := by simp; omega
        have : Costs (forceC σ a >>= fun path => (do
            let res ← still (buildPathStep a path L key cur.length)
            let cur := cur ++ res.paths
            match res.kvs with
            | some kvs => do
              still (assert (decide (cur.length = L)))
              return (cur, some kvs)
            | none =>
              match res.next with
              | some a => buildPathRecC σ L key fuel a cur
              | none => do
                still (assert (decide (cur.length = L)))
                return (cur, none) : Counting _)) (cur ++ p.paths.drop cur.length, some p.kvs) (1 + (0 + (0 + 0))) := by
          refine hforce.bind ((Costs.still hstep).bind ?_)
          dsimp only
          exact (Costs.still (a := ()) (by rw [h2]; rfl)).bind (Costs.pure _)
        exact this
      · intro t o ht
        rw [List.getElem?_drop] at ht
        have hlt : cur.length + t < L := by
          rw [← hlen]; exact (List.getElem?_eq_some_iff.1 ht).1
        have := hlinks _ _ ht
        rw [he] at this
        rw [htl, he]
        unfold fromBit at this ⊢
        rw [List.dropWhile_cons, if_pos]
        · exact this
        · rw [decide_eq_true_eq, common_self]; omega
    · have hne : ¬ Agree key p.hash p.paths.length := by
        rw [hlen]; exact fun h => he (eq_of_agree h mk hmask).symm
      have hne2 : ¬ (p.hash >>> cur.length = key >>> cur.length) := by
        rw [shift_eq_iff ag.symm]; exact he
      obtain ⟨d, o, h1, h2, h3, h4, h5⟩ := matchLoop_spec (K := K) (V := V) a p.paths key p.hash (L - cur.length)
        cur.length [] (by omega) ag hne
      have hdL : d < L := by omega
      have hstep : buildPathStep a p L key cur.length = .ok ⟨[] ++ (p.paths.drop cur.length).take (d - cur.length) ++ [some a] ++
          (if o.isSome then [] else List.replicate (p.paths.length - d - 1) none), o, none⟩ := by
        simp only [buildPathStep, s1, s2, hne2, h5, bind, Except.bind, if_false]
      have hlo := hlinks _ _ h4
      have pre : ∀ t o', ((p.paths.drop cur.length).take (d - cur.length))[t]? = some o' →
          Linked σ H pl L (fromBit L key (cur.length + t) (H a)) o' := by
        intro t o' ht
        rw [List.getElem?_take] at ht
        split at ht
        · rename_i htd
          rw [List.getElem?_drop] at ht
          have := hlinks _ _ ht
          rw [htl, fromBit_skip hdL (by omega) h3, fromBit_same hdL (by omega) h3]
          exact this
        · simp at ht
      have tl' : ((p.paths.drop cur.length).take (d - cur.length)).length = d - cur.length := by simp; omega
      have mid : Linked σ H pl L (fromBit L key d (H a)) (some a) := by
        refine ⟨hpl, ?_, p, ha⟩
        rw [htl]
        unfold fromBit
        rw [List.dropWhile_cons, if_neg]
        simp only [decide_eq_true_eq, (common_eq hdL _ _).2 h3]
        exact fun h => h rfl
      have hlead : leaders cur.length ((H a).map (common L key)) = 1 + leaders (d + 1) ((fromBit L p.hash d tl).map (common L key)) := by
        rw [htl, List.map_cons, (common_eq hdL _ _).2 h3, leaders, if_pos h1]
        unfold fromBit
        rw [leaders_drop _ _ _ _ fun x hx => past_bit hdL h3 (by simpa using hx)]
      cases o with
      | none =>
        have hnil : fromBit L p.hash d tl = [] := hlo
        rw [hlead, hnil]
        refine ⟨(p.paths.drop cur.length).take (d - cur.length) ++ [some a] ++
          List.replicate (p.paths.length - d - 1) none, none, ?_, by simp; omega, ?_⟩
        · have h6 : decide ((cur ++ ([] ++ (p.paths.drop cur.length).take (d - cur.length) ++ [some a] ++
            (if (none : Option Loc).isSome then [] else List.replicate (p.paths.length - d - 1) none))).length = L)
              = true := by simp; omega
          unfold buildPathRecC
          refine Costs.eq (hforce.bind ((Costs.still hstep).bind ?_)) (k := 1 + (0 + (0 + 0))) rfl
          dsimp only
          refine (Costs.still (a := ()) (by rw [h6]; rfl)).bind ?_
          simp only [List.nil_append, Option.isSome, Bool.false_eq_true, if_false]
          exact Costs.pure _
        · intro t o' ht
          by_cases c1 : t < d - cur.length
          · rw [List.append_assoc, List.getElem?_append_left (by omega)] at ht
            exact pre t o' ht
          · rw [List.append_assoc, List.getElem?_append_right (by omega), tl'] at ht
            by_cases c2 : t = d - cur.length
            · rw [c2, Nat.sub_self] at ht
              simp at ht
              rw [← ht, c2, Nat.add_sub_cancel' h1]; exact mid
            · rw [List.getElem?_append_right (by simp; omega)] at ht
              rw [List.getElem?_replicate] at ht
              split at ht
              · simp at ht; subst ht
                show fromBit L key _ (H a) = []
                rw [htl, fromBit_skip hdL (by omega) h3, ← fromBit_next hdL (by omega) h3, hnil]
                rfl
              · simp at ht
      | some b =>
        obtain ⟨hb1, hb2, p', hb3⟩ := hlo
        have okb := inv b p' hb3
        obtain ⟨tb, htb, -⟩ := okb.links
        have hcb : common L p.hash p'.hash = d := by
          have hh : fromBit L p.hash d tl = p'.hash :: tb := hb2.symm.trans htb
          unfold fromBit at hh
          have := List.head?_dropWhile_not (fun x => decide (common L p.hash x ≠ d)) tl
          rw [hh] at this
          simpa using this
        have agb : Agree key p'.hash (d+1) := Diverge.both h3.symm ((common_eq hdL _ _).1 hcb)
        have hl : (cur ++ ([] ++ (p.paths.drop cur.length).take (d - cur.length) ++ [some a] ++ (if (some b).isSome then [] else
            List.replicate (p.paths.length - d - 1) none))).length = d + 1 := by
          simp; omega
        obtain ⟨v, r, hv1, hv2, hv3⟩ := ih hb3 hb1 (cur ++ ([] ++ (p.paths.drop cur.length).take (d - cur.length) ++ [some a] ++
            (if (some b).isSome then [] else List.replicate (p.paths.length - d - 1) none))) (by omega) (by omega) (by rw [hl]; exact agb)
        rw [hl] at hv1 hv2 hv3
        rw [hb2] at hv1 hv3
        refine ⟨(p.paths.drop cur.length).take (d - cur.length) ++ [some a] ++ v, r, ?_, ?_, ?_⟩
        · rw [hlead]
          unfold buildPathRecC
          refine Costs.eq (hforce.bind ((Costs.still hstep).bind ?_)) (k := 1 + (0 + leaders (d + 1) ((fromBit L p.hash d tl).map (common L key)))) (by omega)
          dsimp only
          have e : cur ++ ((p.paths.drop cur.length).take (d - cur.length) ++ [some a] ++ v) = cur ++ ([] ++ (p.paths.drop cur.length).take (d - cur.length) ++ [some a] ++
            (if (some b).isSome then [] else List.replicate (p.paths.length - d - 1) none)) ++ v := by simp
          rw [e]
          exact hv1
        · simp at hv2 ⊢; omega
        · intro t o' ht
          by_cases c1 : t < d - cur.length
          · rw [List.append_assoc, List.getElem?_append_left (by omega)] at ht
            exact pre t o' ht
          · rw [List.append_assoc, List.getElem?_append_right (by omega), tl'] at ht
            by_cases c2 : t = d - cur.length
            · rw [c2, Nat.sub_self] at ht
              simp at ht
              rw [← ht, c2, Nat.add_sub_cancel' h1]; exact mid
            · rw [List.getElem?_append_right (by simp; omega)] at ht
              have := hv3 _ _ ht
              have e : d + 1 + (t - (d - cur.length) - [some a].length) = cur.length + t := by simp; omega
              rw [e, fromBit_next hdL (by omega) h3] at this
              rw [htl, fromBit_skip hdL (by omega) h3]
              exact this

/-- A new cell at an unused location. -/
theorem PastInv.add (inv : PastInv σ H pl) {l : Loc} (fresh : σ.cells l = none) {L : Nat} {key : Word} {t : List Word} {kvs : List (K × Option V)} {v : List (Option Loc)}
    (mk : Masked L key) (hv : v.length = L) (hl : ∀ j o, v[j]? = some o → Linked σ H pl L (fromBit L key j t) o) {σ' : Store (Path K V)}
    (hσ : σ'.cells = (σ.set l { hash := key, kvs := kvs, paths := v }).cells) :
    PastInv σ' (fun a => if a = l then key :: t else H a) (fun a => if a = l then L else pl a) := by
  have step : ∀ {L' t' o}, Linked σ H pl L' t' o → Linked σ' (fun a => if a = l then key :: t else H a) (fun a => if a = l then L else pl a) L' t' o := by
    intro L' t' o g
    cases o with
    | none => exact g
    | some b =>
      obtain ⟨g1, g2, p, g3⟩ := g
      have hb : b ≠ l := by rintro rfl; rw [fresh] at g3; cases g3
      refine ⟨by simp [hb, g1], by simp [hb, g2], p, ?_⟩
      rw [hσ]; simp [Store.set, hb, g3]
  intro a p ha
  rw [hσ] at ha
  simp only [Store.set] at ha
  by_cases e : a = l
  · subst e
    simp at ha
    subst ha
    refine ⟨by simp [hv], by simpa using mk, t, by simp, fun j o hj => ?_⟩
    simpa using step (hl j o hj)
  · rw [if_neg e] at ha
    have ok := inv a p ha
    obtain ⟨t', h1, h2⟩ := ok.links
    refine ⟨by simpa [e] using ok.len, by simpa [e] using ok.masked, t', by simpa [e] using h1, fun j o hj => ?_⟩
    simpa [e] using step (h2 j o hj)

end

/-- A handle with its updates. -/
def HandlePast (σ : Store (Path K V)) (H : Loc → List Word) (pl : Loc → Nat) (hash : K → Word) (s : Skiplist) (h : Past K) : Prop :=
  s.pathLen = h.1 ∧ 1 ≤ h.1 ∧ h.1 ≤ 63 ∧
    match s.head with
    | none => h.2 = []
    | some a => pl a = h.1 ∧ (∃ p, σ.cells a = some p) ∧ ∀ mask, makeMask h.1 = .ok mask → H a = h.2.map fun k => hash k &&& mask

section
variable {σ : Store (Path K V)} {H : Loc → List Word} {pl : Loc → Nat}

/-- The low bits of a masked hash. -/
theorem agree_mask {L : Nat} {mask : Word} (hL : L ≤ 63) (hm : makeMask L = .ok mask) (x : Word) : Agree (x &&& mask) x L := by
  intro t ht
  unfold makeMask at hm
  split at hm
  · cases hm
    rw [BitVec.getLsbD_and, maskLoop_spec]
    have : t < 64 := by omega
    simp [ht, this]
  · cases hm

theorem searchC_cost (inv : PastInv σ H pl) {hash : K → Word} {s : Skiplist} {h : Past K} (hs : HandlePast σ H pl hash s h) {mask : Word} (hm : makeMask h.1 = .ok mask) (k : K) :
    ∃ v r, Costs (s.searchC σ (hash k &&& mask)) (v, r) (h.cells hash k) ∧ (v.length = h.1 ∨ (v = [] ∧ r = none)) ∧
      ∀ t o, (fillEmpty v h.1)[t]? = some o → Linked σ H pl h.1 (fromBit h.1 (hash k &&& mask) t (h.2.map fun k => hash k &&& mask)) o := by
  obtain ⟨e1, e2, e3, e4⟩ := hs
  have mk : Masked h.1 (hash k &&& mask) := by
    obtain ⟨mask', hm', mk⟩ := masked_and e2 (hash k)
    rw [hm] at hm'
    cases hm'
    exact mk
  unfold Skiplist.searchC
  cases hh : s.head with
  | none =>
    rw [hh] at e4
    refine ⟨[], none, ?_, .inr ⟨rfl, rfl⟩, fun t o ht => ?_⟩
    · have : h.cells hash k = 0 := by
        have e4 : h.2 = [] := e4
        simp [Past.cells, e4, leaders]
      rw [this]
      exact Costs.pure _
    · have e4 : h.2 = [] := e4
      rw [e4]
      simp [fillEmpty, List.getElem?_replicate] at ht
      obtain ⟨_, rfl⟩ := ht
      rfl
  | some a =>
    rw [hh] at e4
    obtain ⟨f1, ⟨p, f2⟩, f3⟩ := e4
    obtain ⟨v, r, h1, h2, h3⟩ := recC_cost inv e3 mk (h.1 + 1) f2 f1 [] (by simp) (by simp) (fun _ h => absurd h (by simp))
    have hlen : v.length = h.1 := by simpa using h2
    refine ⟨v, r, ?_, .inl hlen, ?_⟩
    · have : h.cells hash k = leaders ([] : List (Option Loc)).length ((H a).map (common h.1 (hash k &&& mask))) := by
        rw [f3 mask hm, List.map_map]
        unfold Past.cells
        congr 1
        refine List.map_congr_left fun k' _ => ?_
        exact common_congr (agree_mask e3 hm _).symm (agree_mask e3 hm _).symm
      rw [this, e1]
      exact h1
    · have : fillEmpty v h.1 = v := by simp [fillEmpty, hlen]
      rw [this]
      intro t o ht
      have := h3 t o ht
      rw [f3 mask hm] at this
      simpa using this

variable [DecidableEq K]

theorem getC_cost (inv : PastInv σ H pl) {hash : K → Word} {s : Skiplist} {h : Past K} (hs : HandlePast σ H pl hash s h) (k : K) :
    ∃ o, Costs (s.getC hash σ k) o (h.cells hash k) := by
  obtain ⟨mask, hm, -⟩ := masked_and hs.2.1 (hash k)
  obtain ⟨v, r, h1, -, -⟩ := searchC_cost inv hs hm k
  refine ⟨r.elim none (Skiplist.findKey k), ?_⟩
  unfold Skiplist.getC
  refine Costs.eq ((Costs.still (a := mask) (by rw [hs.1]; exact hm)).bind (h1.bind ?_)) (k := 0 + (h.cells hash k + 0)) (by omega)
  cases r <;> exact Costs.pure _

theorem stored_eq (k : K) (opv : Option V) {L : Nat} {s : Skiplist} {v : List (Option Loc)} {r : Option (List (K × Option V))} (e1 : s.pathLen = L)
    (h2 : v.length = L ∨ (v = [] ∧ r = none)) :
    ∃ (kvs : List (K × Option V)) (old : Option (Option V)), (match r with
      | some kvs => (v, (if (updateLoop k opv kvs [] none false).2.2 then (updateLoop k opv kvs [] none false).1 else (updateLoop k opv kvs [] none false).1 ++ [(k, opv)]),
          (updateLoop k opv kvs [] none false).2.1)
      | none => (fillEmpty v s.pathLen, [(k, opv)], none) : List (Option Loc) × List (K × Option V) × Option (Option V)) = (fillEmpty v L, kvs, old) := by
  subst e1
  rcases r with _ | kvs
  · exact ⟨_, _, rfl⟩
  · rcases h2 with h2 | ⟨-, h2⟩
    · have : fillEmpty v s.pathLen = v := by simp [fillEmpty, h2]
      rw [this]
      exact ⟨_, _, rfl⟩
    · cases h2

theorem extC_cost (inv : PastInv σ H pl) (e : Engine) {hash : K → Word} {s : Skiplist} {h : Past K} (hs : HandlePast σ H pl hash s h) (k : K) (opv : Option V)
    (fresh : σ.cells (cellLoc e σ (.pair s.name (.usize s.cntr))) = none) :
    ∃ σ' s' o H' pl', Costs (s.extC e hash σ k opv) (σ', s', o) (h.cells hash k) ∧ PastInv σ' H' pl' ∧ HandlePast σ' H' pl' hash s' (h.update k) ∧
      ∀ s2 h2, HandlePast σ H pl hash s2 h2 → HandlePast σ' H' pl' hash s2 h2 := by
  obtain ⟨mask, hm, mk⟩ := masked_and hs.2.1 (hash k)
  obtain ⟨v, r, h1, h2, h3⟩ := searchC_cost inv hs hm k
  obtain ⟨e1, e2, e3, e4⟩ := hs
  obtain ⟨kvs, old, hk⟩ := stored_eq k opv (v := v) (r := r) e1 h2
  let p : Path K V := { hash := hash k &&& mask, kvs := kvs, paths := fillEmpty v h.1 }
  obtain ⟨c1, c2, c3⟩ := cell_spec e σ (.pair s.name (.usize s.cntr)) p
  have hlen : (fillEmpty v h.1).length = h.1 := by
    rcases h2 with h2 | ⟨rfl, -⟩
    · simp [fillEmpty, h2]
    · simp [fillEmpty]
  have inv' := inv.add fresh mk hlen h3 c2
  refine ⟨(σ.cell e (.pair s.name (.usize s.cntr)) p).1, { s with head := some (σ.cell e (.pair s.name (.usize s.cntr)) p).2, cntr := s.cntr + 1 }, old.getD none, _, _, ?_, inv', ?_, ?_⟩
  · unfold Skiplist.extC
    refine Costs.eq ((Costs.still (a := mask) (by rw [e1]; exact hm)).bind (h1.bind ?_)) (k := 0 + (h.cells hash k + 0)) (by omega)
    have e : ∀ (x : List (Option Loc) × List (K × Option V) × Option (Option V)), x = (fillEmpty v h.1, kvs, old) →
        Costs (let (cur, newKvs, old) := x
          let (σ, art) := σ.cell e (.pair s.name (.usize s.cntr)) { hash := hash k &&& mask, kvs := newKvs, paths := cur }
          (return (σ, { s with head := some art, cntr := s.cntr + 1 }, old.getD none) : Counting (Store (Path K V) × Skiplist × Option V)))
          ((σ.cell e (.pair s.name (.usize s.cntr)) p).1, { s with head := some (σ.cell e (.pair s.name (.usize s.cntr)) p).2, cntr := s.cntr + 1 }, old.getD none) 0 := by
      rintro x rfl
      exact Costs.pure _
    rcases r with _ | kvs
    · exact e _ hk
    · exact e _ hk
  · refine ⟨e1, e2, e3, ?_⟩
    show (if _ then _ else _) = _ ∧ _
    rw [c1]
    refine ⟨if_pos rfl, ⟨p, by rw [c2]; simp [Store.set]⟩, fun mask' hm' => ?_⟩
    have hm' : makeMask h.1 = .ok mask' := hm'
    rw [hm] at hm'
    cases hm'
    exact if_pos rfl
  · rintro s2 h2 ⟨a1, a2, a3, a4⟩
    refine ⟨a1, a2, a3, ?_⟩
    revert a4
    cases s2.head with
    | none => exact id
    | some b =>
      rintro ⟨b1, ⟨q, b2⟩, b3⟩
      have hb : b ≠ cellLoc e σ (.pair s.name (.usize s.cntr)) := by
        rintro rfl; rw [fresh] at b2; cases b2
      refine ⟨by simp [hb, b1], ⟨q, ?_⟩, by simpa [hb] using b3⟩
      rw [c2]; simp [Store.set, hb, b2]

/-! ### Histories -/

structure PoolPast (hash : K → Word) (σ : Store (Path K V)) (pool : List Skiplist) (hs : List (Past K)) : Prop where
  len : pool.length = hs.length
  maps : ∃ H pl, PastInv σ H pl ∧ ∀ (i : Nat) s h, pool[i]? = some s → hs[i]? = some h → HandlePast σ H pl hash s h

theorem PoolPast.lookup {hash : K → Word} {pool : List Skiplist} {hs : List (Past K)} (inv : PoolPast hash σ pool hs) {i : Nat} {s : Skiplist} (h : pool[i]? = some s) :
    ∃ h, hs[i]? = some h :=
  ⟨hs[i]'(by rw [← inv.len]; exact (List.getElem?_eq_some_iff.1 h).1), List.getElem?_eq_getElem _⟩

theorem PoolPast.ext {e : Engine} {hash : K → Word} {pool : List Skiplist} {hs : List (Past K)} (inv : PoolPast hash σ pool hs) {i : Nat} {s : Skiplist} {h : Past K}
    (hi : pool[i]? = some s) (hh : hs[i]? = some h) (k : K) (v : Option V) (fresh : σ.cells (cellLoc e σ (.pair s.name (.usize s.cntr))) = none) :
    ∃ σ' s' o, Costs (s.extC e hash σ k v) (σ', s', o) (h.cells hash k) ∧ PoolPast hash σ' (pool.set i s') (hs.set i (h.update k)) := by
  obtain ⟨H, pl, h1, h2⟩ := inv.maps
  obtain ⟨σ', s', o, H', pl', e1, e2, e3, e4⟩ := extC_cost h1 e (h2 i s h hi hh) k v fresh
  refine ⟨σ', s', o, e1, by simpa using inv.len, H', pl', e2, ?_⟩
  intro j s2 f2 hj hfj
  rcases getElem?_set' hj with ⟨rfl, rfl, _⟩ | ⟨hne, hj⟩
  · rcases getElem?_set' hfj with ⟨_, rfl, _⟩ | ⟨hne, _⟩
    · exact e3
    · exact absurd rfl hne
  · rcases getElem?_set' hfj with ⟨h, _, _⟩ | ⟨_, hfj⟩
    · exact absurd h hne
    · exact e4 _ _ (h2 j s2 f2 hj hfj)

theorem PoolPast.step {e : Engine} {hash : K → Word} {pool : List Skiplist} {hs : List (Past K)} {fs : List (FMap K V)} {c : Client} (inv : PoolPast hash σ pool hs)
    (pinv : PoolInv e hash σ pool fs c) (op : MapOp K V) (ok : c.allows e op) :
    ∃ σ' pool' out, Costs (mapStepC e hash σ pool op) (σ', pool', out) (cellsOf hash (sought hs op)) ∧ PoolPast hash σ' pool' (Past.step hs op) := by
  cases op with
  | emp l nm =>
    refine ⟨_, _, _, Costs.pure _, by simp [Past.step, inv.len], ?_⟩
    obtain ⟨H, pl, h1, h2⟩ := inv.maps
    refine ⟨H, pl, h1, fun j s f hj hf => ?_⟩
    rcases getElem?_snoc hj with ⟨rfl, rfl⟩ | ⟨hl, hj⟩ <;> rcases getElem?_snoc hf with ⟨hl', rfl⟩ | ⟨hl', hf⟩
    · exact ⟨rfl, ok.1, ok.2.1, rfl⟩
    · rw [inv.len] at hl'; omega
    · rw [inv.len] at hl; omega
    · exact h2 j s f hj hf
  | clone i =>
    obtain ⟨s0, f0, hi, -⟩ := pinv.lookup ok
    obtain ⟨h, hh⟩ := inv.lookup hi
    have e1 : Past.step hs (.clone i : MapOp K V) = hs ++ [h] := by simp [Past.step, hh]
    rw [e1]
    refine ⟨_, _, _, Costs.eq ((Costs.still (a := s0) (by rw [hi]; rfl)).bind (Costs.pure _)) rfl, by simp [inv.len], ?_⟩
    obtain ⟨H, pl, h1, h2⟩ := inv.maps
    refine ⟨H, pl, h1, fun j s f hj hf => ?_⟩
    rcases getElem?_snoc hj with ⟨rfl, rfl⟩ | ⟨hl, hj⟩ <;> rcases getElem?_snoc hf with ⟨hl', rfl⟩ | ⟨hl', hf⟩
    · exact h2 i _ _ hi hh
    · rw [inv.len] at hl'; omega
    · rw [inv.len] at hl; omega
    · exact h2 j s f hj hf
  | archive i nm =>
    obtain ⟨s0, f0, hi, -⟩ := pinv.lookup ok.1
    obtain ⟨h, hh⟩ := inv.lookup hi
    refine ⟨_, _, _, Costs.eq ((Costs.still (a := s0) (by rw [hi]; rfl)).bind (Costs.pure _)) rfl, by simp [Past.step, inv.len], ?_⟩
    obtain ⟨H, pl, h1, h2⟩ := inv.maps
    refine ⟨H, pl, h1, fun j s f hj hf => ?_⟩
    rcases getElem?_set' hj with ⟨rfl, rfl, _⟩ | ⟨hne, hj⟩
    · exact h2 i s0 _ hi hf
    · exact h2 j s f hj hf
  | ext i k v =>
    obtain ⟨s0, f0, hi, -⟩ := pinv.lookup ok.1
    obtain ⟨h, hh⟩ := inv.lookup hi
    obtain ⟨σ', s', o, h1, h2⟩ := inv.ext (e := e) hi hh k v (pinv.fresh hi ok.2)
    refine ⟨σ', pool.set i s', .val o, Costs.eq ((Costs.still (a := s0) (by rw [hi]; rfl)).bind (h1.bind (Costs.pure _))) ?_, ?_⟩
    · simp [sought, hh, cellsOf]
    · simpa [Past.step, hh] using h2
  | put i k v =>
    obtain ⟨s0, f0, hi, -⟩ := pinv.lookup ok.1
    obtain ⟨h, hh⟩ := inv.lookup hi
    obtain ⟨σ', s', o, h1, h2⟩ := inv.ext (e := e) hi hh k (some v) (pinv.fresh hi ok.2)
    refine ⟨σ', pool.set i s', .unit, Costs.eq ((Costs.still (a := s0) (by rw [hi]; rfl)).bind (Costs.bind (Costs.bind h1 (Costs.pure _)) (Costs.pure _))) ?_, ?_⟩
    · simp [sought, hh, cellsOf]
    · simpa [Past.step, hh] using h2
  | rem i k =>
    obtain ⟨s0, f0, hi, -⟩ := pinv.lookup ok.1
    obtain ⟨h, hh⟩ := inv.lookup hi
    obtain ⟨σ', s', o, h1, h2⟩ := inv.ext (e := e) hi hh k none (pinv.fresh hi ok.2)
    refine ⟨σ', pool.set i s', .val o, Costs.eq ((Costs.still (a := s0) (by rw [hi]; rfl)).bind (Costs.bind h1 (Costs.pure _))) ?_, ?_⟩
    · simp [sought, hh, cellsOf]
    · simpa [Past.step, hh] using h2
  | get i k =>
    obtain ⟨s0, f0, hi, -⟩ := pinv.lookup ok
    obtain ⟨h, hh⟩ := inv.lookup hi
    obtain ⟨H, pl, h1, h2⟩ := inv.maps
    obtain ⟨o, h3⟩ := getC_cost h1 (h2 i s0 h hi hh) k
    refine ⟨σ, pool, .val o, Costs.eq ((Costs.still (a := s0) (by rw [hi]; rfl)).bind (h3.bind (Costs.pure _))) ?_, inv⟩
    simp [sought, hh, cellsOf]

theorem runC_cost {e : Engine} {hash : K → Word} : ∀ (ops : List (MapOp K V)) {σ : Store (Path K V)} {pool : List Skiplist} {hs : List (Past K)} {fs : List (FMap K V)}
    {c : Client}, PoolPast hash σ pool hs → PoolInv e hash σ pool fs c → c.Good e ops →
    mapRunC e hash σ pool ops = .ok ((mapSpecRun fs ops).zip ((searches hs ops).map (cellsOf hash)))
  | [], _, _, _, _, _, _, _, _ => rfl
  | op :: ops, σ, pool, hs, fs, c, inv, pinv, ok => by
    obtain ⟨σ1, pool1, out, h1, h2⟩ := inv.step pinv op ok.1
    obtain ⟨σ', pool', h3, h4⟩ := pinv.step op ok.1
    have h5 := h1.same (step_same e hash σ pool op)
    rw [h3] at h5
    cases h5
    have ih := runC_cost ops h2 h4 ok.2
    simp only [mapRunC, h1 0, ih, bind, Except.bind, pure, Except.pure, mapSpecRun, searches, List.map_cons, List.zip_cons_cons, Nat.zero_add]

theorem PoolPast.init (hash : K → Word) : PoolPast hash (Store.empty : Store (Path K V)) [] [] := by
  refine ⟨rfl, fun _ => [], fun _ => 0, ?_, ?_⟩
  · intro a p h; simp [Store.empty] at h
  · intro i s f h; simp at h

end
end Iodyn.Skip
