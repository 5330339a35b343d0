import Verif.Spec.MapApi
import Verif.Proof.Basic
/-
Invariant of the skip list store and correctness of the search.
-/
namespace Iodyn.Skip
variable {K V : Type}

def Agree (h h' : Word) (j : Nat) : Prop := ∀ t < j, h.getLsbD t = h'.getLsbD t
def Diverge (h h' : Word) (j : Nat) : Prop := Agree h h' j ∧ h.getLsbD j ≠ h'.getLsbD j
def Masked (L : Nat) (h : Word) : Prop := ∀ t, L ≤ t → h.getLsbD t = false

theorem Agree.symm {h h' : Word} {j} (a : Agree h h' j) : Agree h' h j := fun t ht => (a t ht).symm
theorem Agree.trans {h h' h'' : Word} {j} (a : Agree h h' j) (b : Agree h' h'' j) : Agree h h'' j :=
  fun t ht => (a t ht).trans (b t ht)
theorem Agree.mono {h h' : Word} {i j} (a : Agree h h' j) (ij : i ≤ j) : Agree h h' i :=
  fun t ht => a t (Nat.lt_of_lt_of_le ht ij)
theorem Diverge.symm {h h' : Word} {j} (a : Diverge h h' j) : Diverge h' h j := ⟨a.1.symm, fun e => a.2 e.symm⟩

theorem Agree.succ {h h' : Word} {j} (a : Agree h h' j) (b : h.getLsbD j = h'.getLsbD j) : Agree h h' (j+1) := by
  intro t ht
  by_cases e : t = j
  · subst e; exact b
  · exact a t (by omega)

/-- Two hashes that diverge from a third at the same bit agree up to and including it. -/
theorem Diverge.both {h x y : Word} {j} (a : Diverge h x j) (b : Diverge h y j) : Agree x y (j+1) := by
  apply (a.1.symm.trans b.1).succ
  have h1 := a.2
  have h2 := b.2
  generalize h.getLsbD j = u at h1 h2
  generalize x.getLsbD j = v at h1 h2 ⊢
  generalize y.getLsbD j = w at h2 ⊢
  cases u <;> cases v <;> cases w <;> simp_all

/-- Follow an agreement up to and including bit `j`. -/
theorem Diverge.of_agree {k h x : Word} {j} (a : Agree k h (j+1)) (d : Diverge k x j) : Diverge h x j :=
  ⟨(a.mono (Nat.le_succ j)).symm.trans d.1, by rw [← a j (Nat.lt_succ_self j)]; exact d.2⟩

theorem eq_of_agree {L : Nat} {h h' : Word} (a : Agree h h' L) (m : Masked L h) (m' : Masked L h') : h = h' := by
  apply BitVec.eq_of_getLsbD_eq
  intro i _
  by_cases e : i < L
  · exact a i e
  · rw [m i (by omega), m' i (by omega)]

theorem bit_shift (x y : Word) (i : Nat) :
    (x >>> i) &&& 1#64 = (y >>> i) &&& 1#64 ↔ x.getLsbD i = y.getLsbD i := by
  constructor
  · intro h
    have := congrArg (fun w => w.getLsbD 0) h
    simpa using this
  · intro h
    apply BitVec.eq_of_getLsbD_eq
    intro t ht
    by_cases e : t = 0
    · subst e; simp [h]
    · simp [BitVec.getLsbD_one, e]

theorem shift_eq_iff {i : Nat} {x y : Word} (a : Agree x y i) : x >>> i = y >>> i ↔ x = y := by
  constructor
  · intro h
    apply BitVec.eq_of_getLsbD_eq
    intro t _
    by_cases e : t < i
    · exact a t e
    · have := congrArg (fun w => w.getLsbD (t - i)) h
      simp only [BitVec.getLsbD_ushiftRight] at this
      rwa [Nat.add_sub_cancel' (by omega)] at this
  · rintro rfl; rfl

theorem maskLoop_spec (n : Nat) (m : Word) (i : Nat) :
    (maskLoop n m).getLsbD i = (decide (i < 64) && (decide (i < n) || m.getLsbD (i - n))) := by
  induction n generalizing m with
  | zero => 
    simp [maskLoop]
    intro h; exact BitVec.lt_of_getLsbD h
  | succ n ih =>
    rw [maskLoop, ih]
    by_cases h : i < n
    · simp [h, Nat.lt_succ_of_lt h]
    · by_cases e : i = n
      · subst e; simp
      · have h1 : ¬ i < n + 1 := by omega
        have h2 : ¬ (i - n < 1) := by omega
        have h3 : i - n - 1 = i - (n+1) := by omega
        simp only [h, h1, BitVec.getLsbD_or, BitVec.getLsbD_shiftLeft, BitVec.getLsbD_one, h2, h3]
        have h4 : i - n ≠ 0 := by omega
        by_cases h5 : i < 64
        · have : i - n < 64 := by omega
          simp [h5, this, h4]
        · simp [h5]

theorem masked_and {L : Nat} (hL : 1 ≤ L) (x : Word) :
    ∃ m, makeMask L = .ok m ∧ Masked L (x &&& m) := by
  refine ⟨maskLoop L 0#64, by simp [makeMask]; omega, ?_⟩
  intro t ht
  rw [BitVec.getLsbD_and, maskLoop_spec]
  simp; intro _ _; exact ht

section
variable (σ : Store (Path K V)) (m : Loc → Word → Option (List (K × Option V))) (pl : Loc → Nat)

/-- Entry `j` of a path vector for hash `h` is right for the map `f`. -/
def GoodLink (L : Nat) (f : Word → Option (List (K × Option V))) (h : Word) (j : Nat) : Option Loc → Prop
  | none => ∀ x, Masked L x → Diverge h x j → f x = none
  | some b => pl b = L ∧ (∃ p, σ.cells b = some p ∧ Diverge h p.hash j) ∧
      ∀ x, Masked L x → Diverge h x j → f x = m b x

structure PathOk (a : Loc) (p : Path K V) : Prop where
  len : p.paths.length = pl a
  masked : Masked (pl a) p.hash
  here : m a p.hash = some p.kvs
  links : ∀ j o, p.paths[j]? = some o → GoodLink σ m pl (pl a) (m a) p.hash j o
  nodup : ∀ x kvs, m a x = some kvs → (kvs.map Prod.fst).Nodup

def LocInv : Prop := ∀ a p, σ.cells a = some p → PathOk σ m pl a p

variable {σ m pl}

theorem GoodLink.agree {L f} {k h : Word} {j} {o : Option Loc} (a : Agree k h (j+1))
    (g : GoodLink σ m pl L f h j o) : GoodLink σ m pl L f k j o := by
  cases o with
  | none => exact fun x mx d => g x mx (Diverge.of_agree a d)
  | some b =>
    obtain ⟨g1, ⟨p, g2, g3⟩, g4⟩ := g
    exact ⟨g1, ⟨p, g2, Diverge.of_agree a.symm g3⟩, fun x mx d => g4 x mx (Diverge.of_agree a d)⟩

theorem GoodLink.change {L} {f g : Word → Option (List (K × Option V))} {k : Word} {j i} {o : Option Loc} (ij : i ≤ j)
    (fg : ∀ x, Masked L x → Agree k x i → f x = g x)
    (l : GoodLink σ m pl L g k j o) : GoodLink σ m pl L f k j o := by
  cases o with
  | none => exact fun x mx d => (fg x mx (d.1.mono ij)).trans (l x mx d)
  | some b =>
    obtain ⟨g1, g2, g4⟩ := l
    exact ⟨g1, g2, fun x mx d => (fg x mx (d.1.mono ij)).trans (g4 x mx d)⟩

theorem copyLoop_spec (paths : List (Option Loc)) (n i : Nat) (h : i + n = paths.length) :
    copyLoop paths n i = .ok (paths.drop i) := by
  induction n generalizing i with
  | zero => simp [copyLoop, ← h]
  | succ n ih =>
    have hi : i < paths.length := by omega
    rw [copyLoop, ih (i+1) (by omega), List.getElem?_eq_getElem hi]
    rw [List.drop_eq_getElem_cons hi]
    rfl

theorem matchLoop_spec (art : Loc) (paths : List (Option Loc)) (key hsh : Word) (n i : Nat) (cur : List (Option Loc))
    (hn : i + n = paths.length) (a : Agree key hsh i) (ne : ¬ Agree key hsh paths.length) :
    ∃ d o, i ≤ d ∧ d < paths.length ∧ Diverge key hsh d ∧ paths[d]? = some o ∧
      matchLoop (K := K) (V := V) art paths n i (key >>> i) (hsh >>> i) cur = .ok
        { paths := cur ++ (paths.drop i).take (d - i) ++ [some art] ++
            (if o.isSome then [] else List.replicate (paths.length - d - 1) none),
          next := o, kvs := none } := by
  induction n generalizing i cur with
  | zero => exact absurd (a.mono (by omega)) ne
  | succ n ih =>
    have hi : i < paths.length := by omega
    rw [matchLoop, List.getElem?_eq_getElem hi]
    by_cases hb : key.getLsbD i = hsh.getLsbD i
    · obtain ⟨d, o, h1, h2, h3, h4, h5⟩ := ih (i+1) (cur ++ [paths[i]]) (by omega) (a.succ hb)
      refine ⟨d, o, by omega, h2, h3, h4, ?_⟩
      have e : (key >>> i) &&& 1#64 = (hsh >>> i) &&& 1#64 := (bit_shift _ _ _).2 hb
      simp only [unwrap, bind, Except.bind, e, if_true]
      rw [← BitVec.shiftRight_add, ← BitVec.shiftRight_add, h5]
      have : d - i = (d - (i+1)) + 1 := by omega
      rw [this, List.drop_eq_getElem_cons hi, List.take_succ_cons]
      simp
    · refine ⟨i, paths[i], Nat.le_refl _, hi, ⟨a, hb⟩, List.getElem?_eq_getElem hi, ?_⟩
      have e : ¬ (key >>> i) &&& 1#64 = (hsh >>> i) &&& 1#64 := fun e => hb ((bit_shift _ _ _).1 e)
      simp only [unwrap, bind, Except.bind, e, if_false]
      have hnn : paths.length - i - 1 = n := by omega
      cases paths[i] <;> simp [hnn, pure, Except.pure]

/-- The search finds what the map of its starting point says and builds a right path vector. -/
theorem rec_spec (inv : LocInv σ m pl) {L : Nat} (hL : L ≤ 63) {key : Word} (mk : Masked L key) (fuel : Nat)
    {a : Loc} {p : Path K V} (ha : σ.cells a = some p) (hpl : pl a = L) (cur : List (Option Loc))
    (hc : cur.length ≤ L) (hf : L - cur.length < fuel) (ag : Agree key p.hash cur.length) :
    ∃ v, buildPathRec σ L key fuel a cur = .ok (cur ++ v, m a key) ∧ cur.length + v.length = L ∧
      ∀ t o, v[t]? = some o → GoodLink σ m pl L (m a) key (cur.length + t) o := by
  induction fuel generalizing a p cur with
  | zero => omega
  | succ fuel ih =>
    have ok := inv a p ha
    have hlen : p.paths.length = L := ok.len.trans hpl
    have hmask : Masked L p.hash := hpl ▸ ok.masked
    have s1 : shiftRight key cur.length = .ok (key >>> cur.length) := by simp [shiftRight]; omega
    have s2 : shiftRight p.hash cur.length = .ok (p.hash >>> cur.length) := by simp [shiftRight]; omega
    by_cases he : p.hash = key
    · have hcopy := copyLoop_spec p.paths (L - cur.length) cur.length (by omega)
      refine ⟨p.paths.drop cur.length, ?_, by simp; omega, ?_⟩
      · have h1 : (decide ((cur ++ p.paths.drop cur.length).length = L)) = true := by simp; omega
        simp [buildPathRec, Store.force, ha, buildPathStep, s1, he, hcopy, bind, Except.bind, pure,
          Except.pure]
        have h2 : decide (cur.length + (p.paths.length - cur.length) = L) = true := by simp; omega
        rw [h2, ← he, ok.here]; rfl
      · intro t o ht
        rw [List.getElem?_drop] at ht
        have := ok.links _ _ ht
        rw [hpl, he] at this
        exact this
    · have hne : ¬ Agree key p.hash p.paths.length := by
        rw [hlen]; exact fun h => he (eq_of_agree h mk hmask).symm
      have hne2 : ¬ (p.hash >>> cur.length = key >>> cur.length) := by
        rw [shift_eq_iff ag.symm]; exact he
      obtain ⟨d, o, h1, h2, h3, h4, h5⟩ := matchLoop_spec (K := K) (V := V) a p.paths key p.hash (L - cur.length)
        cur.length [] (by omega) ag hne
      have hlo := ok.links _ _ h4
      rw [hpl] at hlo
      -- entries before the divergence
      have pre : ∀ t o', ((p.paths.drop cur.length).take (d - cur.length))[t]? = some o' →
          GoodLink σ m pl L (m a) key (cur.length + t) o' := by
        intro t o' ht
        rw [List.getElem?_take] at ht
        split at ht
        · rename_i htd
          rw [List.getElem?_drop] at ht
          have := ok.links _ _ ht
          rw [hpl] at this
          exact this.agree (h3.1.mono (by omega))
        · simp at ht
      have tl : ((p.paths.drop cur.length).take (d - cur.length)).length = d - cur.length := by simp; omega
      have mid : GoodLink σ m pl L (m a) key d (some a) := ⟨hpl, ⟨p, ha, h3⟩, fun _ _ _ => rfl⟩
      cases o with
      | none =>
        have hnone : ∀ x, Masked L x → Agree key x (d+1) → m a x = none := by
          intro x mx ax
          apply hlo x mx
          exact ⟨h3.1.symm.trans (ax.mono (Nat.le_succ d)), by
            rw [← ax d (Nat.lt_succ_self d)]; exact fun e => h3.2 e.symm⟩
        refine ⟨(p.paths.drop cur.length).take (d - cur.length) ++ [some a] ++
          List.replicate (p.paths.length - d - 1) none, ?_, by simp; omega, ?_⟩
        · have h0 := hnone key mk (fun _ _ => rfl)
          simp only [buildPathRec, Store.force, ha, buildPathStep, s1, s2, hne2, h5, bind, Except.bind, if_false]
          have h6 : decide ((cur ++ ([] ++ (p.paths.drop cur.length).take (d - cur.length) ++ [some a] ++
            (if (none : Option Loc).isSome then [] else List.replicate (p.paths.length - d - 1) none))).length = L)
              = true := by simp; omega
          rw [h6, h0]
          simp [assert, pure, Except.pure]
        · intro t o' ht
          by_cases c1 : t < d - cur.length
          · rw [List.append_assoc, List.getElem?_append_left (by omega)] at ht
            exact pre t o' ht
          · rw [List.append_assoc, List.getElem?_append_right (by omega), tl] at ht
            by_cases c2 : t = d - cur.length
            · rw [c2, Nat.sub_self] at ht
              simp at ht
              rw [← ht, c2, Nat.add_sub_cancel' h1]; exact mid
            · rw [List.getElem?_append_right (by simp; omega)] at ht
              rw [List.getElem?_replicate] at ht
              split at ht
              · simp at ht; subst ht
                intro x mx dx
                exact hnone x mx (dx.1.mono (by omega))
              · simp at ht
      | some b =>
        obtain ⟨hb1, ⟨p', hb2, hb3⟩, hb4⟩ := hlo
        have agb : Agree key p'.hash (d+1) := Diverge.both h3.symm hb3
        have feq : ∀ x, Masked L x → Agree key x (d+1) → m a x = m b x := by
          intro x mx ax
          apply hb4 x mx
          exact ⟨h3.1.symm.trans (ax.mono (Nat.le_succ d)), by
            rw [← ax d (Nat.lt_succ_self d)]; exact fun e => h3.2 e.symm⟩
        have hl : (cur ++ ((p.paths.drop cur.length).take (d - cur.length) ++ [some a])).length = d + 1 := by
          simp; omega
        obtain ⟨v, hv1, hv2, hv3⟩ := ih hb2 hb1 (cur ++ ((p.paths.drop cur.length).take (d - cur.length) ++ [some a]))
          (by omega) (by omega) (by rw [hl]; exact agb)
        refine ⟨(p.paths.drop cur.length).take (d - cur.length) ++ [some a] ++ v, ?_, ?_, ?_⟩
        · simp only [buildPathRec, Store.force, ha, buildPathStep, s1, s2, hne2, h5, bind, Except.bind, if_false]
          simp only [List.nil_append, Option.isSome, if_true, List.append_nil]
          rw [hv1, feq key mk (fun _ _ => rfl)]
          simp
        · simp at hv2 ⊢; omega
        · intro t o' ht
          by_cases c1 : t < d - cur.length
          · rw [List.append_assoc, List.getElem?_append_left (by omega)] at ht
            exact pre t o' ht
          · rw [List.append_assoc, List.getElem?_append_right (by omega), tl] at ht
            by_cases c2 : t = d - cur.length
            · rw [c2, Nat.sub_self] at ht
              simp at ht
              rw [← ht, c2, Nat.add_sub_cancel' h1]; exact mid
            · rw [List.getElem?_append_right (by simp; omega)] at ht
              have := hv3 _ _ ht
              rw [hl] at this
              have e : d + 1 + (t - (d - cur.length) - [some a].length) = cur.length + t := by simp; omega
              rw [e] at this
              exact this.change (i := d+1) (by omega) feq

/-- The search from a handle's head. `f` is the map of the head. -/
theorem search_spec (inv : LocInv σ m pl) {s : Skiplist} (hL : s.pathLen ≤ 63) {key : Word}
    (mk : Masked s.pathLen key) {f : Word → Option (List (K × Option V))}
    (hd : match s.head with
      | none => ∀ x, f x = none
      | some a => f = m a ∧ pl a = s.pathLen ∧ ∃ p, σ.cells a = some p) :
    ∃ v, s.search σ key = .ok (v, f key) ∧ (s.head = none → v = []) ∧ (s.head ≠ none → v.length = s.pathLen) ∧
      ∀ t o, v[t]? = some o → GoodLink σ m pl s.pathLen f key t o := by
  unfold Skiplist.search
  cases hs : s.head with
  | none => rw [hs] at hd; exact ⟨[], by simp [hd], by simp, by simp, by simp⟩
  | some a =>
    rw [hs] at hd
    obtain ⟨rfl, h2, p, h3⟩ := hd
    obtain ⟨v, h4, h5, h6⟩ := rec_spec inv hL mk (s.pathLen + 1) h3 h2 [] (by simp) (by simp)
      (fun _ h => absurd h (by simp))
    exact ⟨v, by simpa using h4, by simp, fun _ => by simpa using h5, by simpa using h6⟩

end

/-! ### Key-value lists -/

section
variable [DecidableEq K]

/-- The pairs after the loop of `ext`. -/
theorem updateLoop_spec (k : K) (opv : Option V) (kvs new : List (K × Option V)) (old : Option (Option V)) (found : Bool) :
    updateLoop k opv kvs new old found =
      (new ++ kvs.map (fun q => if k = q.1 then (q.1, opv) else q),
       (kvs.foldl (fun o q => if k = q.1 then some q.2 else o) old),
       found || kvs.any (fun q => decide (k = q.1))) := by
  induction kvs generalizing new old found with
  | nil => simp [updateLoop]
  | cons q rest ih =>
    obtain ⟨k0, v0⟩ := q
    rw [updateLoop]
    split <;> rename_i h
    · rw [ih]; simp [h]
    · rw [ih]; simp [h]

theorem findKey_of_not_mem {k : K} {kvs : List (K × Option V)} (h : k ∉ kvs.map Prod.fst) :
    Skiplist.findKey k kvs = none := by
  induction kvs with
  | nil => rfl
  | cons q rest ih =>
    obtain ⟨k0, v0⟩ := q
    simp at h
    rw [Skiplist.findKey, if_neg h.1]
    exact ih (by simpa using h.2)

theorem findKey_append_of_not_mem {k k' : K} {v : Option V} {kvs : List (K × Option V)} (h : k ∉ kvs.map Prod.fst) :
    Skiplist.findKey k' (kvs ++ [(k, v)]) = if k' = k then v else Skiplist.findKey k' kvs := by
  induction kvs with
  | nil => simp [Skiplist.findKey]
  | cons q rest ih =>
    obtain ⟨k0, v0⟩ := q
    simp at h
    simp only [List.cons_append, Skiplist.findKey, ih (by simpa using h.2)]
    by_cases e : k' = k0
    · subst e; simp [Ne.symm h.1]
    · simp [e]

theorem fold_old_not_mem {k : K} {kvs : List (K × Option V)} (h : k ∉ kvs.map Prod.fst) (o : Option (Option V)) :
    kvs.foldl (fun o q => if k = q.1 then some q.2 else o) o = o := by
  induction kvs generalizing o with
  | nil => rfl
  | cons q rest ih =>
    simp at h
    rw [List.foldl_cons, if_neg h.1]
    exact ih (by simpa using h.2) o

theorem fold_old {k : K} {kvs : List (K × Option V)} (h : (kvs.map Prod.fst).Nodup) :
    (kvs.foldl (fun o q => if k = q.1 then some q.2 else o) none).getD none = Skiplist.findKey k kvs := by
  induction kvs with
  | nil => rfl
  | cons q rest ih =>
    obtain ⟨k0, v0⟩ := q
    rw [List.map_cons, List.nodup_cons] at h
    rw [List.foldl_cons, Skiplist.findKey]
    by_cases e : k = k0
    · subst e
      simp only [if_true]
      rw [fold_old_not_mem h.1]; rfl
    · simp only [e, if_false]; exact ih h.2

theorem findKey_map {k k' : K} {v : Option V} {kvs : List (K × Option V)} (h : k ∈ kvs.map Prod.fst) :
    Skiplist.findKey k' (kvs.map (fun q => if k = q.1 then (q.1, v) else q)) =
      if k' = k then v else Skiplist.findKey k' kvs := by
  induction kvs with
  | nil => simp at h
  | cons q rest ih =>
    obtain ⟨k0, v0⟩ := q
    simp only [List.map_cons]
    by_cases e : k = k0
    · subst e
      simp only [if_true, Skiplist.findKey]
      by_cases e2 : k' = k
      · simp [e2]
      · simp only [e2, if_false]
        by_cases hm : k ∈ rest.map Prod.fst
        · rw [ih hm, if_neg e2]
        · congr 1
          have : rest.map (fun q => if k = q.1 then (q.1, v) else q) = rest.map id := by
            apply List.map_congr_left
            intro q hq
            have : k ≠ q.1 := fun e => hm (e ▸ List.mem_map_of_mem hq)
            simp [this]
          rw [this, List.map_id]
    · have hm : k ∈ rest.map Prod.fst := by simpa [e] using h
      simp only [e, if_false, Skiplist.findKey, ih hm]
      by_cases e2 : k' = k0
      · have : k' ≠ k := fun h => e (h.symm.trans e2)
        simp [e2, Ne.symm e]
      · simp [e2]

/-- The pairs stored by `ext`, given those found. -/
def newKvs (k : K) (opv : Option V) : Option (List (K × Option V)) → List (K × Option V)
  | none => [(k, opv)]
  | some kvs =>
    if k ∈ kvs.map Prod.fst then kvs.map (fun q => if k = q.1 then (q.1, opv) else q) else kvs ++ [(k, opv)]

/-- What a bucket says about a key. -/
def inBucket (k : K) : Option (List (K × Option V)) → Option V
  | none => none
  | some kvs => Skiplist.findKey k kvs

theorem inBucket_newKvs (k k' : K) (opv : Option V) (b : Option (List (K × Option V))) :
    inBucket k' (some (newKvs k opv b)) = if k' = k then opv else inBucket k' b := by
  cases b with
  | none => simp [newKvs, inBucket, Skiplist.findKey]
  | some kvs =>
    simp only [newKvs, inBucket]
    split <;> rename_i h
    · exact findKey_map h
    · exact findKey_append_of_not_mem h

theorem newKvs_nodup (k : K) (opv : Option V) (b : Option (List (K × Option V)))
    (h : ∀ kvs, b = some kvs → (kvs.map Prod.fst).Nodup) : ((newKvs k opv b).map Prod.fst).Nodup := by
  cases b with
  | none => simp [newKvs]
  | some kvs =>
    have := h kvs rfl
    simp only [newKvs]
    split <;> rename_i hm
    · rw [List.map_map]
      have : (Prod.fst ∘ fun q : K × Option V => if k = q.1 then (q.1, opv) else q) = Prod.fst := by
        funext q; simp; split <;> rfl
      rw [this]; assumption
    · rw [List.map_append, List.nodup_append]
      refine ⟨this, by simp, ?_⟩
      intro a ha b hb
      simp at hb; subst hb
      exact fun e => hm (e ▸ ha)

end

/-! ### The store invariant under `ext` -/

section
variable {σ : Store (Path K V)} {m : Loc → Word → Option (List (K × Option V))} {pl : Loc → Nat}

/-- Adding a right path at an unused location keeps the invariant. -/
theorem LocInv.add (inv : LocInv σ m pl) {l : Loc} (fresh : σ.cells l = none) {L : Nat}
    {f : Word → Option (List (K × Option V))} {key : Word} {kvs : List (K × Option V)} {v : List (Option Loc)}
    (mk : Masked L key) (hv : v.length = L) (hl : ∀ t o, v[t]? = some o → GoodLink σ m pl L f key t o)
    (nd : ∀ x b, f x = some b → (b.map Prod.fst).Nodup) (nd' : (kvs.map Prod.fst).Nodup)
    {σ' : Store (Path K V)} (hσ : σ'.cells = (σ.set l { hash := key, kvs := kvs, paths := v }).cells) :
    LocInv σ' (fun a => if a = l then (fun x => if x = key then some kvs else f x) else m a)
      (fun a => if a = l then L else pl a) := by
  have step : ∀ {L' f' h j o}, GoodLink σ m pl L' f' h j o →
      GoodLink σ' (fun a => if a = l then (fun x => if x = key then some kvs else f x) else m a)
        (fun a => if a = l then L else pl a) L' f' h j o := by
    intro L' f' h j o g
    cases o with
    | none => exact g
    | some b =>
      obtain ⟨g1, ⟨p, g2, g3⟩, g4⟩ := g
      have hb : b ≠ l := by rintro rfl; rw [fresh] at g2; cases g2
      refine ⟨by simp [hb, g1], ⟨p, ?_, g3⟩, by simpa [hb] using g4⟩
      rw [hσ]; simp [Store.set, hb, g2]
  intro a p ha
  rw [hσ] at ha
  simp only [Store.set] at ha
  by_cases e : a = l
  · subst e
    simp at ha
    subst ha
    constructor
    · simp [hv]
    · simpa using mk
    · simp
    · intro j o hj
      have := step (hl j o hj)
      simp only [if_true]
      cases o with
      | none =>
        intro x mx d
        have : x ≠ key := fun e => d.2 (by rw [e])
        simp only [this, if_false]
        exact hl j none hj x mx d
      | some b =>
        obtain ⟨g1, g2, g4⟩ := this
        refine ⟨g1, g2, ?_⟩
        intro x mx d
        have hx : x ≠ key := fun e => d.2 (by rw [e])
        simp only [hx, if_false]
        exact g4 x mx d
    · intro x b
      simp only [if_true]
      split
      · intro h; cases h; exact nd'
      · exact nd x b
  · rw [if_neg e] at ha
    have ok := inv a p ha
    constructor
    · simpa [e] using ok.len
    · simpa [e] using ok.masked
    · simpa [e] using ok.here
    · intro j o hj
      have := step (ok.links j o hj)
      simpa [e] using this
    · simpa [e] using ok.nodup

/-- The map seen from a head. -/
def HeadOk (σ : Store (Path K V)) (m : Loc → Word → Option (List (K × Option V))) (pl : Loc → Nat) (L : Nat)
    (g : Word → Option (List (K × Option V))) : Option Loc → Prop
  | none => ∀ x, g x = none
  | some a => g = m a ∧ pl a = L ∧ ∃ p, σ.cells a = some p

/-- A handle means the map `f`. -/
def HandleOk (σ : Store (Path K V)) (m : Loc → Word → Option (List (K × Option V))) (pl : Loc → Nat)
    [DecidableEq K] (hash : K → Word) (s : Skiplist) (f : FMap K V) : Prop :=
  1 ≤ s.pathLen ∧ s.pathLen ≤ 63 ∧ ∃ g, HeadOk σ m pl s.pathLen g s.head ∧
    ∀ k mask, makeMask s.pathLen = .ok mask → f k = inBucket k (g (hash k &&& mask))

end

/-- The location that `cell` will use. -/
def cellLoc (e : Engine) (σ : Store (Path K V)) (n : Name) : Loc :=
  match e with
  | .naive => .anon σ.next
  | .dcg => .named n σ.path

theorem cell_spec (e : Engine) (σ : Store (Path K V)) (n : Name) (v : Path K V) :
    (σ.cell e n v).2 = cellLoc e σ n ∧ (σ.cell e n v).1.cells = (σ.set (cellLoc e σ n) v).cells ∧
      (σ.cell e n v).1.next = if e = .naive then σ.next + 1 else σ.next := by
  cases e <;> exact ⟨rfl, rfl, rfl⟩

theorem cell_path (e : Engine) (σ : Store (Path K V)) (n : Name) (v : Path K V) : (σ.cell e n v).1.path = σ.path := by
  cases e <;> rfl

section
variable [DecidableEq K] {σ : Store (Path K V)} {m : Loc → Word → Option (List (K × Option V))} {pl : Loc → Nat}

omit [DecidableEq K] in
theorem HeadOk.nodup (inv : LocInv σ m pl) {L g h} (hd : HeadOk σ m pl L g h) :
    ∀ x b, g x = some b → (b.map Prod.fst).Nodup := by
  intro x b hb
  cases h with
  | none => rw [hd x] at hb; cases hb
  | some a =>
    obtain ⟨rfl, _, p, hp⟩ := hd
    exact (inv a p hp).nodup x b hb

theorem get_spec (inv : LocInv σ m pl) {hash : K → Word} {s : Skiplist} {f : FMap K V}
    (hs : HandleOk σ m pl hash s f) (k : K) : s.get hash σ k = .ok (f k) := by
  obtain ⟨h1, h2, g, h3, h4⟩ := hs
  obtain ⟨mask, hm, mk⟩ := masked_and h1 (hash k)
  obtain ⟨v, hv, _⟩ := search_spec inv h2 mk (f := g) (by
    revert h3; cases s.head <;> exact id)
  rw [h4 k mask hm]
  simp only [Skiplist.get, hm, hv, bind, Except.bind]
  cases g (hash k &&& mask) <;> rfl

theorem ext_spec (inv : LocInv σ m pl) (e : Engine) {hash : K → Word} {s : Skiplist} {f : FMap K V}
    (hs : HandleOk σ m pl hash s f) (k : K) (opv : Option V)
    (fresh : σ.cells (cellLoc e σ (.pair s.name (.usize s.cntr))) = none) :
    ∃ σ' m' pl' p, s.ext e hash σ k opv =
        .ok (σ', { s with head := some (cellLoc e σ (.pair s.name (.usize s.cntr))), cntr := s.cntr + 1 }, f k) ∧
      LocInv σ' m' pl' ∧
      σ'.cells = (σ.set (cellLoc e σ (.pair s.name (.usize s.cntr))) p).cells ∧
      σ'.next = (if e = .naive then σ.next + 1 else σ.next) ∧
      HandleOk σ' m' pl' hash
        { s with head := some (cellLoc e σ (.pair s.name (.usize s.cntr))), cntr := s.cntr + 1 } (f.update k opv) ∧
      (∀ s2 f2, HandleOk σ m pl hash s2 f2 → HandleOk σ' m' pl' hash s2 f2) ∧ σ'.path = σ.path := by
  obtain ⟨h1, h2, g, h3, h4⟩ := hs
  obtain ⟨mask, hm, mk⟩ := masked_and h1 (hash k)
  obtain ⟨v, hv, hv0, hv1, hvl⟩ := search_spec inv h2 mk (f := g) (by
    revert h3; cases s.head <;> exact id)
  have gnd := h3.nodup inv
  -- the path vector that is stored
  obtain ⟨w, hw, hwl, hwcase⟩ : ∃ w : List (Option Loc), w.length = s.pathLen ∧
      (∀ t o, w[t]? = some o → GoodLink σ m pl s.pathLen g (hash k &&& mask) t o) ∧
      w = (match g (hash k &&& mask) with | none => fillEmpty v s.pathLen | some _ => v) := by
    cases hh : s.head with
    | none =>
      rw [hh] at h3
      have : v = [] := hv0 hh
      subst this
      rw [h3]
      refine ⟨_, by simp [fillEmpty], ?_, rfl⟩
      intro t o ht
      simp [fillEmpty, List.getElem?_replicate] at ht
      obtain ⟨_, rfl⟩ := ht
      exact fun x _ _ => h3 x
    | some a =>
      have hl : v.length = s.pathLen := hv1 (by simp [hh])
      have : fillEmpty v s.pathLen = v := by simp [fillEmpty, hl]
      refine ⟨v, hl, hvl, ?_⟩
      cases g (hash k &&& mask) <;> simp [this]
  let p : Path K V := { hash := hash k &&& mask, kvs := newKvs k opv (g (hash k &&& mask)), paths := w }
  let l := cellLoc e σ (.pair s.name (.usize s.cntr))
  obtain ⟨c1, c2, c3⟩ := cell_spec e σ (.pair s.name (.usize s.cntr)) p
  have inv' := inv.add fresh mk hw hwl gnd (newKvs_nodup k opv _ (fun kvs h => gnd _ _ h)) c2
  refine ⟨_, _, _, p, ?_, inv', c2, c3, ?_, ?_, cell_path e σ _ p⟩
  · rw [← c1, h4 k mask hm]
    simp only [Skiplist.ext, hm, hv, bind, Except.bind, pure, Except.pure]
    have hp : p = { hash := hash k &&& mask, kvs := newKvs k opv (g (hash k &&& mask)), paths := w } := rfl
    revert hp
    generalize p = p
    cases hg : g (hash k &&& mask) with
    | none =>
      rw [hg] at hwcase
      rintro rfl
      simp [hwcase, newKvs, inBucket]
    | some kvs =>
      rw [hg] at hwcase
      simp only at hwcase
      subst hwcase
      rintro rfl
      simp only [updateLoop_spec, List.nil_append, Bool.false_or, newKvs, inBucket]
      rw [fold_old (gnd _ _ hg)]
      have : kvs.any (fun q => decide (k = q.1)) = decide (k ∈ kvs.map Prod.fst) := by
        rw [Bool.eq_iff_iff, List.any_eq_true, decide_eq_true_iff, List.mem_map]
        constructor
        · rintro ⟨q, h, h'⟩; exact ⟨q, h, (of_decide_eq_true h').symm⟩
        · rintro ⟨q, h, h'⟩; exact ⟨q, h, decide_eq_true h'.symm⟩
      rw [this]
      by_cases hk : k ∈ kvs.map Prod.fst
      · simp only [hk, decide_true, if_true]
      · have e2 : kvs.map (fun q => if k = q.1 then (q.1, opv) else q) = kvs := by
          have : kvs.map (fun q => if k = q.1 then (q.1, opv) else q) = kvs.map id := by
            apply List.map_congr_left
            intro q hq
            have : k ≠ q.1 := fun e => hk (e ▸ List.mem_map_of_mem hq)
            simp [this]
          rw [this, List.map_id]
        simp only [hk, decide_false, if_false, e2]
        rfl
  · refine ⟨h1, h2, fun x => if x = hash k &&& mask then some (newKvs k opv (g (hash k &&& mask))) else g x,
      ⟨by simp, by simp, p, ?_⟩, ?_⟩
    · rw [c2]; simp [Store.set]
    · intro k' mask' hm'
      have : mask' = mask := by
        have h := hm.symm.trans hm'
        cases h; rfl
      subst this
      by_cases ek : hash k' &&& mask' = hash k &&& mask'
      · simp only [ek, if_true]
        rw [inBucket_newKvs, FMap.update]
        split
        · rfl
        · rw [h4 k' mask' hm, ek]
      · simp only [ek, if_false, FMap.update]
        have : k' ≠ k := fun h => ek (by rw [h])
        rw [if_neg this, h4 k' mask' hm]
  · intro s2 f2 hs2
    obtain ⟨a1, a2, g2, a3, a4⟩ := hs2
    refine ⟨a1, a2, g2, ?_, a4⟩
    revert a3
    cases s2.head with
    | none => exact id
    | some b =>
      rintro ⟨b1, b2, q, b3⟩
      have hb : b ≠ cellLoc e σ (.pair s.name (.usize s.cntr)) := by
        rintro rfl; rw [fresh] at b3; cases b3
      refine ⟨by simp [hb, b1], by simp [hb, b2], q, ?_⟩
      rw [c2]; simp [Store.set, hb, b3]

/-! ### Pools of handles -/

theorem _root_.Iodyn.Store.of_set {W : Type} {s : Store W} {l l' : Loc} {v : W}
    (h : (s.set l v).cells l' ≠ none) : l' = l ∨ s.cells l' ≠ none := by
  unfold Store.set at h
  by_cases e : l' = l
  · exact .inl e
  · right; simpa [e] using h

/-- Names in use, see `Client`. -/
def NamesOk (e : Engine) (σ : Store (Path K V)) (pool : List Skiplist) (c : Client) : Prop :=
  match e with
  | .naive => ∀ k, σ.cells (.anon k) ≠ none → k < σ.next
  | .dcg =>
    (∀ n, σ.cells (.named n σ.path) ≠ none → ∃ nm q, n = .pair nm (.usize q) ∧ nm ∈ c.used ∧
      ∀ (i : Nat) (s : Skiplist), pool[i]? = some s → c.owner[i]? = some true → s.name = nm → q < s.cntr) ∧
    (∀ (i : Nat) (s : Skiplist), pool[i]? = some s → c.owner[i]? = some true → s.name ∈ c.used) ∧
    (∀ (i j : Nat) (s s' : Skiplist), pool[i]? = some s → pool[j]? = some s' → c.owner[i]? = some true → c.owner[j]? = some true →
      s.name = s'.name → i = j)

structure PoolInv (e : Engine) (hash : K → Word) (σ : Store (Path K V)) (pool : List Skiplist)
    (fs : List (FMap K V)) (c : Client) : Prop where
  len : pool.length = fs.length
  own : c.owner.length = pool.length
  maps : ∃ m pl, LocInv σ m pl ∧ ∀ (i : Nat) s f, pool[i]? = some s → fs[i]? = some f → HandleOk σ m pl hash s f
  names : NamesOk e σ pool c

theorem PoolInv.lookup {e : Engine} {hash : K → Word} {pool : List Skiplist} {fs : List (FMap K V)} {c : Client}
    (inv : PoolInv e hash σ pool fs c) {i : Nat} (hi : i < c.owner.length) :
    ∃ s f, pool[i]? = some s ∧ fs[i]? = some f :=
  ⟨pool[i]'(by rw [← inv.own]; exact hi), fs[i]'(by rw [← inv.len, ← inv.own]; exact hi),
    List.getElem?_eq_getElem _, List.getElem?_eq_getElem _⟩

theorem PoolInv.fresh {e : Engine} {hash : K → Word} {pool : List Skiplist} {fs : List (FMap K V)} {c : Client}
    (inv : PoolInv e hash σ pool fs c) {i : Nat} {s : Skiplist} (hs : pool[i]? = some s)
    (ho : e = .dcg → c.owner[i]? = some true) : σ.cells (cellLoc e σ (.pair s.name (.usize s.cntr))) = none := by
  have hn := inv.names
  cases e with
  | naive =>
    by_contra h
    exact absurd (hn _ h) (Nat.lt_irrefl _)
  | dcg =>
    by_contra h
    obtain ⟨nm, q, h1, _, h3⟩ := hn.1 _ h
    cases h1
    exact absurd (h3 i s hs (ho rfl) rfl) (Nat.lt_irrefl _)

theorem getElem?_set' {α : Type} {l : List α} {i j : Nat} {a b : α} (h : (l.set i a)[j]? = some b) :
    (i = j ∧ b = a ∧ j < l.length) ∨ (i ≠ j ∧ l[j]? = some b) := by
  rw [List.getElem?_set] at h
  split at h
  · split at h
    · left; simp at h; subst h; rename_i h1 h2; exact ⟨h1, rfl, h1 ▸ h2⟩
    · simp at h
  · right; exact ⟨by assumption, h⟩

theorem getElem?_snoc {α : Type} {l : List α} {j : Nat} {a b : α} (h : (l ++ [a])[j]? = some b) :
    (j = l.length ∧ b = a) ∨ (j < l.length ∧ l[j]? = some b) := by
  rw [List.getElem?_append] at h
  split at h
  · right; exact ⟨by assumption, h⟩
  · left
    rename_i hj
    have : j - l.length = 0 := by
      by_contra h0
      rw [List.getElem?_eq_none (by simp; omega)] at h
      cases h
    rw [this] at h; simp at h
    exact ⟨by omega, h.symm⟩

theorem PoolInv.ext {e : Engine} {hash : K → Word} {pool : List Skiplist} {fs : List (FMap K V)} {c : Client}
    (inv : PoolInv e hash σ pool fs c) {i : Nat} {s : Skiplist} {f : FMap K V} (hs : pool[i]? = some s)
    (hf : fs[i]? = some f) (ho : e = .dcg → c.owner[i]? = some true) (k : K) (v : Option V) :
    ∃ σ' s', s.ext e hash σ k v = .ok (σ', s', f k) ∧
      PoolInv e hash σ' (pool.set i s') (fs.set i (f.update k v)) c := by
  obtain ⟨m, pl, h1, h2⟩ := inv.maps
  obtain ⟨σ', m', pl', p, e1, e2, e3, e4, e5, e6, e7⟩ := ext_spec h1 e (h2 i s f hs hf) k v (inv.fresh hs ho)
  refine ⟨σ', _, e1, ?_⟩
  refine ⟨by simpa using inv.len, by simpa using inv.own, ⟨m', pl', e2, ?_⟩, ?_⟩
  · intro j s2 f2 hj hfj
    rcases getElem?_set' hj with ⟨rfl, rfl, _⟩ | ⟨hne, hj⟩
    · rcases getElem?_set' hfj with ⟨_, rfl, _⟩ | ⟨hne, _⟩
      · exact e5
      · exact absurd rfl hne
    · rcases getElem?_set' hfj with ⟨h, _, _⟩ | ⟨_, hfj⟩
      · exact absurd h hne
      · exact e6 _ _ (h2 j s2 f2 hj hfj)
  · have hn := inv.names
    cases e with
    | naive =>
      intro q hq
      rw [e3] at hq
      simp only [e4, if_true]
      rcases Store.of_set hq with h | hq
      · cases h; omega
      · exact Nat.lt_succ_of_lt (hn q hq)
    | dcg =>
      obtain ⟨n1, n2, n3⟩ := hn
      refine ⟨?_, ?_, ?_⟩
      · intro n hq
        rw [e3, e7] at hq
        rcases Store.of_set hq with h | hq
        · cases h
          refine ⟨s.name, s.cntr, rfl, n2 i s hs (ho rfl), ?_⟩
          intro j s2 hj oj hname
          rcases getElem?_set' hj with ⟨rfl, rfl, _⟩ | ⟨hne, hj⟩
          · simp
          · exact absurd (n3 i j s s2 hs hj (ho rfl) oj hname.symm) hne
        · obtain ⟨nm, q, a1, a2, a3⟩ := n1 n hq
          refine ⟨nm, q, a1, a2, ?_⟩
          intro j s2 hj oj hname
          rcases getElem?_set' hj with ⟨rfl, rfl, _⟩ | ⟨hne, hj⟩
          · have := a3 i s hs (ho rfl) hname
            simp; omega
          · exact a3 j s2 hj oj hname
      · intro j s2 hj oj
        rcases getElem?_set' hj with ⟨rfl, rfl, _⟩ | ⟨hne, hj⟩
        · exact n2 i s hs (ho rfl)
        · exact n2 j s2 hj oj
      · intro j j' s2 s3 hj hj' oj oj' hname
        rcases getElem?_set' hj with ⟨rfl, rfl, _⟩ | ⟨hne, hj⟩ <;>
          rcases getElem?_set' hj' with ⟨rfl, rfl, _⟩ | ⟨hne', hj'⟩
        · rfl
        · exact n3 _ _ _ _ hs hj' oj oj' hname
        · exact n3 _ _ _ _ hj hs oj oj' hname
        · exact n3 _ _ _ _ hj hj' oj oj' hname

/-- Every allowed call is answered as specified and keeps the invariant. -/
theorem PoolInv.step {e : Engine} {hash : K → Word} {pool : List Skiplist} {fs : List (FMap K V)} {c : Client}
    (inv : PoolInv e hash σ pool fs c) (op : MapOp K V) (ok : c.allows e op) :
    ∃ σ' pool', mapStep e hash σ pool op = .ok (σ', pool', (mapSpec fs op).2) ∧
      PoolInv e hash σ' pool' (mapSpec fs op).1 (c.next op) := by
  cases op with
  | emp l nm =>
    obtain ⟨o1, o2, o3⟩ := ok
    refine ⟨σ, _, rfl, by simp [mapSpec, inv.len], by simp [Client.next, inv.own], ?_, ?_⟩
    · obtain ⟨m, pl, h1, h2⟩ := inv.maps
      refine ⟨m, pl, h1, ?_⟩
      intro j s f hj hf
      rcases getElem?_snoc hj with ⟨rfl, rfl⟩ | ⟨hl, hj⟩ <;>
        rcases getElem?_snoc hf with ⟨hl', rfl⟩ | ⟨hl', hf⟩
      · exact ⟨o1, o2, fun _ => none, fun _ => rfl, fun _ _ _ => rfl⟩
      · rw [inv.len] at hl'; omega
      · rw [inv.len] at hl; omega
      · exact h2 j s f hj hf
    · have hn := inv.names
      cases e with
      | naive => exact hn
      | dcg =>
        obtain ⟨n1, n2, n3⟩ := hn
        have o3 := o3 rfl
        have low : ∀ j s, (pool ++ [Skiplist.emp l nm])[j]? = some s →
            (c.owner ++ [true])[j]? = some true →
            (j = pool.length ∧ s = Skiplist.emp l nm) ∨ (pool[j]? = some s ∧ c.owner[j]? = some true) := by
          intro j s hj oj
          rcases getElem?_snoc hj with ⟨h, h'⟩ | ⟨hl, hj⟩
          · exact .inl ⟨h, h'⟩
          · rcases getElem?_snoc oj with ⟨h, _⟩ | ⟨_, oj⟩
            · rw [inv.own] at h; omega
            · exact .inr ⟨hj, oj⟩
        refine ⟨?_, ?_, ?_⟩
        · intro n hq
          obtain ⟨nm', q, a1, a2, a3⟩ := n1 n hq
          refine ⟨nm', q, a1, List.mem_cons_of_mem _ a2, ?_⟩
          intro j s hj oj hname
          rcases low j s hj oj with ⟨_, rfl⟩ | ⟨hj, oj⟩
          · exact absurd (show nm ∈ c.used from (show nm = nm' from hname) ▸ a2) o3
          · exact a3 j s hj oj hname
        · intro j s hj oj
          rcases low j s hj oj with ⟨_, rfl⟩ | ⟨hj, oj⟩
          · exact List.mem_cons_self
          · exact List.mem_cons_of_mem _ (n2 j s hj oj)
        · intro j j' s s' hj hj' oj oj' hname
          rcases low j s hj oj with ⟨h, rfl⟩ | ⟨hj, oj⟩ <;> rcases low j' s' hj' oj' with ⟨h', rfl⟩ | ⟨hj', oj'⟩
          · rw [h, h']
          · exact absurd (show nm ∈ c.used from (show nm = s'.name from hname) ▸ n2 j' s' hj' oj') o3
          · exact absurd (show nm ∈ c.used from (show s.name = nm from hname) ▸ n2 j s hj oj) o3
          · exact n3 _ _ _ _ hj hj' oj oj' hname
  | clone i =>
    obtain ⟨s0, f0, hs, hf⟩ := inv.lookup ok
    have : (mapSpec fs (.clone i) : _ × MapOut V) = (fs ++ [f0], .unit) := by simp [mapSpec, hf]
    rw [this]
    refine ⟨σ, pool ++ [s0], by simp [mapStep, hs, unwrap, bind, Except.bind, pure, Except.pure],
      by simp [inv.len], by simp [Client.next, inv.own], ?_, ?_⟩
    · obtain ⟨m, pl, h1, h2⟩ := inv.maps
      refine ⟨m, pl, h1, ?_⟩
      intro j s f hj hf'
      rcases getElem?_snoc hj with ⟨rfl, rfl⟩ | ⟨hl, hj⟩ <;>
        rcases getElem?_snoc hf' with ⟨hl', rfl⟩ | ⟨hl', hf'⟩
      · exact h2 i _ _ hs hf
      · rw [inv.len] at hl'; omega
      · rw [inv.len] at hl; omega
      · exact h2 j s f hj hf'
    · have hn := inv.names
      cases e with
      | naive => exact hn
      | dcg =>
        obtain ⟨n1, n2, n3⟩ := hn
        have low : ∀ (j : Nat) (s : Skiplist), (pool ++ [s0])[j]? = some s → (c.owner ++ [false])[j]? = some true →
            pool[j]? = some s ∧ c.owner[j]? = some true := by
          intro j s hj oj
          rcases getElem?_snoc oj with ⟨_, h⟩ | ⟨hl, oj⟩
          · cases h
          · rcases getElem?_snoc hj with ⟨h, _⟩ | ⟨_, hj⟩
            · rw [inv.own] at hl; omega
            · exact ⟨hj, oj⟩
        refine ⟨?_, ?_, ?_⟩
        · intro n hq
          obtain ⟨nm', q, a1, a2, a3⟩ := n1 n hq
          refine ⟨nm', q, a1, a2, ?_⟩
          intro j s hj oj hname
          exact a3 j s (low j s hj oj).1 (low j s hj oj).2 hname
        · intro j s hj oj
          exact n2 j s (low j s hj oj).1 (low j s hj oj).2
        · intro j j' s s' hj hj' oj oj' hname
          exact n3 _ _ _ _ (low j s hj oj).1 (low j' s' hj' oj').1 (low j s hj oj).2 (low j' s' hj' oj').2 hname
  | archive i nm =>
    obtain ⟨o1, o3⟩ := ok
    obtain ⟨s0, f0, hs, hf⟩ := inv.lookup o1
    refine ⟨σ, pool.set i (s0.archive nm), by
      simp [mapStep, hs, unwrap, bind, Except.bind, pure, Except.pure, mapSpec],
      by simp [mapSpec, inv.len], by simp [Client.next, inv.own], ?_, ?_⟩
    · obtain ⟨m, pl, h1, h2⟩ := inv.maps
      refine ⟨m, pl, h1, ?_⟩
      intro j s f hj hf'
      rcases getElem?_set' hj with ⟨rfl, rfl, _⟩ | ⟨hne, hj⟩
      · have : f = f0 := by
          have h : fs[i]? = some f := hf'
          rw [hf] at h; cases h; rfl
        subst this
        exact h2 i s0 _ hs hf
      · exact h2 j s f hj hf'
    · have hn := inv.names
      cases e with
      | naive => exact hn
      | dcg =>
        obtain ⟨n1, n2, n3⟩ := hn
        have o3 := o3 rfl
        have low : ∀ j s, (pool.set i (s0.archive nm))[j]? = some s → (c.owner.set i true)[j]? = some true →
            (j = i ∧ s = s0.archive nm) ∨ (pool[j]? = some s ∧ c.owner[j]? = some true) := by
          intro j s hj oj
          rcases getElem?_set' hj with ⟨h, h', _⟩ | ⟨hne, hj⟩
          · exact .inl ⟨h.symm, h'⟩
          · rcases getElem?_set' oj with ⟨h, _⟩ | ⟨_, oj⟩
            · exact absurd h hne
            · exact .inr ⟨hj, oj⟩
        refine ⟨?_, ?_, ?_⟩
        · intro n hq
          obtain ⟨nm', q, a1, a2, a3⟩ := n1 n hq
          refine ⟨nm', q, a1, List.mem_cons_of_mem _ a2, ?_⟩
          intro j s hj oj hname
          rcases low j s hj oj with ⟨_, rfl⟩ | ⟨hj, oj⟩
          · exact absurd (show nm ∈ c.used from (show nm = nm' from hname) ▸ a2) o3
          · exact a3 j s hj oj hname
        · intro j s hj oj
          rcases low j s hj oj with ⟨_, rfl⟩ | ⟨hj, oj⟩
          · exact List.mem_cons_self
          · exact List.mem_cons_of_mem _ (n2 j s hj oj)
        · intro j j' s s' hj hj' oj oj' hname
          rcases low j s hj oj with ⟨h, rfl⟩ | ⟨hj, oj⟩ <;> rcases low j' s' hj' oj' with ⟨h', rfl⟩ | ⟨hj', oj'⟩
          · rw [h, h']
          · exact absurd (show nm ∈ c.used from (show nm = s'.name from hname) ▸ n2 j' s' hj' oj') o3
          · exact absurd (show nm ∈ c.used from (show s.name = nm from hname) ▸ n2 j s hj oj) o3
          · exact n3 _ _ _ _ hj hj' oj oj' hname
  | ext i k v =>
    obtain ⟨s0, f0, hs, hf⟩ := inv.lookup ok.1
    obtain ⟨σ', s', h1, h2⟩ := inv.ext hs hf ok.2 k v
    exact ⟨σ', pool.set i s', by simp [mapStep, hs, unwrap, bind, Except.bind, pure, Except.pure, h1, mapSpec, hf],
      by simpa [mapSpec, hf, Client.next] using h2⟩
  | put i k v =>
    obtain ⟨s0, f0, hs, hf⟩ := inv.lookup ok.1
    obtain ⟨σ', s', h1, h2⟩ := inv.ext hs hf ok.2 k (some v)
    exact ⟨σ', pool.set i s', by
      simp [mapStep, Skiplist.put, hs, unwrap, bind, Except.bind, pure, Except.pure, h1, mapSpec, hf],
      by simpa [mapSpec, hf, Client.next] using h2⟩
  | rem i k =>
    obtain ⟨s0, f0, hs, hf⟩ := inv.lookup ok.1
    obtain ⟨σ', s', h1, h2⟩ := inv.ext hs hf ok.2 k none
    exact ⟨σ', pool.set i s', by
      simp [mapStep, Skiplist.rem, hs, unwrap, bind, Except.bind, pure, Except.pure, h1, mapSpec, hf],
      by simpa [mapSpec, hf, Client.next] using h2⟩
  | get i k =>
    obtain ⟨s0, f0, hs, hf⟩ := inv.lookup ok
    obtain ⟨m, pl, h1, h2⟩ := inv.maps
    refine ⟨σ, pool, ?_, inv⟩
    have := get_spec h1 (h2 i s0 f0 hs hf) k
    simp [mapStep, hs, unwrap, bind, Except.bind, pure, Except.pure, this, mapSpec, hf]

theorem mapRun_spec {e : Engine} {hash : K → Word} {pool : List Skiplist} {fs : List (FMap K V)} {c : Client}
    (inv : PoolInv e hash σ pool fs c) (ops : List (MapOp K V)) (ok : c.Good e ops) :
    mapRun e hash σ pool ops = .ok (mapSpecRun fs ops) := by
  induction ops generalizing σ pool fs c with
  | nil => rfl
  | cons op ops ih =>
    obtain ⟨σ', pool', h1, h2⟩ := inv.step op ok.1
    simp [mapRun, h1, ih h2 ok.2, bind, Except.bind, pure, Except.pure, mapSpecRun]

theorem PoolInv.init (e : Engine) (hash : K → Word) :
    PoolInv e hash (Store.empty : Store (Path K V)) [] [] { used := [], owner := [] } := by
  refine ⟨rfl, rfl, ⟨fun _ _ => none, fun _ => 0, ?_, ?_⟩, ?_⟩
  · intro a p h; simp [Store.empty] at h
  · intro i s f h; simp at h
  · cases e with
    | naive => intro k h; simp [Store.empty] at h
    | dcg => exact ⟨by intro n h; simp [Store.empty] at h, by simp, by simp⟩

end
end Iodyn.Skip
