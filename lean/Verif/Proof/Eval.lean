import Verif.Spec.Eval
import Verif.Proof.Reach
/-
The test harnesses of the evaluation suite: counting the archive points.
-/
namespace Iodyn.Eval
variable {E M G R : Type}

theorem genData_eq (C : Coord G E) (n : Nat) (g : G) : genData C n g = (draws C.elem g n, after C.elem g n) := by
  induction n generalizing g with
  | zero => rfl
  | succ n ih =>
    simp only [genData, ih, draws, after, List.range_succ_eq_map, List.map_cons, List.map_map]
    rfl

theorem genLevels_eq (word : R → BitVec 64 × R) (n : Nat) (r : R) :
    genLevels word n r = ((draws word r n).map genBranchLevel, after word r n) := by
  induction n generalizing r with
  | zero => rfl
  | succ n ih =>
    simp only [genLevels, ih, draws, after, List.range_succ_eq_map, List.map_cons, List.map_map]
    rfl

theorem genBranchLevel_pos (w : BitVec 64) : 1 ≤ genBranchLevel w := by
  have go : ∀ (w : BitVec 64) (n i : Nat), i ≤ trailingZeros.go w n i := by
    intro w n
    induction n with
    | zero => intro i; exact Nat.le_refl _
    | succ n ih =>
      intro i
      unfold trailingZeros.go
      split
      · exact Nat.le_refl _
      · exact Nat.le_trans (Nat.le_succ _) (ih (i+1))
  unfold genBranchLevel trailingZeros
  show 1 ≤ trailingZeros.go (w <<< 1) (63 + 1) 0
  unfold trailingZeros.go
  rw [if_neg (by simp)]
  exact go _ _ _

theorem elemsOf_stamped (dg q lv nm c) (data : List E) : elemsOf (stamped dg q lv nm c data) = data := by
  induction data generalizing c with
  | nil => rfl
  | cons e es ih =>
    have h := ih (c + 1)
    simp only [stamped] at h ⊢
    simp only [List.zipIdx_cons, List.flatMap_cons, List.cons_append]
    unfold elemsOf at h ⊢
    rw [List.filterMap_cons_some (f := Item.elem?) (b := e) rfl, List.filterMap_append, h]
    congr 1
    split <;> rfl

theorem stamped_append (dg q lv nm c) (a b : List E) :
    stamped dg q lv nm c (a ++ b) = stamped dg q lv nm c a ++ stamped dg q lv nm (c + a.length) b := by
  simp only [stamped, List.zipIdx_append, List.flatMap_append]
  congr 3
  omega

theorem stamped_cons (dg q lv nm c) (e : E) (b : List E) :
    stamped dg q lv nm c (e :: b) = (.elem e :: if (c+1) % dg = 0 then
      [.pend (lv ((c+1) / dg)) (if (c+1) % q = 0 then some (nm ((c+1) / q)) else none)] else []) ++ stamped dg q lv nm (c + 1) b := by
  simp [stamped]

theorem succ_div_mod {c dg : Nat} :
    ((c + 1) % dg = 0 ∧ (c + 1) / dg = c / dg + 1) ∨ ((c+1) % dg ≠ 0 ∧ (c+1) / dg = c / dg ∧ (c + 1) % dg = c % dg + 1) := by
  by_cases hm : (c + 1) % dg = 0
  · left
    refine ⟨hm, ?_⟩
    rw [Nat.succ_div_of_dvd (Nat.dvd_of_mod_eq_zero hm)]
  · right
    have h1 := Nat.succ_div_of_not_dvd (a := c) (b := dg) (fun hd => hm (Nat.mod_eq_zero_of_dvd hd))
    have h2 := Nat.div_add_mod (c+1) dg
    have h3 := Nat.div_add_mod c dg
    rw [h1] at h2
    exact ⟨hm, h1, by omega⟩

/-- No archive point within a unit. -/
theorem stamped_short {dg : Nat} (q lv nm c) (v : List E) (h : c % dg + v.length < dg) :
    stamped dg q lv nm c v = v.map .elem := by
  induction v generalizing c with
  | nil => rfl
  | cons e es ih =>
    simp only [List.length_cons] at h
    rw [stamped_cons]
    rcases succ_div_mod (c := c) (dg := dg) with ⟨h1, h2⟩ | ⟨h1, h2, h3⟩
    · have a := Nat.div_add_mod (c+1) dg
      have b := Nat.div_add_mod c dg
      rw [h2, h1, Nat.mul_add] at a
      omega
    · rw [if_neg h1, ih (c + 1) (by omega)]
      rfl

section
variable [RazMeta E M]

/-- A cursor that only changed by putting `new` left of it. -/
structure Ext (u : Usage) (z z' : Raz E M) (new : List (Item E)) : Prop where
  reach : z'.Reachable u
  left : z'.left = new.reverse ++ z.left
  right : z'.right = z.right

theorem Ext.refl {u : Usage} {z : Raz E M} (h : z.Reachable u) : Ext u z z [] := ⟨h, rfl, rfl⟩

theorem Ext.trans {u : Usage} {z z' z'' : Raz E M} {a b} (h : Ext u z z' a) (h' : Ext u z' z'' b) : Ext u z z'' (a ++ b) :=
  ⟨h'.reach, by rw [h'.left, h.left]; simp, by rw [h'.right, h.right]⟩

theorem Ext.push {u : Usage} {z : Raz E M} (h : z.Reachable u) (e : E) : Ext u z (z.pushLeft e).1 [.elem e] := by
  obtain ⟨-, h2, h3⟩ := pushLeft_ok (Reach.z h).inv e
  exact ⟨.pushL e h, h2, h3⟩

/-- Archiving after a push. -/
theorem Ext.archive {u : Usage} {z z' : Raz E M} {new e} (h : Ext u z z' (new ++ [.elem e])) {lev : Nat} (hl : 1 ≤ lev) (nm) :
    Ext u z (z'.archiveLeft lev nm) (new ++ [.elem e, .pend lev nm]) := by
  obtain ⟨-, h2, h3⟩ := archiveLeft_ok (Reach.z h.reach).inv hl nm
  refine ⟨.archL nm hl h.reach, ?_, by rw [h3, h.right]⟩
  rw [h2, h.left]
  simp [archiveSide]

/-- The insertion loop: it has enough levels and names, and inserts the stamped data. -/
theorem editLoop_spec {u : Usage} {dg ng : Nat} (hd : dg ≠ 0) (hn : ng ≠ 0) (hq : ng * dg ≤ usizeMax) (lv : Nat → Nat) (nm : Nat → Name)
    (hlv : ∀ i, 1 ≤ lv i) (data : List E) (z : Raz E M) (c : Nat) (levs : List Nat) (names : List (Option Name))
    (hz : z.Reachable u) (hc : c + data.length ≤ usizeMax)
    (hl : ∀ i < levs.length, levs[i]? = some (lv (c / dg + 1 + i)))
    (hm : ∀ i < names.length, names[i]? = some (some (nm (c / (ng * dg) + 1 + i))))
    (hll : (c + data.length) / dg ≤ c / dg + levs.length)
    (hnl : (c + data.length) / (ng * dg) ≤ c / (ng * dg) + names.length) :
    ∃ z', EvalRaz.editLoop dg ng data z c levs names = .ok (z', c + data.length) ∧
      Ext u z z' (stamped dg (ng * dg) lv nm c data) := by
  have hq0 : ng * dg ≠ 0 := Nat.mul_ne_zero hn hd
  induction data generalizing z c levs names with
  | nil => exact ⟨z, rfl, .refl hz⟩
  | cons e es ih =>
    simp only [List.length_cons] at hc hll hnl ⊢
    have e1 : ∀ x, c + (x + 1) = c + 1 + x := by omega
    rw [e1] at hc hll hnl ⊢
    have hp := Ext.push hz e
    have start : EvalRaz.editLoop dg ng (e :: es) z c levs names =
        (if (c + 1) % (ng * dg) = 0 then
          match levs with
          | [] => .error .expect
          | l :: levs =>
            match names with
            | [] => .error .expect
            | n :: names => EvalRaz.editLoop dg ng es ((z.pushLeft e).1.archiveLeft l n) (c+1) levs names
        else if (c + 1) % dg = 0 then
          match levs with
          | [] => .error .expect
          | l :: levs => EvalRaz.editLoop dg ng es ((z.pushLeft e).1.archiveLeft l none) (c+1) levs names
        else EvalRaz.editLoop dg ng es (z.pushLeft e).1 (c+1) levs names) := by
      simp only [EvalRaz.editLoop, addU, mulU, remU, if_pos (show c + 1 ≤ usizeMax by omega), if_pos hq, if_neg hq0, if_neg hd,
        bind, Except.bind]
      split
      · rcases levs with _ | ⟨l, levs⟩
        · rfl
        · rcases names with _ | ⟨n, names⟩ <;> rfl
      · split
        · rcases levs with _ | ⟨l, levs⟩ <;> rfl
        · rfl
    rw [start, stamped_cons]
    rcases succ_div_mod (c := c) (dg := ng * dg) with ⟨q1, q2⟩ | ⟨q1, q2, -⟩
    · -- a named archive point
      have d1 : (c + 1) % dg = 0 := Nat.mod_eq_zero_of_dvd (Nat.dvd_trans (Nat.dvd_mul_left dg ng) (Nat.dvd_of_mod_eq_zero q1))
      have d2 : (c + 1) / dg = c / dg + 1 := by
        rcases succ_div_mod (c := c) (dg := dg) with h | h
        · exact h.2
        · exact absurd d1 h.1
      rw [if_pos q1, if_pos d1, if_pos q1]
      have le1 : (c + 1) / dg ≤ (c + 1 + es.length) / dg := Nat.div_le_div_right (by omega)
      have le2 : (c + 1) / (ng * dg) ≤ (c + 1 + es.length) / (ng * dg) := Nat.div_le_div_right (by omega)
      rcases levs with _ | ⟨l, levs⟩
      · simp at hll; omega
      rcases names with _ | ⟨n, names⟩
      · simp at hnl; omega
      have hl0 := hl 0 (by simp)
      have hn0 := hm 0 (by simp)
      simp only [List.getElem?_cons_zero, Option.some.injEq, Nat.add_zero, ← d2, ← q2] at hl0 hn0
      subst hl0 hn0
      have ha := Ext.archive (new := []) hp (hlv ((c+1)/dg)) (some (nm ((c+1)/(ng*dg))))
      obtain ⟨z', g1, g2⟩ := ih _ (c+1) levs names ha.reach hc
        (fun i hi => by
          have := hl (i+1) (by simpa using hi)
          rw [List.getElem?_cons_succ] at this
          rw [this, d2]; congr 2; omega)
        (fun i hi => by
          have := hm (i+1) (by simpa using hi)
          rw [List.getElem?_cons_succ] at this
          rw [this, q2]; congr 3; omega)
        (by simp only [List.length_cons] at hll; omega) (by simp only [List.length_cons] at hnl; omega)
      exact ⟨z', g1, ha.trans g2⟩
    · rw [if_neg q1, if_neg q1]
      rcases succ_div_mod (c := c) (dg := dg) with ⟨d1, d2⟩ | ⟨d1, d2, -⟩
      · rw [if_pos d1, if_pos d1]
        have le1 : (c + 1) / dg ≤ (c + 1 + es.length) / dg := Nat.div_le_div_right (by omega)
        rcases levs with _ | ⟨l, levs⟩
        · simp at hll; omega
        have hl0 := hl 0 (by simp)
        simp only [List.getElem?_cons_zero, Option.some.injEq, Nat.add_zero, ← d2] at hl0
        subst hl0
        have ha := Ext.archive (new := []) hp (hlv ((c+1)/dg)) none
        obtain ⟨z', g1, g2⟩ := ih _ (c+1) levs names ha.reach hc
          (fun i hi => by
            have := hl (i+1) (by simpa using hi)
            rw [List.getElem?_cons_succ] at this
            rw [this, d2]; congr 2; omega)
          (by rw [q2]; exact hm)
          (by simp only [List.length_cons] at hll; omega) (by omega)
        exact ⟨z', g1, ha.trans g2⟩
      · rw [if_neg d1, if_neg d1]
        obtain ⟨z', g1, g2⟩ := ih _ (c+1) levs names hp.reach hc (by rw [d2]; exact hl) (by rw [q2]; exact hm)
          (by omega) (by omega)
        exact ⟨z', g1, hp.trans g2⟩

omit [RazMeta E M] in
/-- The names drawn for an edit. -/
theorem editNames_spec (k : Nat) (s : EvalRaz E M G) (h : s.names + k ≤ usizeMax) :
    EvalRaz.editNames k s = .ok ({ s with names := s.names + k }, (List.range k).map (fun i => some (.usize (s.names + i)))) := by
  induction k generalizing s with
  | zero => rfl
  | succ k ih =>
    simp only [EvalRaz.editNames, EvalRaz.nextName, addU, if_pos (show s.names + 1 ≤ usizeMax by omega), bind, Except.bind,
      pure, Except.pure]
    rw [ih _ (by simp only; omega)]
    simp only [List.range_succ_eq_map, List.map_cons, List.map_map, Except.ok.injEq, Prod.mk.injEq, EvalRaz.mk.injEq, true_and,
      and_true, Nat.add_zero, List.cons.injEq]
    refine ⟨by omega, List.map_congr_left (fun i _ => ?_)⟩
    simp only [Function.comp, Option.some.injEq, Name.usize.injEq]
    omega

/-- Everything after the cursor is made. -/
theorem editAt_spec {u : Usage} (C : Coord G E) (word : R → BitVec 64 × R) (s : EvalRaz E M G) {z : Raz E M} (hz : z.Reachable u)
    (batch : Nat) (rng : R) (hd : s.datagauge ≠ 0) (hn : s.namegauge ≠ 0) (hq : s.namegauge * s.datagauge ≤ usizeMax)
    (hc : s.counter + batch ≤ usizeMax) (hb : batch < usizeMax)
    (hnm : s.names + (batch / (s.namegauge * s.datagauge) + 1) ≤ usizeMax) :
    ∃ s' z' t, EvalRaz.editAt C word s z batch rng = .ok (s', after word rng (batch / s.datagauge + 1)) ∧ s'.raztree = some t ∧
      z'.unfocus = .ok t ∧
      Ext u z z' (stamped s.datagauge (s.namegauge * s.datagauge)
        (fun i => genBranchLevel (draw word rng (i - (s.counter / s.datagauge + 1))))
        (fun i => .usize (s.names + (i - (s.counter / (s.namegauge * s.datagauge) + 1)))) s.counter (draws C.elem s.coord batch)) ∧
      s'.names = s.names + (batch / (s.namegauge * s.datagauge) + 1) ∧ s'.counter = s.counter + batch ∧
      s'.coord = after C.elem s.coord batch ∧ s'.datagauge = s.datagauge ∧ s'.namegauge = s.namegauge := by
  have hq0 : s.namegauge * s.datagauge ≠ 0 := Nat.mul_ne_zero hn hd
  have l1 : batch / s.datagauge + 1 ≤ usizeMax := by have := Nat.div_le_self batch s.datagauge; omega
  have l2 : batch / (s.namegauge * s.datagauge) + 1 ≤ usizeMax := by
    have := Nat.div_le_self batch (s.namegauge * s.datagauge); omega
  have len : (draws C.elem s.coord batch).length = batch := by simp [draws]
  have le : ∀ d, (s.counter + batch) / d ≤ s.counter / d + (batch / d + 1) := by
    intro d
    rcases Nat.eq_zero_or_pos d with rfl | hd
    · simp
    have a := Nat.div_add_mod s.counter d
    have b := Nat.div_add_mod batch d
    have c := Nat.mod_lt s.counter hd
    have e := Nat.mod_lt batch hd
    rw [← Nat.lt_succ_iff, Nat.div_lt_iff_lt_mul hd]
    have : (s.counter / d + (batch / d + 1) + 1) * d = d * (s.counter / d) + d * (batch / d) + d + d := by
      rw [Nat.add_mul, Nat.add_mul, Nat.add_mul, Nat.mul_comm d, Nat.mul_comm d]; omega
    simp only [Nat.succ_eq_add_one, this]
    omega
  obtain ⟨z', g1, g2⟩ := editLoop_spec hd hn hq (fun i => genBranchLevel (draw word rng (i - (s.counter / s.datagauge + 1))))
    (fun i => .usize (s.names + (i - (s.counter / (s.namegauge * s.datagauge) + 1)))) (fun _ => genBranchLevel_pos _)
    (draws C.elem s.coord batch) z s.counter ((draws word rng (batch / s.datagauge + 1)).map genBranchLevel)
    ((List.range (batch / (s.namegauge * s.datagauge) + 1)).map (fun i => some (.usize (s.names + i)))) hz (by rw [len]; exact hc)
    (fun i hi => by
      simp only [draws, List.map_map, List.length_map, List.length_range] at hi ⊢
      rw [List.getElem?_map, List.getElem?_range hi]
      simp [Function.comp])
    (fun i hi => by
      simp only [List.length_map, List.length_range] at hi ⊢
      rw [List.getElem?_map, List.getElem?_range hi]
      simp)
    (by rw [len]; simpa [draws] using le s.datagauge)
    (by rw [len]; simpa using le (s.namegauge * s.datagauge))
  obtain ⟨t, t1, -⟩ := unfocus_inv (Reach.z g2.reach).inv
  refine ⟨{ s with coord := after C.elem s.coord batch, counter := s.counter + batch, raztree := some t, names := s.names + (batch / (s.namegauge * s.datagauge) + 1) }, z', t, ?_, rfl, t1, g2, rfl, rfl, rfl, rfl, rfl⟩
  simp only [EvalRaz.editAt, divU, if_neg hd, if_neg hq0, mulU, if_pos hq, addU, if_pos l1, if_pos l2, bind, Except.bind, pure,
    Except.pure, genLevels_eq, editNames_spec _ _ hnm, genData_eq]
  rw [g1]
  simp only [t1, len]

/-! ### inc_init -/

theorem forN_inv {S : Type} (Q : Nat → S → Prop) (body : S → P S) (a b : Nat)
    (step : ∀ k s, a ≤ k → k < b → Q k s → ∃ s', body s = .ok s' ∧ Q (k+1) s') (n : Nat) (hn : a + n ≤ b) (s : S) (h : Q a s) :
    ∃ s', forN n body s = .ok s' ∧ Q (a + n) s' := by
  induction n generalizing a s with
  | zero => exact ⟨s, rfl, h⟩
  | succ n ih =>
    obtain ⟨s1, h1, h2⟩ := step a s (Nat.le_refl _) (by omega) h
    obtain ⟨s2, h3, h4⟩ := ih (a+1) (fun k s hk => step k s (by omega)) (by omega) s1 h2
    refine ⟨s2, by simp only [forN, h1, bind, Except.bind, h3], ?_⟩
    rwa [show a + (n + 1) = a + 1 + n by omega]

theorem pushN_spec {u : Usage} (n : Nat) (s : Iters E M) (hz : s.raz.Reachable u) (hn : n ≤ s.data.length) :
    ∃ s', forN n EvalRaz.pushNext s = .ok s' ∧ Ext u s.raz s'.raz ((s.data.take n).map .elem) ∧ s'.data = s.data.drop n ∧
      s'.levels = s.levels ∧ s'.names = s.names := by
  induction n generalizing s with
  | zero => exact ⟨s, rfl, .refl hz, rfl, rfl, rfl⟩
  | succ n ih =>
    obtain ⟨raz, data, names, levels⟩ := s
    rcases data with _ | ⟨e, es⟩
    · simp at hn
    have hp := Ext.push hz e
    obtain ⟨s', h1, h2, h3, h4, h5⟩ := ih { raz := (raz.pushLeft e).1, data := es, names := names, levels := levels } hp.reach
      (by simpa using hn)
    refine ⟨s', ?_, hp.trans h2, h3, h4, h5⟩
    simp only [forN, EvalRaz.pushNext, bind, Except.bind, h1]

omit [RazMeta E M] in
/-- The names drawn for a new sequence: every `ng`-th archive point gets one. -/
theorem initNames_spec (k : Nat) (s : EvalRaz E M G) (hg : s.namegauge ≠ 0) (h : s.names + k ≤ usizeMax) :
    ∃ ns, EvalRaz.initNames k s = .ok ({ s with names := s.names + k }, ns) ∧ ns.length = k * s.namegauge ∧
      ∀ j < k * s.namegauge, ns[j]? = some (if (j + 1) % s.namegauge = 0 then
        some (.usize (s.names + ((j + 1) / s.namegauge - 1))) else none) := by
  induction k generalizing s with
  | zero => exact ⟨[], rfl, by simp, fun j hj => by simp at hj⟩
  | succ k ih =>
    have hg' : 1 ≤ s.namegauge := by omega
    obtain ⟨ns, h1, h2, h3⟩ := ih { s with names := s.names + 1 } hg (by simp only; omega)
    refine ⟨List.replicate (s.namegauge - 1) none ++ some (.usize s.names) :: ns, ?_, ?_, ?_⟩
    · simp only [EvalRaz.initNames, EvalRaz.nextName, subU, if_pos hg', addU, if_pos (show s.names + 1 ≤ usizeMax by omega), bind,
        Except.bind, pure, Except.pure, h1]
      simp only [Except.ok.injEq, Prod.mk.injEq, EvalRaz.mk.injEq, true_and, and_true]
      omega
    · simp only [List.length_append, List.length_replicate, List.length_cons, h2]
      rw [Nat.add_mul]; omega
    · intro j hj
      simp only at h3
      rcases Nat.lt_trichotomy j (s.namegauge - 1) with hlt | heq | hgt
      · rw [List.getElem?_append_left (by simpa using hlt), List.getElem?_replicate, if_pos hlt,
          if_neg (by rw [Nat.mod_eq_of_lt (by omega)]; omega)]
      · subst heq
        rw [List.getElem?_append_right (by simp)]
        have : s.namegauge - 1 + 1 = s.namegauge := by omega
        simp [this, Nat.div_self (show 0 < s.namegauge by omega)]
      · obtain ⟨i, rfl⟩ : ∃ i, j = s.namegauge + i := ⟨j - s.namegauge, by omega⟩
        rw [List.getElem?_append_right (by simp; omega)]
        have e1 : s.namegauge + i - (List.replicate (s.namegauge - 1) (none : Option Name)).length = i + 1 := by simp; omega
        rw [e1, List.getElem?_cons_succ, h3 i (by rw [Nat.add_mul] at hj; omega)]
        have e2 : s.namegauge + i + 1 = i + 1 + s.namegauge := by omega
        rw [e2, Nat.add_mod_right, Nat.add_div_right _ (by omega)]
        split
        · rename_i hm
          congr 3
          have : 1 ≤ (i + 1) / s.namegauge := by
            rw [Nat.le_div_iff_mul_le (by omega), Nat.one_mul]
            exact Nat.le_of_dvd (by omega) (Nat.dvd_of_mod_eq_zero hm)
          omega
        · rfl

/-- One full unit: `dg` elements and an archive point. -/
theorem stamped_unit {dg : Nat} (hd : dg ≠ 0) (ng lv nm) (data : List E) (j : Nat) (h : (j + 1) * dg ≤ data.length) :
    ∃ (v : List E) (e : E), (data.drop (j * dg)).take dg = v ++ [e] ∧
    stamped dg (ng * dg) lv nm 0 (data.take ((j + 1) * dg)) = stamped dg (ng * dg) lv nm 0 (data.take (j * dg)) ++
      (v.map .elem ++ [.elem e, .pend (lv (j + 1)) (if (j + 1) % ng = 0 then some (nm ((j + 1) / ng)) else none)]) := by
  have hlen : ((data.drop (j * dg)).take dg).length = dg := by
    simp only [List.length_take, List.length_drop]
    rw [Nat.add_mul] at h; omega
  have hne : (data.drop (j * dg)).take dg ≠ [] := by intro h0; rw [h0] at hlen; simp at hlen; omega
  obtain ⟨v, e, hv⟩ := List.eq_nil_or_concat _ |>.resolve_left hne
  rw [List.concat_eq_append] at hv
  refine ⟨v, e, hv, ?_⟩
  have hvl : v.length + 1 = dg := by rw [hv] at hlen; simpa using hlen
  have hpos : 0 < dg := by omega
  rw [show (j + 1) * dg = j * dg + dg by rw [Nat.add_mul, Nat.one_mul], List.take_add, hv, stamped_append, stamped_append]
  have l0 : (data.take (j * dg)).length = j * dg := by
    rw [List.length_take]; rw [Nat.add_mul] at h; omega
  rw [l0, Nat.zero_add, stamped_short _ _ _ (j * dg) v (by rw [Nat.mul_mod_left]; omega), stamped_cons,
    show j * dg + v.length + 1 = (j + 1) * dg by rw [Nat.add_mul]; omega, if_pos (Nat.mul_mod_left ..),
    Nat.mul_div_cancel _ hpos, Nat.mul_mod_mul_right, Nat.mul_div_mul_right _ _ hpos]
  have : ((j + 1) % ng * dg = 0) = ((j + 1) % ng = 0) := by rw [Nat.mul_eq_zero, or_iff_left hd]
  simp only [this]
  simp [stamped]

/-- Pushing one unit, then archiving. -/
theorem unit_spec {u : Usage} {dg : Nat} (hd : dg ≠ 0) (ng lv nm) (hlv : ∀ i, 1 ≤ lv i) (data : List E) (j : Nat)
    (h : (j + 1) * dg ≤ data.length) (s : Iters E M) (he : Ext u Raz.new s.raz (stamped dg (ng * dg) lv nm 0 (data.take (j * dg))))
    (hdata : s.data = data.drop (j * dg)) :
    ∃ s', forN dg EvalRaz.pushNext s = .ok s' ∧ s'.data = data.drop ((j + 1) * dg) ∧ s'.levels = s.levels ∧ s'.names = s.names ∧
      Ext u Raz.new (s'.raz.archiveLeft (lv (j + 1)) (if (j + 1) % ng = 0 then some (nm ((j + 1) / ng)) else none))
        (stamped dg (ng * dg) lv nm 0 (data.take ((j + 1) * dg))) := by
  obtain ⟨v, e, h1, h2⟩ := stamped_unit hd ng lv nm data j h
  obtain ⟨s', h3, h4, h5, h6, h7⟩ := pushN_spec dg s he.reach (by
    rw [hdata, List.length_drop]; rw [Nat.add_mul] at h; omega)
  refine ⟨s', h3, ?_, h6, h7, ?_⟩
  · rw [h5, hdata, List.drop_drop]; congr 1; rw [Nat.add_mul]; omega
  · rw [h2, ← List.append_assoc]
    refine Ext.archive ?_ (hlv _) _
    rw [hdata, h1] at h4
    have := he.trans h4
    simpa using this

theorem incInit_spec {u : Usage} (C : Coord G E) (word : R → BitVec 64 × R) (size dg ng : Nat) (coord : G) (rng : R)
    (hd : dg ≠ 0) (hn : ng ≠ 0) (hq : ng * dg ≤ usizeMax) (hs : size ≤ usizeMax) :
    ∃ (s' : EvalRaz E M G) (z' : Raz E M) (t : RazTree E M),
      EvalRaz.incInit C word size dg ng coord rng = .ok (s', after word rng (size / dg)) ∧ s'.raztree = some t ∧
      z'.unfocus = .ok t ∧
      Ext u Raz.new z' (stamped dg (ng * dg) (fun i => genBranchLevel (draw word rng (i - 1))) (fun i => .usize (i - 1)) 0
        (draws C.elem coord size)) ∧
      s'.names = size / (ng * dg) ∧ s'.counter = 0 ∧
      s'.coord = after C.elem coord size ∧ s'.datagauge = dg ∧ s'.namegauge = ng := by
  have hq0 : ng * dg ≠ 0 := Nat.mul_ne_zero hn hd
  have hdp : 0 < dg := by omega
  let lv : Nat → Nat := fun i => genBranchLevel (draw word rng (i - 1))
  let nm : Nat → Name := fun i => .usize (i - 1)
  let data := draws C.elem coord size
  have len : data.length = size := by simp [data, draws]
  obtain ⟨K, hKd⟩ : ∃ K, size / (ng * dg) = K := ⟨_, rfl⟩
  have hK : K * (ng * dg) ≤ size := hKd ▸ Nat.div_mul_le_self _ _
  have hK' : size < (K + 1) * (ng * dg) := by
    have := Nat.lt_succ_self K
    rwa [← hKd, Nat.succ_eq_add_one, Nat.div_lt_iff_lt_mul (by omega), hKd] at this
  have m1 : K * ng * dg = K * (ng * dg) := Nat.mul_assoc ..
  obtain ⟨U, hUd⟩ : ∃ U, (size - K * (ng * dg)) / dg = U := ⟨_, rfl⟩
  have hU : U * dg ≤ size - K * (ng * dg) := hUd ▸ Nat.div_mul_le_self _ _
  have hU' : U < ng := by
    rw [← hUd, Nat.div_lt_iff_lt_mul hdp]
    rw [Nat.add_mul, Nat.one_mul] at hK'
    omega
  have hL : size / dg = K * ng + U := by
    have e : size = size - K * (ng * dg) + dg * (K * ng) := by rw [Nat.mul_comm dg, m1]; omega
    rw [e, Nat.add_mul_div_left _ _ hdp, Nat.add_comm, hUd]
  let levs := (draws word rng (size / dg)).map genBranchLevel
  have hlevs : ∀ k, k < size / dg → levs.drop k = lv (k + 1) :: levs.drop (k + 1) := by
    intro k hk
    have : k < levs.length := by simpa [levs, draws] using hk
    rw [List.drop_eq_getElem_cons this]
    congr 1
    simp [levs, draws, lv]
  obtain ⟨ns, n1, n2, n3⟩ := initNames_spec (E := E) (M := M) K (EvalRaz.new dg ng coord) hn (by
    have : K ≤ size := hKd ▸ Nat.div_le_self _ _
    simp only [EvalRaz.new]; omega)
  simp only [EvalRaz.new, Nat.zero_add] at n1 n2 n3
  -- the two phases
  let Q : Nat → Iters E M → Prop := fun k s =>
    Ext u Raz.new s.raz (stamped dg (ng * dg) lv nm 0 (data.take (k * dg))) ∧ s.data = data.drop (k * dg) ∧ s.levels = levs.drop k
  have fits : ∀ k, k < K * ng + U → (k + 1) * dg ≤ data.length := by
    intro k hk
    rw [len]
    have : (k + 1) * dg ≤ (K * ng + U) * dg := Nat.mul_le_mul_right _ (by omega)
    rw [Nat.add_mul (K * ng)] at this
    omega
  have stepN : ∀ k s, k < K * ng → Q k s ∧ s.names = ns.drop k → ∃ s', (do
      let s ← forN dg EvalRaz.pushNext s
      EvalRaz.archiveNext s) = .ok s' ∧ Q (k+1) s' ∧ s'.names = ns.drop (k+1) := by
    rintro k s hk ⟨⟨q1, q2, q3⟩, q4⟩
    obtain ⟨s', g1, g2, g3, g4, g5⟩ := unit_spec hd ng lv nm (fun _ => genBranchLevel_pos _) data k (fits k (by omega)) s q1 q2
    rw [q3, hlevs k (by omega)] at g3
    have hkn : k < ns.length := by omega
    rw [q4, List.drop_eq_getElem_cons hkn] at g4
    have e := n3 k (by omega)
    rw [List.getElem?_eq_getElem hkn, Option.some.injEq] at e
    refine ⟨{ raz := s'.raz.archiveLeft (lv (k+1)) ns[k], data := s'.data, levels := levs.drop (k+1), names := ns.drop (k+1) }, ?_,
      ⟨?_, g2, rfl⟩, rfl⟩
    · simp only [g1, bind, Except.bind, EvalRaz.archiveNext, g3, g4]
    · rw [e]; exact g5
  have stepU : ∀ k s, K * ng ≤ k → k < K * ng + U → Q k s → ∃ s', (do
      let s ← forN dg EvalRaz.pushNext s
      EvalRaz.archiveNone s) = .ok s' ∧ Q (k+1) s' := by
    rintro k s hk1 hk ⟨q1, q2, q3⟩
    obtain ⟨s', g1, g2, g3, g4, g5⟩ := unit_spec hd ng lv nm (fun _ => genBranchLevel_pos _) data k (fits k hk) s q1 q2
    rw [q3, hlevs k (by omega)] at g3
    refine ⟨{ raz := s'.raz.archiveLeft (lv (k+1)) none, data := s'.data, levels := levs.drop (k+1), names := s'.names }, ?_,
      ?_, g2, rfl⟩
    · simp only [g1, bind, Except.bind, EvalRaz.archiveNone, g3]
    · have : (k + 1) % ng ≠ 0 := by
        obtain ⟨i, rfl⟩ : ∃ i, k = K * ng + i := ⟨k - K * ng, by omega⟩
        rw [show K * ng + i + 1 = i + 1 + K * ng by omega, Nat.add_mul_mod_self_right, Nat.mod_eq_of_lt (by omega)]
        omega
      rw [if_neg this] at g5
      exact g5
  obtain ⟨s1, f1, f2, f3⟩ := forN_inv (fun k s => Q (k * ng) s ∧ s.names = ns.drop (k * ng))
    (forN ng (fun s => do
      let s ← forN dg EvalRaz.pushNext s
      EvalRaz.archiveNext s)) 0 K
    (fun k s _ hk hQ => by
      have hkk : k * ng + ng ≤ K * ng := by
        have : (k + 1) * ng ≤ K * ng := Nat.mul_le_mul_right _ hk
        rwa [Nat.add_mul, Nat.one_mul] at this
      have := forN_inv (fun k s => Q k s ∧ s.names = ns.drop k) _ (k * ng) (K * ng) (fun k s _ hk => stepN k s hk) ng hkk s hQ
      rwa [show (k + 1) * ng = k * ng + ng by rw [Nat.add_mul, Nat.one_mul]])
    K (by omega) { raz := Raz.new, data := data, names := ns, levels := levs }
    (by
      refine ⟨⟨?_, by simp, by simp⟩, by simp⟩
      simp only [Nat.zero_mul, List.take_zero]
      exact .refl .new)
  rw [Nat.zero_add] at f2 f3
  obtain ⟨s2, f4, f5, f6, -⟩ := forN_inv Q _ (K * ng) (K * ng + U) stepU U (Nat.le_refl _) s1 f2
  obtain ⟨s3, f7, f8, f9, -⟩ := pushN_spec (size - K * (ng * dg) - U * dg) s2 f5.reach (by
    rw [f6, List.length_drop, len, Nat.add_mul, m1]; omega)
  have ext : Ext u Raz.new s3.raz (stamped dg (ng * dg) lv nm 0 data) := by
    have hrest : s2.data.take (size - K * (ng * dg) - U * dg) = data.drop ((K * ng + U) * dg) := by
      rw [f6]
      apply List.take_of_length_le
      rw [List.length_drop, len, Nat.add_mul, m1]; omega
    rw [hrest] at f8
    have := f5.trans f8
    have hl2 : (data.take ((K * ng + U) * dg)).length = (K * ng + U) * dg := by
      rw [List.length_take, len, Nat.add_mul, m1]; omega
    rw [show (data.drop ((K * ng + U) * dg)).map Item.elem =
      stamped dg (ng * dg) lv nm (0 + (data.take ((K * ng + U) * dg)).length) (data.drop ((K * ng + U) * dg)) from ?_,
      ← stamped_append, List.take_append_drop] at this
    · exact this
    · rw [stamped_short]
      rw [hl2, Nat.zero_add, Nat.mul_mod_left, List.length_drop, len]
      have := Nat.lt_succ_self U
      rw [← hUd, Nat.succ_eq_add_one, Nat.div_lt_iff_lt_mul hdp, hUd, Nat.add_mul, Nat.one_mul] at this
      rw [Nat.add_mul, m1]
      omega
  obtain ⟨t, t1, -⟩ := unfocus_inv (Reach.z ext.reach).inv
  refine ⟨⟨some t, K, after C.elem coord size, 0, dg, ng⟩, s3.raz, t, ?_, rfl, t1, ext, hKd.symm, rfl, rfl, rfl, rfl⟩
  have b1 : K * ng ≤ usizeMax := by
    have : K * ng ≤ K * (ng * dg) := by rw [← m1]; exact Nat.le_mul_of_pos_right _ hdp
    omega
  have a1 : mulU ng dg = .ok (ng * dg) := if_pos hq
  have a2 : divU size (ng * dg) = .ok K := by rw [divU, if_neg hq0, hKd]
  have a3 : divU size dg = .ok (size / dg) := if_neg hd
  have a4 : mulU K ng = .ok (K * ng) := if_pos b1
  have a5 : mulU (K * ng) dg = .ok (K * (ng * dg)) := by rw [mulU, m1, if_pos (by omega)]
  have a6 : subU size (K * (ng * dg)) = .ok (size - K * (ng * dg)) := if_pos hK
  have a7 : divU (size - K * (ng * dg)) dg = .ok U := by rw [divU, if_neg hd, hUd]
  have a8 : mulU U dg = .ok (U * dg) := if_pos (by omega)
  have a9 : subU (size - K * (ng * dg)) (U * dg) = .ok (size - K * (ng * dg) - U * dg) := if_pos hU
  simp only [bind, Except.bind] at f1 f4
  simp only [EvalRaz.incInit, EvalRaz.new, bind, Except.bind, pure, Except.pure, a1, a2, a3, a4, a5, a6, a7, a8, a9, genLevels_eq, n1,
    genData_eq]
  rw [f1]
  simp only []
  rw [f4]
  simp only [f7, t1]

end

end Iodyn.Eval
