import Verif.Proof.HeapClient
/-
Sessions that edit in some namespaces and map or convert in others are `COwned`.
-/
namespace Iodyn.Heap
variable {E M C : Type} [RazMeta E M]

section
omit [RazMeta E M]

theorem write_eq {g : Feet} {p : NsPath} {w : List Name} (h : ∀ (j : Nat) f, g[j]?.join = some f → f.hit p w = false) : g.write p w = g := by
  refine List.ext_getElem (by simp [Feet.write]) (fun j h1 h2 => ?_)
  have := h j
  rw [List.getElem?_eq_getElem h2] at this
  simp only [Feet.write, List.getElem_map]
  cases hg : g[j] with
  | none => rfl
  | some f =>
    rw [hg] at this
    simp [Option.filter, this f rfl]

theorem write_get (g : Feet) (p : NsPath) (w : List Name) (j : Nat) : (g.write p w)[j]?.join = g[j]?.join.filter (fun f => !f.hit p w) := by
  simp only [Feet.write, List.getElem?_map]
  rcases g[j]? with _ | (_ | f) <;> rfl

theorem hit_space {f : Foot} {p : NsPath} {w : List Name} (h : p ∉ f.spaces) : f.hit p w = false := by
  simp [Foot.hit, h]

theorem hit_names {f : Foot} {p : NsPath} {w : List Name} (h : ∀ x, x ∈ w → x ∉ f.names) : f.hit p w = false := by
  simp only [Foot.hit, Bool.and_eq_false_iff, List.any_eq_false, decide_eq_true_eq]
  exact .inr h

end

/-- A statement in the namespace `p` that does not mention variable 0. -/
theorem step_zero {vs vs' : Vars E M} {g g' : Feet} {p : NsPath} {c : Cmd E (RazMeta.Index E M)} {o : Out E} (hl : g.length = vs.length)
    (h0 : 0 < vs.length) (hu : c.uses 0 = false) (hg : g.step vs p c = some g') (hs : vs.step c = .ok (vs', o)) :
    vs'[0]? = vs[0]? ∧ 0 < vs'.length ∧ ∀ f, g[0]?.join = some f → p ∉ f.spaces → g'[0]?.join = some f := by
  have hw : ∀ {w : List Name} {f : Foot}, g[0]?.join = some f → p ∉ f.spaces → (g.write p w)[0]?.join = some f := by
    intro w f hf hp
    rw [write_get, hf]
    simp [Option.filter, hit_space hp]
  cases c with
  | new =>
    cases hg; cases hs
    refine ⟨List.getElem?_append_left h0, by simp, fun f hf _ => ?_⟩
    rw [join_append, if_pos (by omega)]; exact hf
  | fromVec v =>
    cases hg
    simp only [Vars.step] at hs
    cases v with
    | nil => cases hs; exact ⟨rfl, h0, fun f hf _ => hf⟩
    | cons x v =>
      simp only [RazTree.fromVec, reduceCtorEq, if_false, bind, Except.bind] at hs
      split at hs
      · cases hs
      · rename_i r hr
        split at hr
        · cases hr
        · cases hr
          cases hs
          refine ⟨List.getElem?_append_left h0, by simp, fun f hf _ => ?_⟩
          show (g ++ [some _])[0]?.join = _
          rw [join_append, if_pos (by omega)]; exact hf
  | clone i =>
    simp only [Feet.step, Vars.step] at hg hs
    split at hs
    · rename_i s hv
      rw [hv] at hg
      cases hg; cases hs
      refine ⟨List.getElem?_append_left h0, by simp, fun f hf _ => ?_⟩
      rw [join_append, if_pos (by omega)]; exact hf
    · rename_i hno
      cases hs
      split at hg
      · rename_i s hv; exact absurd hv (hno s)
      · cases hg
        exact ⟨rfl, h0, fun f hf _ => hf⟩
  | op i x =>
    have hi : i ≠ 0 := by simpa [Cmd.uses] using hu
    simp only [Feet.step, Vars.step] at hg hs
    rcases hv : vs[i]? with _ | (_ | s)
    · rw [hv] at hg hs; cases hg; cases hs; exact ⟨rfl, h0, fun f hf _ => hf⟩
    · rw [hv] at hg hs; cases hg; cases hs; exact ⟨rfl, h0, fun f hf _ => hf⟩
    · rw [hv] at hg hs
      simp only [bind, Except.bind] at hs
      split at hs
      · cases hs
      · cases hs
        simp only at hg
        split at hg
        · split at hg
          · cases hg
            refine ⟨List.getElem?_set_ne hi, by simpa using h0, fun f hf hp => ?_⟩
            rw [join_set, if_neg (by omega)]
            exact hw hf hp
          · cases hg
        · cases hg
  | join i lev nm j =>
    have hi : i ≠ 0 := by intro h; simp [Cmd.uses, h] at hu
    have hj : j ≠ 0 := by intro h; simp [Cmd.uses, h] at hu
    simp only [Feet.step, Vars.step] at hg hs
    split at hs
    · rename_i a b ha hb
      rw [ha, hb] at hg
      simp only at hg
      split at hs
      · rename_i hij
        rw [if_pos hij] at hg
        cases hg; cases hs
        exact ⟨rfl, h0, fun f hf _ => hf⟩
      · rename_i hij
        rw [if_neg hij] at hg
        obtain ⟨s', hs'⟩ : ∃ s', vs' = (vs.set i none).set j s' := by
          simp only [bind, Except.bind] at hs
          split at hs
          · cases hs
          · split at hs
            · cases hs; exact ⟨_, rfl⟩
            · cases hs; exact ⟨_, rfl⟩
        subst hs'
        split at hg
        · split at hg
          · cases hg
            refine ⟨by rw [List.getElem?_set_ne hj, List.getElem?_set_ne hi], by simpa using h0, fun f hf hp => ?_⟩
            rw [join_set, if_neg (by omega), join_set, if_neg (by omega)]
            exact hw hf hp
          · cases hg
        · cases hg
    · rename_i hno
      cases hs
      split at hg
      · rename_i a b ha hb; exact absurd hb (hno a b ha)
      · cases hg
        exact ⟨rfl, h0, fun f hf _ => hf⟩

/-- What holds in a session, see `MapSession`. -/
structure SGood (S : List NsPath) (st : SSt E M) (g : CFeet) (A B : List Name) : Prop where
  good : Good 0 S st.vars g.vars []
  pos : 0 < st.vars.length
  slen : g.stacks.length = st.stacks.length
  slive : ∀ (j : Nat) s, st.stacks[j]? = some (some s) → ∃ f, g.stacks[j]?.join = some f
  sspaces : ∀ (j : Nat) f, g.stacks[j]?.join = some f → f.spaces ⊆ S
  names : ∀ x, (footN (g.vars.set 0 none)).count x + (footN g.stacks).count x ≤ A.count x
  nodup : A.Nodup
  reg : ∀ s, st.vars[0]? = some (some s) → ∃ f, g.vars[0]?.join = some f ∧ Sub f.names B ∧ ∀ q ∈ f.spaces, q ∉ S

section
variable {S : List NsPath} {st : SSt E M} {g : CFeet} {A B : List Name}

omit [RazMeta E M] in
theorem SGood.src (h : SGood S st g A B) {j : Nat} (hj : j ≠ 0) {f : Foot} (hf : g.vars[j]?.join = some f) : Sub f.names A := fun x => by
  have h1 := footN_get (g.vars.set 0 none) j x
  rw [join_set, if_neg (by omega), hf] at h1
  have := h.names x
  simp only [Option.elim] at h1; omega

omit [RazMeta E M] in
theorem SGood.stk (h : SGood S st g A B) {j : Nat} {f : Foot} (hf : g.stacks[j]?.join = some f) : Sub f.names A := fun x => by
  have h1 := footN_get g.stacks j x
  rw [hf] at h1
  have := h.names x
  simp only [Option.elim] at h1; omega

omit [RazMeta E M] in
/-- Writing outside of `S` affects variable 0 only. -/
theorem SGood.outside (h : SGood S st g A B) {p : NsPath} (hp : p ∉ S) (w : List Name) (o : Option Foot) :
    (g.vars.write p w).set 0 o = g.vars.set 0 o ∧ g.stacks.write p w = g.stacks := by
  constructor
  · refine List.ext_getElem? (fun j => ?_)
    by_cases hj : j = 0
    · subst hj; simp [List.getElem?_set, Feet.write]
    · rw [List.getElem?_set_ne (by omega), List.getElem?_set_ne (by omega)]
      simp only [Feet.write, List.getElem?_map]
      have := h.good.spaces j
      rcases hg : g.vars[j]? with _ | (_ | f)
      · rfl
      · rfl
      · rw [hg] at this
        have := hit_space (w := w) (fun hq => hp (this f hj rfl hq))
        simp [Option.filter, this]
  · exact write_eq fun j f hf => hit_space fun hq => hp (h.sspaces j f hf hq)

theorem SGood.stmt (h : SGood S st g A B) {p : NsPath} {c : Cmd E (RazMeta.Index E M)} (hp : p ∈ S) (hc : c.isClone = false) (hu : c.uses 0 = false)
    (hA : (A ++ c.cells).Nodup) : ∃ g', g.step (C := C) st p (.ev (.stmt c)) = some g' ∧
      ∀ st' o, st.step (.stmt c) = .ok (st', o) → SGood S st' g' (A ++ c.cells) B := by
  have hcn := nodup_count hA
  simp only [List.count_append] at hcn
  have hgood : ∀ W : List Name, (∀ x, W.count x ≤ (footN g.stacks).count x + (if x ∈ A ++ c.cells then 0 else W.count x)) →
      (∀ x, x ∉ A ++ c.cells → W.count x ≤ 1) → Good 0 S st.vars g.vars (c.cells ++ W) := by
    intro W h1 h2
    refine ⟨h.good.len, h.good.live, h.good.spaces, fun x => ?_⟩
    have q1 := h.names x
    have q2 := hcn x
    have q3 := h1 x
    have q4 := h2 x
    simp only [List.count_append]
    split at q3
    · omega
    · rename_i hx
      have := q4 hx
      have hx' : (A ++ c.cells).count x = 0 := List.count_eq_zero.2 hx
      simp only [List.count_append] at hx'
      omega
  obtain ⟨v, hv, hnext⟩ := (hgood (footN g.stacks) (fun x => by omega) (fun x hx => by
    have q1 := h.names x
    have hx' : (A ++ c.cells).count x = 0 := List.count_eq_zero.2 hx
    simp only [List.count_append] at hx'; omega)).step hp hc hu
  -- no stack is written
  have hw : g.stacks.write p (g.vars.writes c) = g.stacks := by
    refine write_eq fun j f hf => hit_names fun x hx hxf => ?_
    have q1 := footN_get g.stacks j x
    rw [hf] at q1
    have q2 : 0 < f.names.count x := List.count_pos_iff.2 hxf
    have q3 := h.names x
    have q4 := hcn x
    simp only [Option.elim] at q1
    have hcell : x ∉ c.cells := fun hx => by have : 0 < c.cells.count x := List.count_pos_iff.2 hx; omega
    cases c with
    | op i o =>
      have hi : i ≠ 0 := by simpa [Cmd.uses] using hu
      simp only [Feet.writes, List.mem_append] at hx
      rcases hx with hx | hx
      · have q5 := footN_get (g.vars.set 0 none) i x
        rw [join_set, if_neg (by omega)] at q5
        have : 0 < (g.vars[i]?.join.elim [] Foot.names).count x := List.count_pos_iff.2 hx
        omega
      · exact hcell hx
    | _ => exact hcell hx
  refine ⟨⟨v, g.stacks⟩, by simp [CFeet.step, hv, hw], fun st' o hs => ?_⟩
  obtain ⟨⟨vs', o'⟩, h1, h2⟩ := bind_ok.1 hs
  cases h2
  have hn := hnext _ _ h1
  obtain ⟨z1, z2, z3⟩ := step_zero h.good.len h.pos hu hv h1
  refine ⟨hn.mono (fun x => by simp), z2, h.slen, h.slive, h.sspaces, fun x => ?_, hA, fun s hs' => ?_⟩
  · by_cases hx : x ∈ A ++ c.cells
    · have := hn.once x
      have hx' : 0 < (A ++ c.cells).count x := List.count_pos_iff.2 hx
      show (footN (v.set 0 none)).count x + (footN g.stacks).count x ≤ _
      omega
    · have hx' : (A ++ c.cells).count x = 0 := List.count_eq_zero.2 hx
      have hx2 := hx'
      simp only [List.count_append] at hx2
      have hsn : ∀ y, (footN g.stacks).count y ≤ A.count y := fun y => by have := h.names y; omega
      obtain ⟨v', hv', hnext'⟩ := (hgood (x :: footN g.stacks) (fun y => by
          rw [List.count_cons]
          by_cases hy : x = y
          · subst hy
            rw [if_neg hx]
            simp
          · have : (x == y) = false := by simp [hy]
            simp [this]) (fun y hy => by
          have hy' : (A ++ c.cells).count y = 0 := List.count_eq_zero.2 hy
          simp only [List.count_append] at hy'
          have := hsn y
          rw [List.count_cons]
          split <;> omega)).step hp hc hu
      rw [hv] at hv'
      cases hv'
      have := (hnext' _ _ h1).once x
      simp only [List.count_cons_self] at this
      have := hsn x
      show (footN (v.set 0 none)).count x + (footN g.stacks).count x ≤ _
      omega
  · obtain ⟨f, q1, q2, q3⟩ := h.reg s (by rw [← z1]; exact hs')
    exact ⟨f, z3 f q1 (fun hq => q3 p hq hp), q2, q3⟩

omit [RazMeta E M] in
theorem SGood.stack (h : SGood S st g A B) {p : NsPath} (hp : p ∈ S) :
    SGood S ⟨st.vars, st.stacks ++ [some AStack.new]⟩ ⟨g.vars, g.stacks ++ [some ⟨[], [p]⟩]⟩ A B := by
  refine ⟨h.good, h.pos, by simp [h.slen], fun j s hs => ?_, fun j f hf => ?_, fun x => ?_, h.nodup, h.reg⟩
  · rw [join_append, h.slen]
    by_cases hl : j < st.stacks.length
    · rw [if_pos hl]
      rw [List.getElem?_append_left hl] at hs
      exact h.slive j s hs
    · rw [if_neg hl]
      have : j < (st.stacks ++ [some AStack.new]).length := (List.getElem?_eq_some_iff.1 hs).1
      rw [if_pos (by simp at this; omega)]
      exact ⟨_, rfl⟩
  · rw [join_append] at hf
    split at hf
    · exact h.sspaces j f hf
    · split at hf
      · cases hf; simpa using hp
      · cases hf
  · have := h.names x
    simpa [footN] using this

omit [RazMeta E M] in
theorem SGood.arch (h : SGood S st g A B) {p : NsPath} (hp : p ∈ S) {j : Nat} {s s' : AStack E Nat} (hj : st.stacks[j]? = some (some s))
    {f : Foot} (hf : g.stacks[j]?.join = some f) {w : List Name} (hA : (A ++ w).Nodup) :
    SGood S ⟨st.vars, st.stacks.set j (some s')⟩ ⟨g.vars.write p w, (g.stacks.write p w).set j (some ⟨f.names ++ w, p :: f.spaces⟩)⟩ (A ++ w) B := by
  have hcn := nodup_count hA
  simp only [List.count_append] at hcn
  have hlt : j < g.stacks.length := by rw [h.slen]; exact (List.getElem?_eq_some_iff.1 hj).1
  have hfresh : ∀ x, x ∈ w → x ∉ A := fun x hx hx' => by
    have h1 : 0 < w.count x := List.count_pos_iff.2 hx
    have h2 : 0 < A.count x := List.count_pos_iff.2 hx'
    have := hcn x; omega
  have hs : g.stacks.write p w = g.stacks := write_eq fun i f' hf' => hit_names fun x hx hx' => hfresh x hx ((h.stk hf').subset hx')
  have hv : ∀ i, i ≠ 0 → (g.vars.write p w)[i]?.join = g.vars[i]?.join := by
    intro i hi
    rw [write_get]
    cases hg : g.vars[i]?.join with
    | none => rfl
    | some f' => simp [Option.filter, hit_names (p := p) (fun x hx hx' => hfresh x hx ((h.src hi hg).subset hx'))]
  have hvn : ∀ x, (footN (List.set (g.vars.write p w) 0 none)).count x ≤ (footN (g.vars.set 0 none)).count x := fun x => by
    have : (g.vars.write p w).set 0 none = Feet.write (g.vars.set 0 none) p w := by simp [Feet.write, List.map_set]
    rw [this]; exact footN_write _ _ _ x
  rw [hs]
  refine ⟨⟨by simp [Feet.write, h.good.len], fun i s hi hs' => ?_, fun i f' hi hf' => ?_, fun x => ?_⟩, h.pos, by simp [h.slen], fun i s2 hs2 => ?_,
    fun i f' hf' => ?_, fun x => ?_, hA, fun s2 hs2 => ?_⟩
  · show ∃ f, (g.vars.write p w)[i]?.join = some f
    rw [hv i hi]; exact h.good.live i s hi hs'
  · have hf' : (g.vars.write p w)[i]?.join = some f' := hf'
    rw [hv i hi] at hf'; exact h.good.spaces i f' hi hf'
  · have := h.good.once x
    have := hvn x
    show (footN (List.set (g.vars.write p w) 0 none)).count x + _ ≤ 1
    omega
  · by_cases hij : j = i
    · subst hij
      exact ⟨_, by rw [join_set, if_pos ⟨rfl, hlt⟩]⟩
    · rw [join_set, if_neg (by omega)]
      rw [List.getElem?_set_ne hij] at hs2
      exact h.slive i s2 hs2
  · rw [join_set] at hf'
    split at hf'
    · cases hf'
      exact List.cons_subset.2 ⟨hp, h.sspaces j f hf⟩
    · exact h.sspaces i f' hf'
  · have q1 := footN_set g.stacks j hlt (some ⟨f.names ++ w, p :: f.spaces⟩) x
    rw [hf] at q1
    have := hvn x
    have := h.names x
    simp only [Option.elim, List.count_append] at q1 ⊢
    omega
  · obtain ⟨f', q1, q2, q3⟩ := h.reg s2 hs2
    refine ⟨f', ?_, q2, q3⟩
    show (g.vars.write p w)[0]?.join = some f'
    rw [write_get, q1]
    simp [Option.filter, hit_space (w := w) (fun hq => q3 p hq hp)]

omit [RazMeta E M] in
/-- Variable 0 changes. -/
theorem SGood.zero (h : SGood S st g A B) (o : Option (St E M)) (fo : Option Foot) {B' : List Name}
    (hr : ∀ s, o = some s → ∃ f, fo = some f ∧ Sub f.names B' ∧ ∀ q ∈ f.spaces, q ∉ S) :
    SGood S ⟨st.vars.set 0 o, st.stacks⟩ ⟨g.vars.set 0 fo, g.stacks⟩ A B' := by
  have hlt : 0 < g.vars.length := by rw [h.good.len]; exact h.pos
  have hset : ((g.vars.set 0 fo).set 0 none) = g.vars.set 0 none := List.set_set _
  refine ⟨⟨by simp [h.good.len], fun i s hi hs => ?_, fun i f hi hf => ?_, fun x => ?_⟩, by simpa using h.pos, h.slen, h.slive, h.sspaces,
    fun x => ?_, h.nodup, fun s hs => ?_⟩
  · rw [join_set, if_neg (by omega)]
    rw [List.getElem?_set_ne (by omega)] at hs
    exact h.good.live i s hi hs
  · rw [join_set, if_neg (by omega)] at hf
    exact h.good.spaces i f hi hf
  · rw [hset]; exact h.good.once x
  · rw [hset]; exact h.names x
  · rw [join_set, if_pos ⟨rfl, hlt⟩]
    rw [List.getElem?_set_self h.pos] at hs
    exact hr s (Option.some.inj hs)

end

theorem session_owned {fn : C → E → E} {S : List NsPath} : ∀ (l : List (NsPath × CEv E (RazMeta.Index E M) C)) {st : SSt E M} {g : CFeet} {A B : List Name},
    SGood S st g A B → MapSession S A B l → cowned fn st g l = true := by
  intro l
  induction l with
  | nil => intro st g A B _ _; rfl
  | cons ev l ih =>
    obtain ⟨p, ev⟩ := ev
    intro st g A B h hm
    suffices ∃ g', g.step st p ev = some g' ∧ ∀ st' o, st.cev fn ev = .ok (st', o) → ∃ A' B', SGood S st' g' A' B' ∧ MapSession S A' B' l by
      obtain ⟨g', hg, hn⟩ := this
      unfold cowned
      rw [hg]
      simp only
      cases hs : st.cev fn ev with
      | error q => rfl
      | ok r =>
        obtain ⟨A', B', h1, h2⟩ := hn _ _ hs
        exact ih h1 h2
    cases ev with
    | ev x =>
      unfold MapSession at hm
      by_cases hp : p ∈ S
      · rw [if_pos hp] at hm
        obtain ⟨hc, hcv, hu, hA, hm⟩ := hm
        cases x with
        | stmt c =>
          obtain ⟨g', hg, hn⟩ := h.stmt (C := C) hp hc hu hA
          exact ⟨g', hg, fun st' o hs => ⟨_, _, hn st' o hs, hm⟩⟩
        | stack =>
          refine ⟨_, rfl, fun st' o hs => ?_⟩
          cases hs
          exact ⟨A, B, h.stack hp, by simpa [SEv.cells] using hm⟩
        | sclone j => cases hc
        | spush j y =>
          refine ⟨_, rfl, fun st' o hs => ?_⟩
          simp only [SSt.cev, SSt.step] at hs
          have hm' : MapSession S A B l := by simpa [SEv.cells] using hm
          split at hs
          · rename_i s hj
            cases hs
            refine ⟨A, B, ⟨h.good, h.pos, by simpa using h.slen, fun i s2 hs2 => ?_, h.sspaces, h.names, h.nodup, h.reg⟩, hm'⟩
            by_cases hij : j = i
            · subst hij; exact h.slive j s hj
            · rw [List.getElem?_set_ne hij] at hs2
              exact h.slive i s2 hs2
          · cases hs; exact ⟨A, B, h, hm'⟩
        | sarch j n lev =>
          simp only [CFeet.step, SSt.cev, SSt.step]
          rcases hj : st.stacks[j]? with _ | (_ | s)
          · refine ⟨_, rfl, fun st' o hs => ?_⟩
            cases hs
            exact ⟨A ++ n.toList, B, ⟨h.good, h.pos, h.slen, h.slive, h.sspaces, fun x => by have := h.names x; simp only [List.count_append]; omega, hA, h.reg⟩, hm⟩
          · refine ⟨_, rfl, fun st' o hs => ?_⟩
            cases hs
            exact ⟨A ++ n.toList, B, ⟨h.good, h.pos, h.slen, h.slive, h.sspaces, fun x => by have := h.names x; simp only [List.count_append]; omega, hA, h.reg⟩, hm⟩
          · obtain ⟨f, hf⟩ := h.slive j s hj
            have hnd : (f.names ++ n.toList).Nodup := count_nodup fun x => by
              have := nodup_count hA x; have := h.stk hf x
              simp only [SEv.cells, List.count_append] at *; omega
            simp only [hf, if_pos hnd]
            refine ⟨_, rfl, fun st' o hs => ?_⟩
            cases hs
            exact ⟨_, B, h.arch hp hj hf hA, hm⟩
        | conv w j => exact absurd rfl (hcv w j)
      · rw [if_neg hp] at hm
        obtain ⟨⟨o, rfl⟩, hB, hm⟩ := hm
        simp only [CFeet.step, Feet.step, SSt.cev, SSt.step, Vars.step]
        rcases hv : st.vars[0]? with _ | (_ | s)
        · have := h.pos
          rw [List.getElem?_eq_getElem this] at hv; cases hv
        · simp only [(h.outside hp _ none).2]
          refine ⟨_, rfl, fun st' o' hs => ?_⟩
          cases hs
          exact ⟨A, _, ⟨h.good, h.pos, h.slen, h.slive, h.sspaces, h.names, h.nodup, fun s hs => by simp only at hs; rw [hv] at hs; cases hs⟩, hm⟩
        · obtain ⟨f, q1, q2, q3⟩ := h.reg s hv
          have hnd : (f.names ++ (Cmd.op (E := E) (I := RazMeta.Index E M) 0 o).cells).Nodup := count_nodup fun x => by
            have := nodup_count hB x; have := q2 x
            simp only [SEv.cells, List.count_append] at *; omega
          simp only [q1, if_pos hnd, Option.map_some, (h.outside hp _ none).2, (h.outside hp _ _).1]
          refine ⟨_, rfl, fun st' o' hs => ?_⟩
          obtain ⟨⟨vs', o2⟩, h1, h2⟩ := bind_ok.1 hs
          obtain ⟨⟨s', o3⟩, h3, h4⟩ := bind_ok.1 h1
          cases h4; cases h2
          refine ⟨A, _, h.zero _ _ (B' := B ++ (SEv.stmt (Cmd.op (E := E) (I := RazMeta.Index E M) 0 o)).cells) ?_, hm⟩
          rintro s2 ⟨⟩
          refine ⟨_, rfl, fun x => ?_, fun q hq => ?_⟩
          · have := q2 x
            simp only [SEv.cells, List.count_append]; omega
          · rcases List.mem_cons.1 hq with rfl | hq
            · exact hp
            · exact q3 q hq
    | map c i d =>
      unfold MapSession at hm
      obtain ⟨hp, hi, rfl, hm⟩ := hm
      simp only [CFeet.step, SSt.cev]
      have rej : ∃ g', some (⟨g.vars.set 0 none, g.stacks⟩ : CFeet) = some g' ∧ ∀ st' o, (Except.ok ((⟨st.vars.set 0 none, st.stacks⟩ : SSt E M), Out.unit) : P _) = .ok (st', (o : Out E)) →
          ∃ A' B', SGood S st' g' A' B' ∧ MapSession S A' B' l := by
        refine ⟨_, rfl, fun st' o hs => ?_⟩
        cases hs
        exact ⟨A, A, h.zero none none (fun s hs => by cases hs), hm⟩
      rcases hv : st.vars[i]? with _ | (_ | (z | t))
      · exact rej
      · exact rej
      · exact rej
      · obtain ⟨f, hf⟩ := h.good.live i _ hi hv
        have hsub := h.src hi hf
        have hnd : f.names.Nodup := count_nodup fun x => Nat.le_trans (hsub x) (nodup_count h.nodup x)
        simp only [hf, if_pos hnd, (h.outside hp _ none).2, (h.outside hp _ _).1]
        refine ⟨_, rfl, fun st' o hs => ?_⟩
        obtain ⟨t', h1, h2⟩ := bind_ok.1 hs
        cases h2
        refine ⟨A, A, h.zero _ _ ?_, hm⟩
        rintro s2 ⟨⟩
        exact ⟨_, rfl, hsub, fun q hq => by rw [List.mem_singleton.1 hq]; exact hp⟩
    | conv w j d =>
      unfold MapSession at hm
      obtain ⟨hp, rfl, hm⟩ := hm
      simp only [CFeet.step, SSt.cev]
      have rej : ∃ g', some (⟨g.vars.set 0 none, g.stacks⟩ : CFeet) = some g' ∧ ∀ st' o, (Except.ok ((⟨st.vars.set 0 none, st.stacks⟩ : SSt E M), Out.unit) : P _) = .ok (st', (o : Out E)) →
          ∃ A' B', SGood S st' g' A' B' ∧ MapSession S A' B' l := by
        refine ⟨_, rfl, fun st' o hs => ?_⟩
        cases hs
        exact ⟨A, A, h.zero none none (fun s hs => by cases hs), hm⟩
      rcases hv : st.stacks[j]? with _ | (_ | s)
      · exact rej
      · exact rej
      · obtain ⟨f, hf⟩ := h.slive j _ hv
        have hsub := h.stk hf
        have hnd : f.names.Nodup := count_nodup fun x => Nat.le_trans (hsub x) (nodup_count h.nodup x)
        simp only [hf, if_pos hnd, (h.outside hp _ none).2, (h.outside hp _ _).1]
        refine ⟨_, rfl, fun st' o hs => ?_⟩
        obtain ⟨t', h1, h2⟩ := bind_ok.1 hs
        cases h2
        refine ⟨A, A, h.zero _ _ ?_, hm⟩
        rintro s2 ⟨⟩
        exact ⟨_, rfl, hsub, fun q hq => by rw [List.mem_singleton.1 hq]; exact hp⟩

/-- A session, after the result variable was made. -/
theorem mapSession_owned {fn : C → E → E} {S : List NsPath} {p : NsPath} (hp : p ∉ S) {l : List (NsPath × CEv E (RazMeta.Index E M) C)}
    (h : MapSession S [] [] l) : COwned M fn ((p, .ev (.stmt .new)) :: l) := by
  refine session_owned (S := S) (A := []) (B := []) (st := ⟨[some (.cursor Raz.new)], []⟩) (g := ⟨[some ⟨[], [p]⟩], []⟩) l ?_ h
  refine ⟨⟨rfl, fun j s hj hs => ?_, fun j f hj hf => ?_, fun x => by simp [footN]⟩, by simp, rfl, fun j s hs => by simp at hs, fun j f hf => by simp at hf,
    fun x => by simp [footN], by simp, fun s _ => ⟨_, rfl, Sub.refl _, fun q hq => by rw [List.mem_singleton.1 hq]; exact hp⟩⟩
  · cases j with
    | zero => exact absurd rfl hj
    | succ j => simp at hs
  · cases j with
    | zero => exact absurd rfl hj
    | succ j => simp at hf

end Iodyn.Heap
