import Verif.Proof.IncrCost
/-
The stored calls after several folds in one namespace.
-/
namespace Iodyn.Incr
open Iodyn.Heap (Tr Cell Mem HTree RepT)
variable {V K R A D X E M : Type}

section
variable [DecidableEq V] [DecidableEq K]

def CT.key? : CT V K R → Option K
  | .nil => none
  | .node key .. => some key

/-- All calls of a run are stored. -/
def Full (T : Table V K R) (p : Name) (c : CT V K R) : Prop := ∀ q ∈ c.points, Has T p q.1 q.2

omit [DecidableEq V] [DecidableEq K] in
theorem has_congr {T T' : Table V K R} {p m : Name} {c : CT V K R} (h : T' p m = T p m) (hc : Has T p m c) : Has T' p m c := by
  unfold Has at hc ⊢
  rw [h]; exact hc

omit [DecidableEq V] [DecidableEq K] in
theorem point_points {nm : Option Name} {c : CT V K R} {q : Name × CT V K R} (hq : q ∈ CT.point nm c) : q.2 = c ∧ nm = some q.1 := by
  cases nm with
  | none => rw [point_none] at hq; cases hq
  | some m =>
    cases c with
    | nil => cases hq
    | node => simp only [CT.point, List.mem_singleton] at hq; subst hq; exact ⟨rfl, rfl⟩

theorem again_run {body : Name → K → Prog V K R R} {p : Name} {σ : Store V} : ∀ {c : CT V K R},
    CT.WF (body p) c → CT.In σ c → c.memos.Nodup → ∀ n T, c.size ≤ n →
    (∀ q ∈ c.points, ∀ k, q.2.key? = some k → ∀ e, lookup T p q.1 σ k = some e → Has T p q.1 q.2 ∧ Full T p q.2) →
    ∀ key loc cell nl nr res l r, c = .node key loc cell nl nr res l r →
    ∃ rd T' w, mrun (body p) p σ n key T = some (.ok ⟨res, rd, T', w⟩) ∧ Ran p c c.memos T rd T' ∧ Full T' p c := by
  intro c
  induction c with
  | nil => intro _ _ _ n _ _ _ _ _ _ _ _ _ _ _ h; cases h
  | node key loc cell nl nr res l r ihl ihr =>
    rintro hw hi hd n T hn hT _ _ _ _ _ _ _ _ ⟨⟩
    simp only [CT.size] at hn
    obtain ⟨n, rfl⟩ : ∃ m, n = m + 1 := ⟨n - 1, by omega⟩
    have branch : ∀ {nm : Option Name} {c : CT V K R}, CT.WF (body p) c → CT.In σ c →
        (∀ n T, c.size ≤ n →
          (∀ q ∈ c.points, ∀ k, q.2.key? = some k → ∀ e, lookup T p q.1 σ k = some e → Has T p q.1 q.2 ∧ Full T p q.2) →
          ∀ key loc cell nl nr res l r, c = .node key loc cell nl nr res l r →
          ∃ rd T' w, mrun (body p) p σ n key T = some (.ok ⟨res, rd, T', w⟩) ∧ Ran p c c.memos T rd T' ∧ Full T' p c) →
        ∀ T, c.size ≤ n →
          (∀ q ∈ CT.point nm c ++ c.points, ∀ k, q.2.key? = some k → ∀ e, lookup T p q.1 σ k = some e →
            Has T p q.1 q.2 ∧ Full T p q.2) →
          (∀ m ∈ (CT.point nm c).map (·.1), m ∉ c.memos) →
          ∃ rd T' w, BR (body p) p σ n nm c T rd T' w ∧ Ran p c ((CT.point nm c).map (·.1) ++ c.memos) T rd T' ∧
            ∀ q ∈ CT.point nm c ++ c.points, Has T' p q.1 q.2 := by
      intro nm c hw hi ih T hn hT hd
      cases c with
      | nil =>
        refine ⟨[], T, 0, ⟨rfl, rfl, rfl⟩, ⟨fun _ _ => rfl, fun _ _ _ => rfl, fun σ => ⟨fun _ => Agrees.nil σ, fun _ => trivial⟩⟩, ?_⟩
        cases nm <;> simp [CT.point, CT.points]
      | node key loc cell nl nr res l r =>
        cases nm with
        | none =>
          obtain ⟨rd, T', w, h1, h2, h3⟩ := ih n T hn (fun q hq => hT q (List.mem_append_right _ hq)) _ _ _ _ _ _ _ _ rfl
          exact ⟨rd, T', w, h1, by rw [point_none]; exact h2, by rw [point_none]; exact h3⟩
        | some m =>
          rw [point_some m _ (by simp)] at hT hd ⊢
          have hm : m ∉ (CT.node key loc cell nl nr res l r).memos := hd m (by simp)
          cases hl : lookup T p m σ key with
          | some e =>
            obtain ⟨k1, k2⟩ := hT (m, .node key loc cell nl nr res l r) (by simp) key rfl e hl
            have k3 := k1
            obtain ⟨rd, q1, q2⟩ := k1
            obtain ⟨a1, -, -⟩ := lookup_some hl
            rw [q1] at a1
            cases a1
            refine ⟨rd, T, 0, ?_, ⟨fun _ _ => rfl, fun _ _ _ => rfl, q2⟩, ?_⟩
            · show mcall _ p σ (some m) key T = _
              unfold mcall
              simp only [hl]
            · intro q hq
              rw [List.mem_append, List.mem_singleton] at hq
              rcases hq with rfl | hq
              · exact k3
              · exact k2 q hq
          | none =>
            obtain ⟨rd, T', w, h1, h2, h3⟩ := ih n T hn (fun q hq => hT q (List.mem_append_right _ hq)) _ _ _ _ _ _ _ _ rfl
            refine ⟨rd, T'.set p m ⟨key, rd, res⟩, w, ?_, ⟨?_, ?_, h2.reads⟩, ?_⟩
            · show mcall _ p σ (some m) key T = _
              unfold mcall
              simp only [hl, h1]
            · intro m' hm'
              simp only [List.map_cons, List.map_nil, List.mem_append, List.mem_singleton, not_or] at hm'
              rw [set_other (fun h => hm'.1 h.2)]
              exact h2.frame m' hm'.2
            · intro q m' hq
              rw [set_other (fun h => hq h.1)]
              exact h2.other q m' hq
            · intro q hq
              rw [List.mem_append, List.mem_singleton] at hq
              rcases hq with rfl | hq
              · exact ⟨rd, set_same, h2.reads⟩
              · have hne : ¬ (p = p ∧ q.1 = m) := fun h => hm (h.2 ▸ List.mem_map_of_mem hq)
                exact has_congr (set_other hne) (h3 q hq)
    simp only [CT.memos, CT.points, List.map_append] at hd
    have cnt : ∀ x, ((CT.point nl l).map (·.1)).count x + ((CT.point nr r).map (·.1)).count x + (l.points.map (·.1)).count x +
        (r.points.map (·.1)).count x ≤ 1 := fun x => by
      have := List.nodup_iff_count_le_one.1 hd x
      simp only [List.count_append] at this; omega
    have sep : ∀ {a b : List Name}, (∀ x, a.count x + b.count x ≤ 1) → ∀ x ∈ a, x ∉ b := by
      intro a b h x h1 h2
      have := List.count_pos_iff.2 h1
      have := List.count_pos_iff.2 h2
      have := h x
      omega
    have lrsep : ∀ q ∈ CT.point nr r ++ r.points, q.1 ∉ (CT.point nl l).map (·.1) ++ l.memos := fun q hq =>
      sep (a := (CT.point nr r).map (·.1) ++ r.memos) (fun x => by
        have := cnt x; simp only [List.count_append, CT.memos] at *; omega) q.1 (by
          rw [CT.memos, ← List.map_append]; exact List.mem_map_of_mem hq)
    have rlsep : ∀ q ∈ CT.point nl l ++ l.points, q.1 ∉ (CT.point nr r).map (·.1) ++ r.memos := fun q hq =>
      sep (a := (CT.point nl l).map (·.1) ++ l.memos) (fun x => by
        have := cnt x; simp only [List.count_append, CT.memos] at *; omega) q.1 (by
          rw [CT.memos, ← List.map_append]; exact List.mem_map_of_mem hq)
    have ndl : l.memos.Nodup := List.nodup_iff_count_le_one.2 fun x => by have := cnt x; unfold CT.memos; omega
    have ndr : r.memos.Nodup := List.nodup_iff_count_le_one.2 fun x => by have := cnt x; unfold CT.memos; omega
    obtain ⟨r1, T1, w1, b1, c1, d1⟩ := branch (nm := nl) hw.2.1 hi.2.1 (ihl hw.2.1 hi.2.1 ndl) T (by omega) (fun q hq => hT q (by
      simp only [CT.points, List.mem_append] at hq ⊢; tauto)) (sep fun x => by have := cnt x; unfold CT.memos; omega)
    have inner : ∀ q ∈ CT.point nr r ++ r.points, ∀ q' ∈ q.2.points, q' ∈ r.points := by
      intro q hq q' hq'
      have sub : ∀ (c : CT V K R), ∀ q ∈ c.points, ∀ q' ∈ q.2.points, q' ∈ c.points := by
        intro c
        induction c with
        | nil => intro q hq; cases hq
        | node key loc cell nl nr res l r ihl ihr =>
          intro q hq q' hq'
          simp only [CT.points, List.mem_append] at hq ⊢
          rcases hq with ((hq | hq) | hq) | hq
          · rw [(point_points hq).1] at hq'; tauto
          · rw [(point_points hq).1] at hq'; tauto
          · have := ihl q hq q' hq'; tauto
          · have := ihr q hq q' hq'; tauto
      rw [List.mem_append] at hq
      rcases hq with hq | hq
      · rw [(point_points hq).1] at hq'; exact hq'
      · exact sub r q hq q' hq'
    obtain ⟨r2, T2, w2, b2, c2, d2⟩ := branch (nm := nr) hw.2.2 hi.2.2 (ihr hw.2.2 hi.2.2 ndr) T1 (by omega) (fun q hq k hk e he => by
      have f1 := c1.frame q.1 (lrsep q hq)
      have he' : lookup T p q.1 σ k = some e := by unfold lookup at he ⊢; rw [← f1]; exact he
      obtain ⟨g1, g2⟩ := hT q (by simp only [CT.points, List.mem_append] at hq ⊢; tauto) k hk e he'
      refine ⟨has_congr f1 g1, fun q' hq' => has_congr (c1.frame q'.1 (lrsep q' ?_)) (g2 q' hq')⟩
      exact List.mem_append_right _ (inner q hq q' hq')) (sep fun x => by have := cnt x; unfold CT.memos; omega)
    refine ⟨_, T2, _, node_run hw hi b1 b2, ⟨?_, ?_, ?_⟩, ?_⟩
    · intro m hm
      simp only [CT.memos, CT.points, List.map_append, List.mem_append, not_or] at hm
      rw [c2.frame m (by simp only [CT.memos, List.mem_append, not_or]; tauto),
        c1.frame m (by simp only [CT.memos, List.mem_append, not_or]; tauto)]
    · intro q m hq
      rw [c2.other q m hq, c1.other q m hq]
    · intro σ'
      rw [agrees_cons, agrees_append, agrees_append, ← c1.reads σ', ← c2.reads σ']
      exact ⟨fun h' => ⟨h'.1, h'.2.1, h'.2.2, Agrees.nil _⟩, fun h' => ⟨h'.1, h'.2.1, h'.2.2.1⟩⟩
    · intro q hq
      have hcase : q ∈ CT.point nl l ++ l.points ∨ q ∈ CT.point nr r ++ r.points := by
        simp only [CT.points, List.mem_append] at hq ⊢; tauto
      rcases hcase with h | h
      · exact has_congr (c2.frame q.1 (rlsep q h)) (d1 q h)
      · exact d2 q h

/-- Call trees of one function: the arguments and the store determine them. -/
structure Family (B : K → Prog V K R R) (C : CT V K R → Prop) : Prop where
  wf : ∀ c, C c → CT.WF B c
  sub : ∀ c, C c → ∀ q ∈ c.points, C q.2
  det : ∀ c c', C c → C c' → c.key? = c'.key? → ∀ σ, CT.In σ c → CT.In σ c' → c = c'

omit [DecidableEq V] [DecidableEq K] in
theorem in_sub {σ : Store V} : ∀ {c : CT V K R}, CT.In σ c → ∀ q ∈ c.points, CT.In σ q.2 := by
  intro c
  induction c with
  | nil => intro _ q hq; cases hq
  | node key loc cell nl nr res l r ihl ihr =>
    rintro ⟨-, h1, h2⟩ q hq
    simp only [CT.points, List.mem_append] at hq
    rcases hq with ((hq | hq) | hq) | hq
    · rw [(point_points hq).1]; exact h1
    · rw [(point_points hq).1]; exact h2
    · exact ihl h1 q hq
    · exact ihr h2 q hq

omit [DecidableEq V] [DecidableEq K] in
theorem points_sub : ∀ (c : CT V K R), ∀ q ∈ c.points, ∀ q' ∈ q.2.points, q' ∈ c.points := by
  intro c
  induction c with
  | nil => intro q hq; cases hq
  | node key loc cell nl nr res l r ihl ihr =>
    intro q hq q' hq'
    simp only [CT.points, List.mem_append] at hq ⊢
    rcases hq with ((hq | hq) | hq) | hq
    · rw [(point_points hq).1] at hq'; tauto
    · rw [(point_points hq).1] at hq'; tauto
    · have := ihl q hq q' hq'; tauto
    · have := ihr q hq q' hq'; tauto

omit [DecidableEq V] [DecidableEq K] in
theorem points_ne {c : CT V K R} : ∀ q ∈ c.points, q.2 ≠ .nil := by
  have one : ∀ (nm : Option Name) (c : CT V K R), ∀ q ∈ CT.point nm c, q.2 ≠ .nil := by
    intro nm c q hq
    cases nm with
    | none => rw [point_none] at hq; cases hq
    | some m =>
      cases c with
      | nil => cases hq
      | node => simp only [CT.point, List.mem_singleton] at hq; subst hq; simp
  induction c with
  | nil => intro q hq; cases hq
  | node key loc cell nl nr res l r ihl ihr =>
    intro q hq
    simp only [CT.points, List.mem_append] at hq
    rcases hq with ((hq | hq) | hq) | hq
    · exact one _ _ q hq
    · exact one _ _ q hq
    · exact ihl q hq
    · exact ihr q hq

/-- After all calls of one tree are stored, a run of another one leaves its calls stored and costs what is new. -/
theorem next_run {body : Name → K → Prog V K R R} {p : Name} {σ : Store V} {C : CT V K R → Prop} (hC : Family (body p) C)
    {c0 : CT V K R} (h0 : C c0) {c : CT V K R} (hc : C c) (hi : CT.In σ c) (hd : c.memos.Nodup) {T : Table V K R} (hV : Valid body T)
    (hF : Full T p c0) (hnew : ∀ m ∈ c.memos, m ∉ c0.memos → T p m = none) {old : Name → CT V K R → Bool}
    (hold : ∀ m w, old m w = true → (m, w) ∈ c0.points) {key : K} {loc : Loc} {cell : V} {nl nr : Option Name} {res : R} {l r : CT V K R}
    (he : c = .node key loc cell nl nr res l r) :
    ∃ rd T' w, mrun (body p) p σ c.size key T = some (.ok ⟨res, rd, T', w⟩) ∧ Ran p c c.memos T rd T' ∧ Full T' p c ∧
      w ≤ c.cost old := by
  obtain ⟨rd, T', w, h1, h2, h3⟩ := again_run (hC.wf c hc) hi hd c.size T (Nat.le_refl _) (fun q hq k hk e hl => by
    obtain ⟨a1, a2, a3⟩ := lookup_some hl
    by_cases hm : q.1 ∈ c0.memos
    · obtain ⟨q0, hq0, hqq⟩ := List.mem_map.1 hm
      have hh := hF q0 hq0
      have hfull : Full T p q0.2 := fun q' hq' => hF q' (points_sub c0 q0 hq0 q' hq')
      have key0 : q0.2.key? = some k ∧ CT.In σ q0.2 := by
        have hne := points_ne q0 hq0
        rcases q0 with ⟨m0, w0⟩
        cases w0 with
        | nil => exact absurd rfl hne
        | node k0 loc0 cell0 nl0 nr0 res0 l0 r0 =>
          obtain ⟨rd, b1, b2⟩ := hh
          simp only at hqq
          subst hqq
          simp only at b1
          rw [b1] at a1
          cases a1
          exact ⟨by rw [← a2]; rfl, (b2 σ).2 a3⟩
      have := hC.det q0.2 q.2 (hC.sub c0 h0 q0 hq0) (hC.sub c hc q hq) (by rw [key0.1, hk]) σ key0.2 (in_sub hi q hq)
      rw [← this, ← hqq]
      exact ⟨hh, hfull⟩
    · have := hnew q.1 (List.mem_map_of_mem hq) hm
      rw [this] at a1; cases a1) _ _ _ _ _ _ _ _ he
  obtain ⟨rd', T2, w', k1, k2, -⟩ := later_run (body := body) (p := p) (old := old) (hC.wf c hc) hi hd c.size T
    (Nat.le_refl _) hV (fun m _ w hw => hF (m, w) (hold m w hw)) _ _ _ _ _ _ _ _ he
  rw [h1] at k1
  simp only [Option.some.injEq, Except.ok.injEq, MOut.mk.injEq, true_and] at k1
  exact ⟨rd, T', w, h1, h2, h3, by rw [k1.2.2]; exact k2⟩
end

/-! ### Folds -/

theorem in_view {F : Fns D R} {σ : Mem D X} : ∀ {v : Tree (Tr × D)} {c : CT (Cell D X) (Key R) R}, ctUp F v = some c →
    (∃ σ' : Mem D X, View σ' (rootH v) v) → CT.In σ c → View σ (rootH v) v := by
  intro v
  induction v with
  | nil => intro c _ _ _; exact .nil
  | node lv n d l r ihl ihr =>
    rintro c hc ⟨σ', hv⟩ hi
    obtain ⟨h, d⟩ := d
    obtain ⟨cl, cr, x, k1, k2, k3, rfl⟩ := ctUp_node hc
    obtain ⟨i0, i1, i2⟩ := hi
    cases hv with
    | @node _ _ hl hr _ _ h1 h2 h3 =>
      have e2 := h2.root
      have e3 := h3.root
      exact .node i0 (ihl k1 ⟨σ', e2 ▸ h2⟩ i1) (ihr k2 ⟨σ', e3 ▸ h3⟩ i2)

theorem View.unique {σ : Mem D X} : ∀ {h : Option Tr} {v w : Tree (Tr × D)}, View σ h v → View σ h w → v = w := by
  intro h v w hv
  induction hv generalizing w with
  | nil => intro hw; cases hw; rfl
  | node hc _ _ ihl ihr =>
    intro hw
    cases hw with
    | node hc' h1 h2 =>
      rw [hc] at hc'
      cases hc'
      rw [ihl h1, ihr h2]

theorem view_points {σ : Mem D X} : ∀ {v : Tree (Tr × D)} {h : Option Tr}, View σ h v → ∀ q ∈ points v, View σ (rootH q.2) q.2 := by
  have one : ∀ {nm : Option Name} {c : Tree (Tr × D)} {q : Name × Tree (Tr × D)}, q ∈ point nm c → q.2 = c := by
    intro nm c q hq
    cases nm with
    | none => cases c <;> cases hq
    | some m =>
      cases c with
      | nil => cases hq
      | node => simp only [point, List.mem_singleton] at hq; subst hq; rfl
  intro v
  induction v with
  | nil => intro h _ q hq; cases hq
  | node lv n d l r ihl ihr =>
    intro h hv q hq
    cases hv with
    | node hc h1 h2 =>
      simp only [points, List.mem_append] at hq
      rcases hq with ((hq | hq) | hq) | hq
      · rw [one hq, h1.root]; exact h1
      · rw [one hq, h2.root]; exact h2
      · exact ihl h1 q hq
      · exact ihr h2 q hq

theorem upFamily (F : Fns D R) : Family (foldBody F) (fun c : CT (Cell D X) (Key R) R =>
    ∃ (σ : Mem D X) (h : Option Tr) (v : Tree (Tr × D)), View σ h v ∧ ctUp F v = some c) where
  wf := by
    rintro c ⟨σ, h, v, hv, hc⟩
    exact (ctUp_wf hv hc).1
  sub := by
    rintro c ⟨σ, h, v, hv, hc⟩ q hq
    have h1 : (q.1, some q.2) ∈ c.points.map (fun q => (q.1, some q.2)) := List.mem_map.2 ⟨q, hq, rfl⟩
    rw [ctUp_points hc] at h1
    obtain ⟨q', hq', e⟩ := List.mem_map.1 h1
    simp only [Prod.mk.injEq] at e
    exact ⟨σ, _, q'.2, view_points hv q' hq', e.2⟩
  det := by
    rintro c c' ⟨σ, h, v, hv, hc⟩ ⟨σ', h', v', hv', hc'⟩ hk τ hi hi'
    have w1 := in_view hc ⟨σ, hv.root ▸ hv⟩ hi
    have w2 := in_view hc' ⟨σ', hv'.root ▸ hv'⟩ hi'
    have : rootH v = rootH v' := by
      cases v with
      | nil =>
        cases hc
        cases v' with
        | nil => rfl
        | node lv n d l r => obtain ⟨cl, cr, x, -, -, -, rfl⟩ := ctUp_node hc'; cases hk
      | node lv n d l r =>
        obtain ⟨cl, cr, x, -, -, -, rfl⟩ := ctUp_node hc
        cases v' with
        | nil => cases hc'; cases hk
        | node lv' n' d' l' r' =>
          obtain ⟨cl', cr', x', -, -, -, rfl⟩ := ctUp_node hc'
          simp only [CT.key?, Option.some.injEq, Key.up.injEq] at hk
          simp only [rootH, hk]
    have e := w1.unique (this ▸ w2)
    subst e
    rw [hc] at hc'
    cases hc'
    rfl

theorem in_viewLr {F : Fns D R} {σ : Mem D X} : ∀ {v : Tree (Tr × D)} {start : Option Name} {a : R},
    (∃ σ' : Mem D X, View σ' (rootH v) v) → CT.In σ (ctLr F start a v : CT (Cell D X) (Key R) R) → View σ (rootH v) v := by
  intro v
  induction v with
  | nil => intro _ _ _ _; exact .nil
  | node lv n d l r ihl ihr =>
    rintro start a ⟨σ', hv⟩ hi
    obtain ⟨h, d⟩ := d
    cases hv with
    | @node _ _ hl hr _ _ h1 h2 h3 =>
      have e2 := h2.root
      have e3 := h3.root
      simp only [ctLr] at hi
      by_cases hc : ((rootH l).isSome || (rootH r).isSome) = true
      · rw [if_pos hc] at hi
        obtain ⟨i0, i1, i2⟩ := hi
        exact .node i0 (ihl ⟨σ', e2 ▸ h2⟩ i1) (ihr ⟨σ', e3 ▸ h3⟩ i2)
      · rw [if_neg hc] at hi
        simp only [Bool.or_eq_true, not_or, Bool.not_eq_true] at hc
        have n1 := rootH_none hc.1
        have n2 := rootH_none hc.2
        subst n1 n2
        exact .node hi.1 .nil .nil

theorem view_pointsLr {σ : Mem D X} {f : R → D → Nat → Option Name → R} : ∀ {v : Tree (Tr × D)} {h : Option Tr} {start : Option Name} {a : R},
    View σ h v → ∀ q ∈ pointsLr f start a v, View σ (rootH q.2.2.2) q.2.2.2 := by
  have one : ∀ {nm s : Option Name} {a : R} {c : Tree (Tr × D)} {q : Name × Option Name × R × Tree (Tr × D)}, q ∈ pointLr nm s a c → q.2.2.2 = c := by
    intro nm s a c q hq
    cases nm with
    | none => cases c <;> cases hq
    | some m =>
      cases c with
      | nil => cases hq
      | node => simp only [pointLr, List.mem_singleton] at hq; subst hq; rfl
  intro v
  induction v with
  | nil => intro h _ _ _ q hq; cases hq
  | node lv n d l r ihl ihr =>
    intro h start a hv q hq
    cases hv with
    | node hc h1 h2 =>
      simp only [pointsLr, List.mem_append] at hq
      rcases hq with ((hq | hq) | hq) | hq
      · rw [one hq, h1.root]; exact h1
      · rw [one hq, h2.root]; exact h2
      · exact ihl h1 q hq
      · exact ihr h2 q hq

theorem lrFamily (F : Fns D R) : Family (foldBody F) (fun c : CT (Cell D X) (Key R) R =>
    ∃ (σ : Mem D X) (h : Option Tr) (v : Tree (Tr × D)) (start : Option Name) (a : R), View σ h v ∧ c = ctLr F start a v) where
  wf := by
    rintro c ⟨σ, h, v, start, a, hv, rfl⟩
    exact (ctLr_wf start a hv).1
  sub := by
    rintro c ⟨σ, h, v, start, a, hv, rfl⟩ q hq
    rw [ctLr_points] at hq
    obtain ⟨q', hq', rfl⟩ := List.mem_map.1 hq
    exact ⟨σ, _, q'.2.2.2, _, _, view_pointsLr hv q' hq', rfl⟩
  det := by
    rintro c c' ⟨σ, h, v, s, a, hv, rfl⟩ ⟨σ', h', v', s', a', hv', rfl⟩ hk τ hi hi'
    have w1 := in_viewLr ⟨σ, hv.root ▸ hv⟩ hi
    have w2 := in_viewLr ⟨σ', hv'.root ▸ hv'⟩ hi'
    cases v with
    | nil =>
      cases v' with
      | nil => rfl
      | node lv n d l r =>
        obtain ⟨_, _, _, _, _, _, _, e⟩ := ctLr_key (F := F) (X := X) (h := d.1) (d := d.2) (lv := lv) (n := n) (l := l) (r := r) (start := s') (a := a')
        rw [e] at hk; cases hk
    | node lv n d l r =>
      obtain ⟨_, _, _, _, _, _, _, e⟩ := ctLr_key (F := F) (X := X) (h := d.1) (d := d.2) (lv := lv) (n := n) (l := l) (r := r) (start := s) (a := a)
      rw [e] at hk
      cases v' with
      | nil => cases hk
      | node lv' n' d' l' r' =>
        obtain ⟨_, _, _, _, _, _, _, e'⟩ := ctLr_key (F := F) (X := X) (h := d'.1) (d := d'.2) (lv := lv') (n := n') (l := l') (r := r') (start := s') (a := a')
        rw [e'] at hk
        simp only [CT.key?, Option.some.injEq, Key.lr.injEq] at hk
        obtain ⟨k1, k2, k3⟩ := hk
        have : rootH (.node lv n d l r) = rootH (.node lv' n' d' l' r') := congrArg some k1
        have e := w1.unique (this ▸ w2)
        rw [e, k2, k3]

end Iodyn.Incr
