import Verif.Proof.Incr
import Verif.Proof.Canon
/-
How many bodies a memoised fold runs.
-/
namespace Iodyn.Incr
open Iodyn.Heap (Tr Cell Mem HTree RepT)
variable {V K R A D X E M : Type}

/-- The calls of a run whose bodies each read one articulation and make at most two calls. -/
inductive CT (V K R : Type) where
  | nil
  | node (key : K) (loc : Loc) (cell : V) (nl nr : Option Name) (res : R) (l r : CT V K R)

namespace CT

/-- One call in the body: from `g` to `g'`. -/
def Step (g : Prog V K R R) (nm : Option Name) (c : CT V K R) (g' : Prog V K R R) : Prop :=
  match c with
  | .nil => g' = g
  | .node key _ _ _ _ res _ _ => ∃ k, g = .call nm key k ∧ g' = k res

/-- The calls are those of the bodies. -/
def WF (body : K → Prog V K R R) : CT V K R → Prop
  | .nil => True
  | .node key loc cell nl nr res l r =>
    (∃ k g, body key = .force loc k ∧ Step (k cell) nl l g ∧ Step g nr r (.ret res)) ∧ WF body l ∧ WF body r

/-- The store has the articulations. -/
def In (σ : Store V) : CT V K R → Prop
  | .nil => True
  | .node _ loc cell _ _ _ l r => σ.cells loc = some cell ∧ In σ l ∧ In σ r

def size : CT V K R → Nat
  | .nil => 0
  | .node _ _ _ _ _ _ l r => 1 + size l + size r

def point (n : Option Name) (c : CT V K R) : List (Name × CT V K R) :=
  match n, c with
  | some m, .node .. => [(m, c)]
  | _, _ => []

def points : CT V K R → List (Name × CT V K R)
  | .nil => []
  | .node _ _ _ nl nr _ l r => point nl l ++ point nr r ++ points l ++ points r

def memos (c : CT V K R) : List Name := c.points.map (·.1)

/-- What is not known: `old` says what is. -/
def cost (old : Name → CT V K R → Bool) : CT V K R → Nat
  | .nil => 0
  | .node _ _ _ nl nr _ l r => 1 +
    (if (point nl l).any (fun q => old q.1 q.2) then 0 else cost old l) +
    (if (point nr r).any (fun q => old q.1 q.2) then 0 else cost old r)

end CT

section
variable [DecidableEq V] [DecidableEq K]

/-- A call with the stored calls. -/
def mcall (callee : K → Table V K R → Option (P (MOut V K R R))) (p : Name) (σ : Store V) (nm : Option Name) (key : K)
    (T : Table V K R) : Option (P (MOut V K R R)) :=
  match nm with
  | none => callee key T
  | some n =>
    match lookup T p n σ key with
    | some e => some (.ok ⟨e.res, e.reads, T, 0⟩)
    | none =>
      match callee key T with
      | some (.ok c) => some (.ok { c with table := c.table.set p n ⟨key, c.reads, c.val⟩ })
      | x => x

theorem mexec_call {callee : K → Table V K R → Option (P (MOut V K R R))} {p : Name} {σ : Store V} {nm : Option Name} {key : K}
    {T : Table V K R} {k : R → Prog V K R A} {c : MOut V K R R} (h : mcall callee p σ nm key T = some (.ok c)) {o : MOut V K R A}
    (ho : mexec callee p σ (k c.val) c.table = some (.ok o)) :
    mexec callee p σ (.call nm key k) T = some (.ok { o with reads := c.reads ++ o.reads, work := c.work + o.work }) := by
  unfold mcall at h
  unfold mexec
  cases nm with
  | none => simp only at h ⊢; rw [h]; simp only [ho]
  | some n =>
    simp only at h ⊢
    cases hl : lookup T p n σ key with
    | some e =>
      rw [hl] at h
      simp only [Option.some.injEq, Except.ok.injEq] at h
      subst h
      simp only at ho ⊢
      simp only [ho, Nat.zero_add]
    | none =>
      rw [hl] at h
      simp only at h ⊢
      cases hc : callee key T with
      | none => rw [hc] at h; cases h
      | some y =>
        rw [hc] at h
        cases y with
        | error q => cases h
        | ok c' =>
          simp only [Option.some.injEq, Except.ok.injEq] at h
          subst h
          simp only at ho ⊢
          simp only [ho]

/-- Running a branch. -/
def BR (body : K → Prog V K R R) (p : Name) (σ : Store V) (n : Nat) (nm : Option Name) (c : CT V K R) (T : Table V K R)
    (rd : List (Loc × V)) (T' : Table V K R) (w : Nat) : Prop :=
  match c with
  | .nil => rd = [] ∧ T' = T ∧ w = 0
  | .node key _ _ _ _ res _ _ => mcall (mrun body p σ n) p σ nm key T = some (.ok ⟨res, rd, T', w⟩)

theorem step_run {body : K → Prog V K R R} {p : Name} {σ : Store V} {n : Nat} {nm : Option Name} {c : CT V K R} {T T' : Table V K R}
    {rd : List (Loc × V)} {w : Nat} {g g' : Prog V K R R} (hs : CT.Step g nm c g') (hb : BR body p σ n nm c T rd T' w)
    {o : MOut V K R R} (ho : mexec (mrun body p σ n) p σ g' T' = some (.ok o)) :
    mexec (mrun body p σ n) p σ g T = some (.ok { o with reads := rd ++ o.reads, work := w + o.work }) := by
  cases c with
  | nil =>
    obtain ⟨rfl, rfl, rfl⟩ := hb
    have hs : g' = g := hs
    subst hs
    rw [ho]; simp
  | node key loc cell nl nr res l r =>
    obtain ⟨k, rfl, rfl⟩ := hs
    exact mexec_call hb ho

theorem node_run {body : K → Prog V K R R} {p : Name} {σ : Store V} {n : Nat} {key : K} {loc : Loc} {cell : V} {nl nr : Option Name}
    {res : R} {l r : CT V K R} (hw : CT.WF body (.node key loc cell nl nr res l r)) (hi : CT.In σ (.node key loc cell nl nr res l r))
    {T T1 T2 : Table V K R} {r1 r2 : List (Loc × V)} {w1 w2 : Nat} (h1 : BR body p σ n nl l T r1 T1 w1)
    (h2 : BR body p σ n nr r T1 r2 T2 w2) :
    mrun body p σ (n+1) key T = some (.ok ⟨res, (loc, cell) :: (r1 ++ (r2 ++ [])), T2, w1 + (w2 + 0) + 1⟩) := by
  obtain ⟨⟨k, g, hk, s1, s2⟩, -, -⟩ := hw
  have e1 := step_run s1 h1 (step_run s2 h2 (o := ⟨res, [], T2, 0⟩) rfl)
  unfold mrun
  rw [hk]
  unfold mexec
  simp only [hi.1, e1]

omit [DecidableEq V] [DecidableEq K] in
/-- The plain run of a branch. -/
theorem plain_run {body : K → Prog V K R R} {σ : Store V} : ∀ {c : CT V K R}, CT.WF body c → CT.In σ c → ∀ n, c.size ≤ n →
    ∀ key loc cell nl nr res l r, c = .node key loc cell nl nr res l r → run body σ n key = some (.ok res) := by
  intro c
  induction c with
  | nil => intro _ _ n _ _ _ _ _ _ _ _ _ h; cases h
  | node key loc cell nl nr res l r ihl ihr =>
    rintro hw hi n hn _ _ _ _ _ _ _ _ ⟨⟩
    simp only [CT.size] at hn
    obtain ⟨n, rfl⟩ : ∃ m, n = m + 1 := ⟨n - 1, by omega⟩
    obtain ⟨⟨k, g, hk, s1, s2⟩, wl, wr⟩ := hw
    obtain ⟨hc, il, ir⟩ := hi
    have one : ∀ {g g' : Prog V K R R} {nm : Option Name} {c : CT V K R}, CT.Step g nm c g' →
        (∀ key loc cell nl nr res l r, c = .node key loc cell nl nr res l r → run body σ n key = some (.ok res)) →
        exec (run body σ n) σ g = exec (run body σ n) σ g' := by
      intro g g' nm c hs h
      cases c with
      | nil => have hs : g' = g := hs; rw [hs]
      | node key loc cell nl nr res l r =>
        obtain ⟨k, rfl, rfl⟩ := hs
        conv => lhs; unfold exec
        rw [h _ _ _ _ _ _ _ _ rfl]
    unfold run
    rw [hk]
    unfold exec
    simp only [hc]
    rw [one s1 (ihl wl il n (by omega)), one s2 (ihr wr ir n (by omega))]
    rfl

/-- The stored call is that of the branch, and it has read the branch. -/
def Has (T : Table V K R) (p m : Name) (c : CT V K R) : Prop :=
  match c with
  | .nil => True
  | .node key _ _ _ _ res _ _ => ∃ rd, T p m = some ⟨key, rd, res⟩ ∧ ∀ σ : Store V, CT.In σ c ↔ Agrees rd σ

omit [DecidableEq V] [DecidableEq K] in
theorem point_some (m : Name) (c : CT V K R) (h : c ≠ .nil) : CT.point (some m) c = [(m, c)] := by
  cases c with
  | nil => exact absurd rfl h
  | node => rfl

omit [DecidableEq V] [DecidableEq K] in
theorem point_none (c : CT V K R) : CT.point none c = [] := by
  cases c <;> rfl

omit [DecidableEq V] [DecidableEq K] in
theorem set_other {T : Table V K R} {p n p' n' : Name} {e : Entry V K R} (h : ¬ (p' = p ∧ n' = n)) : T.set p n e p' n' = T p' n' := by
  unfold Table.set; rw [if_neg h]

omit [DecidableEq V] [DecidableEq K] in
theorem set_same {T : Table V K R} {p n : Name} {e : Entry V K R} : T.set p n e p n = some e := by
  unfold Table.set; rw [if_pos ⟨rfl, rfl⟩]

/-- What one run does. -/
structure Ran (p : Name) (c : CT V K R) (names : List Name) (T : Table V K R) (rd : List (Loc × V)) (T' : Table V K R) : Prop where
  /-- other stored calls are left alone -/
  frame : ∀ m, m ∉ names → T' p m = T p m
  /-- other namespaces are left alone -/
  other : ∀ q m, q ≠ p → T' q m = T q m
  /-- it reads what the branch has -/
  reads : ∀ σ : Store V, CT.In σ c ↔ Agrees rd σ

/-! ### The first run -/

theorem first_run {body : K → Prog V K R R} {p : Name} {σ : Store V} : ∀ {c : CT V K R}, CT.WF body c → CT.In σ c → c.memos.Nodup →
    ∀ n T, c.size ≤ n → (∀ m ∈ c.memos, T p m = none) → ∀ key loc cell nl nr res l r, c = .node key loc cell nl nr res l r →
    ∃ rd T', mrun body p σ n key T = some (.ok ⟨res, rd, T', c.size⟩) ∧ Ran p c c.memos T rd T' ∧ ∀ q ∈ c.points, Has T' p q.1 q.2 := by
  intro c
  induction c with
  | nil => intro _ _ _ n _ _ _ _ _ _ _ _ _ _ _ h; cases h
  | node key loc cell nl nr res l r ihl ihr =>
    rintro hw hi hd n T hn hT _ _ _ _ _ _ _ _ ⟨⟩
    simp only [CT.size] at hn
    obtain ⟨n, rfl⟩ : ∃ m, n = m + 1 := ⟨n - 1, by omega⟩
    -- one branch
    have branch : ∀ {nm : Option Name} {c : CT V K R}, CT.WF body c → CT.In σ c →
        (∀ n T, c.size ≤ n → (∀ m ∈ c.memos, T p m = none) → ∀ key loc cell nl nr res l r, c = .node key loc cell nl nr res l r →
          ∃ rd T', mrun body p σ n key T = some (.ok ⟨res, rd, T', c.size⟩) ∧ Ran p c c.memos T rd T' ∧
            ∀ q ∈ c.points, Has T' p q.1 q.2) →
        ∀ T, c.size ≤ n → (∀ m ∈ (CT.point nm c).map (·.1) ++ c.memos, T p m = none) →
          (∀ m ∈ (CT.point nm c).map (·.1), m ∉ c.memos) →
          ∃ rd T', BR body p σ n nm c T rd T' c.size ∧ Ran p c ((CT.point nm c).map (·.1) ++ c.memos) T rd T' ∧
            ∀ q ∈ CT.point nm c ++ c.points, Has T' p q.1 q.2 := by
      intro nm c hw hi ih T hn hT hd
      cases c with
      | nil =>
        refine ⟨[], T, ⟨rfl, rfl, rfl⟩, ⟨fun _ _ => rfl, fun _ _ _ => rfl, fun σ => ⟨fun _ => Agrees.nil σ, fun _ => trivial⟩⟩, ?_⟩
        cases nm <;> simp [CT.point, CT.points]
      | node key loc cell nl nr res l r =>
        obtain ⟨rd, T', h1, h2, h3⟩ := ih n T hn (fun m hm => hT m (List.mem_append_right _ hm)) _ _ _ _ _ _ _ _ rfl
        cases nm with
        | none =>
          refine ⟨rd, T', h1, ?_, ?_⟩
          · rw [point_none]; exact h2
          · rw [point_none]; exact h3
        | some m =>
          rw [point_some m _ (by simp)] at hT hd ⊢
          have hm : m ∉ (CT.node key loc cell nl nr res l r).memos := hd m (by simp)
          have hl : lookup T p m σ key = none := by
            unfold lookup; rw [hT m (by simp)]; rfl
          refine ⟨rd, T'.set p m ⟨key, rd, res⟩, ?_, ⟨?_, ?_, h2.reads⟩, ?_⟩
          · show mcall _ p σ (some m) key T = _
            unfold mcall
            simp only [hl, h1]
          · intro m' hm'
            simp only [List.map_cons, List.map_nil, List.mem_append, List.mem_singleton, not_or] at hm'
            rw [set_other (fun h => hm'.1 h.2)]
            exact h2.frame m' hm'.2
          · intro q m' hq
            rw [set_other (fun h => hq h.1)]
            exact h2.other q m' hq
          · intro q hq
            rw [List.mem_append, List.mem_singleton] at hq
            rcases hq with rfl | hq
            · exact ⟨rd, set_same, h2.reads⟩
            · have h4 := h3 q hq
              have hne : ¬ (p = p ∧ q.1 = m) := fun h => hm (h.2 ▸ List.mem_map_of_mem hq)
              unfold Has at h4 ⊢
              rw [set_other hne]
              exact h4
    have hd' := hd
    simp only [CT.memos, CT.points, List.map_append] at hd hT
    have cnt : ∀ x, ((CT.point nl l).map (·.1)).count x + ((CT.point nr r).map (·.1)).count x + (l.points.map (·.1)).count x +
        (r.points.map (·.1)).count x ≤ 1 := fun x => by
      have := List.nodup_iff_count_le_one.1 hd x
      simp only [List.count_append] at this; omega
    have sep : ∀ {a b : List Name}, (∀ x, a.count x + b.count x ≤ 1) → ∀ x ∈ a, x ∉ b := by
      intro a b h x h1 h2
      have := List.count_pos_iff.2 h1
      have := List.count_pos_iff.2 h2
      have := h x
      omega
    have ndl : l.memos.Nodup := List.nodup_iff_count_le_one.2 fun x => by have := cnt x; unfold CT.memos; omega
    have ndr : r.memos.Nodup := List.nodup_iff_count_le_one.2 fun x => by have := cnt x; unfold CT.memos; omega
    obtain ⟨r1, T1, b1, c1, d1⟩ := branch (nm := nl) hw.2.1 hi.2.1 (ihl hw.2.1 hi.2.1 ndl) T (by omega) (fun m hm => hT m (by
      simp only [List.mem_append, CT.memos] at hm ⊢; tauto)) (sep fun x => by have := cnt x; unfold CT.memos; omega)
    obtain ⟨r2, T2, b2, c2, d2⟩ := branch (nm := nr) hw.2.2 hi.2.2 (ihr hw.2.2 hi.2.2 ndr) T1 (by omega) (fun m hm => by
      rw [c1.frame m]
      · exact hT m (by simp only [List.mem_append, CT.memos] at hm ⊢; tauto)
      · exact sep (a := (CT.point nr r).map (·.1) ++ r.memos) (fun x => by
          have := cnt x; simp only [List.count_append, CT.memos] at *; omega) m hm) (sep fun x => by have := cnt x; unfold CT.memos; omega)
    refine ⟨(loc, cell) :: (r1 ++ (r2 ++ [])), T2, ?_, ⟨?_, ?_, ?_⟩, ?_⟩
    · rw [node_run hw hi b1 b2]
      have : l.size + (r.size + 0) + 1 = (CT.node key loc cell nl nr res l r).size := by simp only [CT.size]; omega
      rw [this]
    · intro m hm
      simp only [CT.memos, CT.points, List.map_append, List.mem_append, not_or] at hm
      rw [c2.frame m (by simp only [CT.memos, List.mem_append, not_or]; tauto),
        c1.frame m (by simp only [CT.memos, List.mem_append, not_or]; tauto)]
    · intro q m hq
      rw [c2.other q m hq, c1.other q m hq]
    · intro σ'
      rw [agrees_cons, agrees_append, agrees_append, ← c1.reads σ', ← c2.reads σ']
      exact ⟨fun h' => ⟨h'.1, h'.2.1, h'.2.2, Agrees.nil _⟩, fun h' => ⟨h'.1, h'.2.1, h'.2.2.1⟩⟩
    · intro q hq
      have hcase : q ∈ CT.point nl l ++ l.points ∨ q ∈ CT.point nr r ++ r.points := by
        simp only [CT.points, List.mem_append] at hq ⊢; tauto
      rcases hcase with h | h
      · have h4 := d1 q h
        have hq1 : q.1 ∈ (CT.point nl l).map (·.1) ++ l.memos := by
          rw [CT.memos, ← List.map_append]; exact List.mem_map_of_mem h
        have := c2.frame q.1 (sep (a := (CT.point nl l).map (·.1) ++ l.memos) (fun x => by
          have := cnt x; simp only [List.count_append, CT.memos] at *; omega) q.1 hq1)
        unfold Has at h4 ⊢
        rw [this]; exact h4
      · exact d2 q h

/-! ### Later runs -/

theorem later_run {body : Name → K → Prog V K R R} {p : Name} {σ : Store V} {old : Name → CT V K R → Bool} : ∀ {c : CT V K R},
    CT.WF (body p) c → CT.In σ c → c.memos.Nodup → ∀ n T, c.size ≤ n → Valid body T →
    (∀ m ∈ c.memos, ∀ w, old m w = true → Has T p m w) → ∀ key loc cell nl nr res l r, c = .node key loc cell nl nr res l r →
    ∃ rd T' w, mrun (body p) p σ n key T = some (.ok ⟨res, rd, T', w⟩) ∧ w ≤ c.cost old ∧ Valid body T' ∧
      (∀ m, m ∉ c.memos → T' p m = T p m) := by
  intro c
  induction c with
  | nil => intro _ _ _ n _ _ _ _ _ _ _ _ _ _ _ _ h; cases h
  | node key loc cell nl nr res l r ihl ihr =>
    rintro hw hi hd n T hn hV hT _ _ _ _ _ _ _ _ ⟨⟩
    have hsz := hn
    simp only [CT.size] at hn
    obtain ⟨n, rfl⟩ : ∃ m, n = m + 1 := ⟨n - 1, by omega⟩
    have branch : ∀ {nm : Option Name} {c : CT V K R}, CT.WF (body p) c → CT.In σ c →
        (∀ n T, c.size ≤ n → Valid body T → (∀ m ∈ c.memos, ∀ w, old m w = true → Has T p m w) →
          ∀ key loc cell nl nr res l r, c = .node key loc cell nl nr res l r →
          ∃ rd T' w, mrun (body p) p σ n key T = some (.ok ⟨res, rd, T', w⟩) ∧ w ≤ c.cost old ∧ Valid body T' ∧
            (∀ m, m ∉ c.memos → T' p m = T p m)) →
        ∀ T, c.size ≤ n → Valid body T →
          (∀ m ∈ (CT.point nm c).map (·.1) ++ c.memos, ∀ w, old m w = true → Has T p m w) →
          ∃ rd T' w, BR (body p) p σ n nm c T rd T' w ∧
            w ≤ (if (CT.point nm c).any (fun q => old q.1 q.2) then 0 else c.cost old) ∧ Valid body T' ∧
            (∀ m, m ∉ (CT.point nm c).map (·.1) ++ c.memos → T' p m = T p m) := by
      intro nm c hw hi ih T hn hV hT
      cases c with
      | nil => exact ⟨[], T, 0, ⟨rfl, rfl, rfl⟩, Nat.zero_le _, hV, fun _ _ => rfl⟩
      | node key loc cell nl nr res l r =>
        cases nm with
        | none =>
          obtain ⟨rd, T', w, h1, h2, h3, h4⟩ := ih n T hn hV (fun m hm => hT m (List.mem_append_right _ hm)) _ _ _ _ _ _ _ _ rfl
          exact ⟨rd, T', w, h1, by rw [point_none]; exact h2, h3, by rw [point_none]; exact h4⟩
        | some m =>
          rw [point_some m _ (by simp)] at hT ⊢
          have hp := plain_run hw hi n hn _ _ _ _ _ _ _ _ rfl
          cases hl : lookup T p m σ key with
          | some e =>
            obtain ⟨q1, q2, q3⟩ := lookup_some hl
            obtain ⟨N, hN⟩ := hV p m e q1
            have hres := run_unique hp (q2 ▸ hN σ q3)
            simp only [Except.ok.injEq] at hres
            refine ⟨e.reads, T, 0, ?_, Nat.zero_le _, hV, fun _ _ => rfl⟩
            show mcall _ p σ (some m) key T = _
            unfold mcall
            simp only [hl, hres]
          | none =>
            have hno : old m (.node key loc cell nl nr res l r) = false := by
              cases ho : old m (.node key loc cell nl nr res l r) with
              | false => rfl
              | true =>
                obtain ⟨rd, q1, q2⟩ := hT m (by simp) _ ho
                have := lookup_hit q1 ((q2 σ).1 hi)
                simp only [hl] at this
                cases this
            obtain ⟨rd, T', w, h1, h2, h3, h4⟩ := ih n T hn hV (fun m hm => hT m (List.mem_append_right _ hm)) _ _ _ _ _ _ _ _ rfl
            have hg : Good body σ _ _ _ := mrun_good n key T _ hV hp
            rw [h1] at hg
            obtain ⟨o, g1, g2, g3, g4, g5⟩ := hg
            simp only [Option.some.injEq, Except.ok.injEq] at g1
            subst g1
            refine ⟨rd, T'.set p m ⟨key, rd, res⟩, w, ?_, ?_, h3.set g5, ?_⟩
            · show mcall _ p σ (some m) key T = _
              unfold mcall
              simp only [hl, h1]
            · simp only [List.any_cons, hno, List.any_nil, Bool.or_self, Bool.false_eq_true, if_false]; exact h2
            · intro m' hm'
              simp only [List.map_cons, List.map_nil, List.mem_append, List.mem_singleton, not_or] at hm'
              rw [set_other (fun h => hm'.1 h.2)]
              exact h4 m' hm'.2
    simp only [CT.memos, CT.points, List.map_append] at hd hT
    have cnt : ∀ x, ((CT.point nl l).map (·.1)).count x + ((CT.point nr r).map (·.1)).count x + (l.points.map (·.1)).count x +
        (r.points.map (·.1)).count x ≤ 1 := fun x => by
      have := List.nodup_iff_count_le_one.1 hd x
      simp only [List.count_append] at this; omega
    have sep : ∀ {a b : List Name}, (∀ x, a.count x + b.count x ≤ 1) → ∀ x ∈ a, x ∉ b := by
      intro a b h x h1 h2
      have := List.count_pos_iff.2 h1
      have := List.count_pos_iff.2 h2
      have := h x
      omega
    have ndl : l.memos.Nodup := List.nodup_iff_count_le_one.2 fun x => by have := cnt x; unfold CT.memos; omega
    have ndr : r.memos.Nodup := List.nodup_iff_count_le_one.2 fun x => by have := cnt x; unfold CT.memos; omega
    obtain ⟨r1, T1, w1, b1, c1, d1, e1⟩ := branch (nm := nl) hw.2.1 hi.2.1 (ihl hw.2.1 hi.2.1 ndl) T (by omega) hV (fun m hm => hT m (by
      simp only [List.mem_append, CT.memos] at hm ⊢; tauto))
    obtain ⟨r2, T2, w2, b2, c2, d2, e2⟩ := branch (nm := nr) hw.2.2 hi.2.2 (ihr hw.2.2 hi.2.2 ndr) T1 (by omega) d1 (fun m hm w ho => by
      have h4 := hT m (by simp only [List.mem_append, CT.memos] at hm ⊢; tauto) w ho
      have := e1 m (sep (a := (CT.point nr r).map (·.1) ++ r.memos) (fun x => by
          have := cnt x; simp only [List.count_append, CT.memos] at *; omega) m hm)
      unfold Has at h4 ⊢
      rw [this]; exact h4)
    refine ⟨_, T2, _, node_run hw hi b1 b2, ?_, d2, ?_⟩
    · simp only [CT.cost]; omega
    · intro m hm
      simp only [CT.memos, CT.points, List.map_append, List.mem_append, not_or] at hm
      rw [e2 m (by simp only [CT.memos, List.mem_append, not_or]; tauto),
        e1 m (by simp only [CT.memos, List.mem_append, not_or]; tauto)]

end

/-! ### Folds -/

/-- The handle of a branch. -/
def rootH : Tree (Tr × D) → Option Tr
  | .nil => none
  | .node _ _ (h, _) _ _ => some h

def CT.res? : CT V K R → Option R
  | .nil => none
  | .node _ _ _ _ _ res _ _ => some res

def CT.resOr (a : R) : CT V K R → R
  | .nil => a
  | .node _ _ _ _ _ res _ _ => res

/-- The calls of `fold_up_meta`. -/
def ctUp (F : Fns D R) : Tree (Tr × D) → Option (CT (Cell D X) (Key R) R)
  | .nil => some .nil
  | .node lv n (h, d) l r =>
    match ctUp F l, ctUp F r with
    | some cl, some cr =>
      match F.up cl.res? d lv n cr.res? with
      | .ok x => some (.node (.up h) h.link (.node d (rootH l) (rootH r)) (n.map .forkL) (n.map .forkR) x cl cr)
      | .error _ => none
    | _, _ => none

/-- The calls of `fold_lr_meta`. -/
def ctLr (F : Fns D R) : Option Name → R → Tree (Tr × D) → CT (Cell D X) (Key R) R
  | _, _, .nil => .nil
  | start, a, .node lv n (h, d) l r =>
    if (rootH l).isSome || (rootH r).isSome then
      let cl := ctLr F start a l
      let a' := F.lr (cl.resOr a) d lv n
      let cr := ctLr F n a' r
      .node (.lr h start a) h.link (.node d (rootH l) (rootH r)) (n.map .forkL) (n.map .forkR) (cr.resOr a') cl cr
    else .node (.lr h start a) h.link (.node d none none) (n.map .forkL) (n.map .forkR) (F.lr a d lv start) .nil .nil

theorem View.root {σ : Mem D X} {h : Option Tr} {v : Tree (Tr × D)} (hv : View σ h v) : rootH v = h := by
  cases hv <;> rfl

theorem forks_eq (n : Option Name) : forks n = (n.map .forkL, n.map .forkR) := by cases n <;> rfl

theorem ctUp_node {F : Fns D R} {lv : Nat} {n : Option Name} {h : Tr} {d : D} {l r : Tree (Tr × D)} {c : CT (Cell D X) (Key R) R}
    (hc : ctUp F (.node lv n (h, d) l r) = some c) : ∃ cl cr x, ctUp F l = some cl ∧ ctUp F r = some cr ∧
      F.up cl.res? d lv n cr.res? = .ok x ∧
      c = .node (.up h) h.link (.node d (rootH l) (rootH r)) (n.map .forkL) (n.map .forkR) x cl cr := by
  unfold ctUp at hc
  cases hl : (ctUp F l : Option (CT (Cell D X) (Key R) R)) with
  | none => rw [hl] at hc; cases hc
  | some cl =>
    cases hr : (ctUp F r : Option (CT (Cell D X) (Key R) R)) with
    | none => rw [hl, hr] at hc; cases hc
    | some cr =>
      rw [hl, hr] at hc
      simp only at hc
      cases hx : F.up cl.res? d lv n cr.res? with
      | error q => rw [hx] at hc; cases hc
      | ok x => rw [hx] at hc; cases hc; exact ⟨cl, cr, x, rfl, rfl, hx, rfl⟩

theorem ctUp_nil {F : Fns D R} {c : CT (Cell D X) (Key R) R} {v : Tree (Tr × D)} (hc : ctUp F v = some c) : c = .nil ↔ v = .nil := by
  cases v with
  | nil => cases hc; simp
  | node lv n d l r =>
    obtain ⟨cl, cr, x, -, -, -, rfl⟩ := ctUp_node hc
    simp

/-- The calls exist if the fold does not panic. -/
theorem ctUp_exists {F : Fns D R} : ∀ {v : Tree (Tr × D)} {x : Option R}, (plain v).foldUpMeta F.up = .ok x →
    ∃ c : CT (Cell D X) (Key R) R, ctUp F v = some c ∧ c.res? = x := by
  intro v
  induction v with
  | nil => intro x h; cases h; exact ⟨.nil, rfl, rfl⟩
  | node lv n d l r ihl ihr =>
    obtain ⟨h, d⟩ := d
    intro x hx
    simp only [plain, Tree.foldUpMeta] at hx
    obtain ⟨a, h1, hx⟩ := bind_ok.1 hx
    obtain ⟨b, h2, hx⟩ := bind_ok.1 hx
    obtain ⟨y, h3, hx⟩ := bind_ok.1 hx
    cases hx
    obtain ⟨cl, k1, rfl⟩ := ihl h1
    obtain ⟨cr, k2, rfl⟩ := ihr h2
    refine ⟨_, by unfold ctUp; simp only [k1, k2, h3]; rfl, rfl⟩

theorem ctUp_wf {F : Fns D R} {σ : Mem D X} : ∀ {v : Tree (Tr × D)} {h : Option Tr} {c : CT (Cell D X) (Key R) R}, View σ h v →
    ctUp F v = some c → CT.WF (foldBody F) c ∧ CT.In σ c ∧ c.size = v.size := by
  intro v
  induction v with
  | nil => intro h c _ hc; cases hc; exact ⟨trivial, trivial, rfl⟩
  | node lv n d l r ihl ihr =>
    intro h c hv hc
    cases hv with
    | @node h d hl hr _ _ h1 hvl hvr =>
      obtain ⟨cl, cr, x, k1, k2, k3, rfl⟩ := ctUp_node hc
      obtain ⟨w1, i1, s1⟩ := ihl hvl k1
      obtain ⟨w2, i2, s2⟩ := ihr hvr k2
      refine ⟨⟨⟨_, upBranch (h.name.map .forkR) hr fun b => match F.up cl.res? d h.level h.name b with
        | .ok x => .ret x
        | .error p => .fail p, rfl, ?_, ?_⟩, w1, w2⟩, ⟨?_, i1, i2⟩, ?_⟩
      · simp only [hvl.root, hvr.root, forks_eq]
        cases hvl with
        | nil => cases k1; exact rfl
        | node => obtain ⟨_, _, _, -, -, -, rfl⟩ := ctUp_node k1; exact ⟨_, rfl, rfl⟩
      · cases hvr with
        | nil =>
          cases k2
          have k3 : F.up cl.res? d h.level h.name none = .ok x := k3
          simp only [upBranch, CT.Step, k3]
        | node =>
          obtain ⟨_, _, y, -, -, -, rfl⟩ := ctUp_node k2
          have k3 : F.up cl.res? d h.level h.name (some y) = .ok x := k3
          exact ⟨_, rfl, by simp only [k3]⟩
      · rw [hvl.root, hvr.root]; exact h1
      · simp only [CT.size, Tree.size, s1, s2]; omega

theorem ctUp_points {F : Fns D R} : ∀ {v : Tree (Tr × D)} {c : CT (Cell D X) (Key R) R}, ctUp F v = some c →
    c.points.map (fun q => (q.1, some q.2)) = (points v).map (fun q => (q.1, ctUp F q.2)) := by
  intro v
  have one : ∀ {nm : Option Name} {v : Tree (Tr × D)} {c : CT (Cell D X) (Key R) R}, ctUp F v = some c →
      (CT.point nm c).map (fun q => (q.1, some q.2)) = (point nm v).map (fun q => (q.1, ctUp F q.2)) := by
    intro nm v c h
    cases v with
    | nil => cases h; cases nm <;> rfl
    | node lv n d l r =>
      obtain ⟨h', d⟩ := d
      have h0 := h
      obtain ⟨cl, cr, x, -, -, -, rfl⟩ := ctUp_node h
      cases nm with
      | none => rfl
      | some m => simp only [CT.point, point, List.map_cons, List.map_nil, h0]
  induction v with
  | nil => intro c h; cases h; rfl
  | node lv n d l r ihl ihr =>
    obtain ⟨h', d⟩ := d
    intro c h
    obtain ⟨cl, cr, x, k1, k2, -, rfl⟩ := ctUp_node h
    simp only [CT.points, points, List.map_append, one k1, one k2, ihl k1, ihr k2]

theorem ctUp_memos {F : Fns D R} {v : Tree (Tr × D)} {c : CT (Cell D X) (Key R) R} (h : ctUp F v = some c) :
    c.memos = (points v).map (·.1) := by
  have := congrArg (List.map Prod.fst) (ctUp_points h)
  simpa [List.map_map, Function.comp_def, CT.memos] using this

theorem memos_count : ∀ (v : Tree D) (x : Name), ((points v).map (·.1)).count x ≤
    match x with
    | .forkL n => (nodeNames v).count n
    | .forkR n => (nodeNames v).count n
    | _ => 0 := by
  intro v x
  have one : ∀ (f : Name → Name) (n : Option Name) (c : Tree D), ((point (n.map f) c).map (·.1)).count x ≤ (n.toList.map f).count x := by
    intro f n c
    cases n with
    | none => cases c <;> simp [point]
    | some m => cases c <;> simp [point]
  induction v with
  | nil => cases x <;> simp [points, nodeNames]
  | node lv n d l r ihl ihr =>
    have a := one .forkL n l
    have b := one .forkR n r
    have fl : ∀ m, (n.toList.map Name.forkL).count (.forkL m) = n.toList.count m := by
      intro m; cases n <;> simp [List.count_singleton]
    have fr : ∀ m, (n.toList.map Name.forkR).count (.forkR m) = n.toList.count m := by
      intro m; cases n <;> simp [List.count_singleton]
    have no : ∀ (f : Name → Name), (∀ m, f m ≠ x) → (n.toList.map f).count x = 0 := by
      intro f hf
      rw [List.count_eq_zero]
      intro hm
      obtain ⟨m, -, hm⟩ := List.mem_map.1 hm
      exact hf m hm
    simp only [points, nodeNames, List.map_append, List.count_append]
    cases x with
    | forkL m =>
      rw [fl] at a; rw [no .forkR (by simp)] at b
      simp only at *; omega
    | forkR m =>
      rw [fr] at b; rw [no .forkL (by simp)] at a
      simp only at *; omega
    | _ =>
      rw [no .forkR (by simp)] at b
      rw [no .forkL (by simp)] at a
      simp only at *; omega

theorem memos_nodup {v : Tree D} (h : (nodeNames v).Nodup) : ((points v).map (·.1)).Nodup := by
  rw [List.nodup_iff_count_le_one] at h ⊢
  intro x
  have := memos_count v x
  cases x with
  | forkL n => exact Nat.le_trans this (h n)
  | forkR n => exact Nat.le_trans this (h n)
  | _ => simp only at this; omega

theorem ctUp_cost [DecidableEq D] {F : Fns D R} {old : List (Name × Tree (Tr × D))} {oldc : Name → CT (Cell D X) (Key R) R → Bool}
    (ho : ∀ m w c, (m, w) ∈ old → ctUp F w = some c → oldc m c = true) : ∀ {v : Tree (Tr × D)} {c : CT (Cell D X) (Key R) R},
    ctUp F v = some c → c.cost oldc ≤ cost old v := by
  intro v
  have one : ∀ {nm : Option Name} {v : Tree (Tr × D)} {c : CT (Cell D X) (Key R) R}, ctUp F v = some c → c.cost oldc ≤ cost old v →
      (if (CT.point nm c).any (fun q => oldc q.1 q.2) then 0 else c.cost oldc) ≤
        (if (point nm v).any (· ∈ old) then 0 else cost old v) := by
    intro nm v c h hle
    split
    · exact Nat.zero_le _
    · rename_i hn
      split
      · rename_i hy
        exfalso; apply hn
        rw [List.any_eq_true] at hy ⊢
        obtain ⟨q, hq, hq'⟩ := hy
        cases nm with
        | none => cases v <;> simp [point] at hq
        | some m =>
          cases v with
          | nil => simp [point] at hq
          | node lv n d l r =>
            simp only [point, List.mem_singleton] at hq
            subst hq
            have hne : c ≠ .nil := fun hc => by have := (ctUp_nil h).1 hc; cases this
            exact ⟨(m, c), by rw [point_some m c hne]; simp, ho m _ c (by simpa using hq') h⟩
      · exact hle
  induction v with
  | nil => intro c h; cases h; exact Nat.le_refl _
  | node lv n d l r ihl ihr =>
    obtain ⟨h', d⟩ := d
    intro c h
    obtain ⟨cl, cr, x, k1, k2, -, rfl⟩ := ctUp_node h
    have a := one (nm := n.map .forkL) k1 (ihl k1)
    have b := one (nm := n.map .forkR) k2 (ihr k2)
    simp only [CT.cost, cost]; omega

/-! Left folds -/

theorem rootH_plain (v : Tree (Tr × D)) : (rootH v).isSome = (plain v).isSome := by
  cases v <;> rfl

theorem rootH_none {v : Tree (Tr × D)} (h : (rootH v).isSome = false) : v = .nil := by
  cases v with
  | nil => rfl
  | node => cases h

theorem ctLr_res {F : Fns D R} : ∀ (v : Tree (Tr × D)) (start : Option Name) (a : R),
    (ctLr F start a v : CT (Cell D X) (Key R) R).resOr a = (plain v).foldLrMeta F.lr start a := by
  intro v
  induction v with
  | nil => intro start a; rfl
  | node lv n d l r ihl ihr =>
    obtain ⟨h, d⟩ := d
    intro start a
    simp only [ctLr, plain, Tree.foldLrMeta, rootH_plain]
    split
    · show CT.resOr _ _ = _
      rw [← ihl, ← ihr]
      rfl
    · rfl

theorem ctLr_nil {F : Fns D R} {v : Tree (Tr × D)} {start : Option Name} {a : R} :
    (ctLr F start a v : CT (Cell D X) (Key R) R) = .nil ↔ v = .nil := by
  cases v with
  | nil => simp [ctLr]
  | node lv n d l r => simp only [ctLr]; split <;> simp

theorem ctLr_key {F : Fns D R} {h : Tr} {d : D} {lv : Nat} {n : Option Name} {l r : Tree (Tr × D)} {start : Option Name} {a : R} :
    ∃ loc cell nl nr res cl cr, (ctLr F start a (.node lv n (h, d) l r) : CT (Cell D X) (Key R) R) =
      .node (.lr h start a) loc cell nl nr res cl cr := by
  simp only [ctLr]
  split
  · exact ⟨_, _, _, _, _, _, _, rfl⟩
  · exact ⟨_, _, _, _, _, _, _, rfl⟩

theorem ctLr_wf {F : Fns D R} {σ : Mem D X} : ∀ {v : Tree (Tr × D)} {h : Option Tr} (start : Option Name) (a : R), View σ h v →
    CT.WF (foldBody F) (ctLr F start a v : CT (Cell D X) (Key R) R) ∧ CT.In σ (ctLr F start a v : CT (Cell D X) (Key R) R) ∧
      (ctLr F start a v : CT (Cell D X) (Key R) R).size = v.size := by
  intro v
  induction v with
  | nil => intro h start a _; exact ⟨trivial, trivial, rfl⟩
  | node lv n d l r ihl ihr =>
    intro h start a hv
    cases hv with
    | @node h d hl hr _ _ h1 hvl hvr =>
      obtain ⟨w1, i1, s1⟩ := ihl start a hvl
      have step : ∀ {hc : Option Tr} {c : Tree (Tr × D)} {nm start : Option Name} {a : R} {k : R → Prog (Cell D X) (Key R) R R},
          View σ hc c → CT.Step (lrBranch nm start a hc k) nm (ctLr F start a c)
            (k ((ctLr F start a c : CT (Cell D X) (Key R) R).resOr a)) := by
        intro hc c nm start a k hcv
        cases hcv with
        | nil => exact rfl
        | node =>
          obtain ⟨_, _, _, _, res, _, _, e⟩ := ctLr_key (F := F) (X := X)
          rw [e]
          exact ⟨k, rfl, rfl⟩
      simp only [ctLr]
      by_cases hc : ((rootH l).isSome || (rootH r).isSome) = true
      · rw [if_pos hc]
        obtain ⟨w2, i2, s2⟩ := ihr h.name (F.lr ((ctLr F start a l : CT (Cell D X) (Key R) R).resOr a) d h.level h.name) hvr
        refine ⟨⟨⟨_, _, rfl, ?_, step hvr (k := .ret)⟩, w1, w2⟩, ⟨by rw [hvl.root, hvr.root]; exact h1, i1, i2⟩, ?_⟩
        · simp only [hc, if_true]
          rw [hvl.root, hvr.root, forks_eq]
          exact step hvl (k := fun a => lrBranch (h.name.map .forkR) h.name (F.lr a d h.level h.name) hr fun a => .ret a)
        · simp only [CT.size, Tree.size, s1, s2]; omega
      · rw [if_neg hc]
        have hc' := hc
        simp only [Bool.or_eq_true, not_or, Bool.not_eq_true] at hc'
        have e1 := rootH_none hc'.1
        have e2 := rootH_none hc'.2
        subst e1 e2
        cases hvl
        cases hvr
        refine ⟨⟨⟨_, _, rfl, rfl, rfl⟩, trivial, trivial⟩, ⟨h1, trivial, trivial⟩, rfl⟩

theorem ctLr_points {F : Fns D R} : ∀ (v : Tree (Tr × D)) (start : Option Name) (a : R),
    (ctLr F start a v : CT (Cell D X) (Key R) R).points = (pointsLr F.lr start a v).map (fun q => (q.1, ctLr F q.2.1 q.2.2.1 q.2.2.2)) := by
  intro v
  have one : ∀ (nm start : Option Name) (a : R) (v : Tree (Tr × D)),
      CT.point nm (ctLr F start a v : CT (Cell D X) (Key R) R) =
        (pointLr nm start a v).map (fun q => (q.1, ctLr F q.2.1 q.2.2.1 q.2.2.2)) := by
    intro nm start a v
    cases nm with
    | none => rw [point_none]; cases v <;> rfl
    | some m =>
      cases v with
      | nil => rfl
      | node lv n d l r =>
        rw [point_some _ _ (fun h => by have := ctLr_nil.1 h; cases this)]
        rfl
  induction v with
  | nil => intro start a; rfl
  | node lv n d l r ihl ihr =>
    obtain ⟨h, d⟩ := d
    intro start a
    simp only [ctLr, pointsLr]
    by_cases hc : ((rootH l).isSome || (rootH r).isSome) = true
    · rw [if_pos hc]
      simp only [CT.points, List.map_append, one, ihl, ihr, ctLr_res, afterNode]
    · rw [if_neg hc]
      simp only [Bool.or_eq_true, not_or, Bool.not_eq_true] at hc
      rw [rootH_none hc.1, rootH_none hc.2]
      cases n <;> rfl

theorem ctLr_memos {F : Fns D R} : ∀ (v : Tree (Tr × D)) (start : Option Name) (a : R),
    (ctLr F start a v : CT (Cell D X) (Key R) R).memos = (points v).map (·.1) := by
  intro v
  have one : ∀ (nm start : Option Name) (a : R) (v : Tree (Tr × D)), (pointLr nm start a v).map (·.1) = (point nm v).map (·.1) := by
    intro nm start a v; cases nm <;> cases v <;> rfl
  have all : ∀ (v : Tree (Tr × D)) (start : Option Name) (a : R), (pointsLr F.lr start a v).map (·.1) = (points v).map (·.1) := by
    intro v
    induction v with
    | nil => intro start a; rfl
    | node lv n d l r ihl ihr =>
      intro start a
      simp only [pointsLr, points, List.map_append, one, ihl, ihr]
  intro start a
  rw [CT.memos, ctLr_points, List.map_map, ← all v start a]
  rfl

theorem ctLr_cost [DecidableEq D] [DecidableEq R] {F : Fns D R} {old : List (Name × Option Name × R × Tree (Tr × D))}
    {oldc : Name → CT (Cell D X) (Key R) R → Bool} (ho : ∀ m s a w, (m, s, a, w) ∈ old → oldc m (ctLr F s a w) = true) :
    ∀ (v : Tree (Tr × D)) (start : Option Name) (a : R),
      (ctLr F start a v : CT (Cell D X) (Key R) R).cost oldc ≤ costLr F.lr old start a v := by
  intro v
  have one : ∀ {nm : Option Name} {v : Tree (Tr × D)} {s : Option Name} {a : R},
      (ctLr F s a v : CT (Cell D X) (Key R) R).cost oldc ≤ costLr F.lr old s a v →
      (if (CT.point nm (ctLr F s a v : CT (Cell D X) (Key R) R)).any (fun q => oldc q.1 q.2) then 0
        else (ctLr F s a v : CT (Cell D X) (Key R) R).cost oldc) ≤
        (if (pointLr nm s a v).any (· ∈ old) then 0 else costLr F.lr old s a v) := by
    intro nm v s a hle
    split
    · exact Nat.zero_le _
    · rename_i hn
      split
      · rename_i hy
        exfalso; apply hn
        rw [List.any_eq_true] at hy ⊢
        obtain ⟨q, hq, hq'⟩ := hy
        cases nm with
        | none => cases v <;> simp [pointLr] at hq
        | some m =>
          cases v with
          | nil => simp [pointLr] at hq
          | node lv n d l r =>
            simp only [pointLr, List.mem_singleton] at hq
            subst hq
            exact ⟨(m, ctLr F s a (.node lv n d l r)), by
              rw [point_some m _ (fun h => by have := ctLr_nil.1 h; cases this)]; simp, ho m _ _ _ (by simpa using hq')⟩
      · exact hle
  induction v with
  | nil => intro start a; exact Nat.le_refl _
  | node lv n d l r ihl ihr =>
    obtain ⟨h, d⟩ := d
    intro start a
    simp only [ctLr, costLr]
    by_cases hc : ((rootH l).isSome || (rootH r).isSome) = true
    · rw [if_pos hc]
      have h1 := one (nm := n.map .forkL) (ihl start a)
      have h2 := one (nm := n.map .forkR) (ihr n (afterNode F.lr start a lv n d l))
      simp only [CT.cost, ctLr_res]
      unfold afterNode at *
      omega
    · rw [if_neg hc]
      simp only [CT.cost, ite_self]
      omega

theorem near_cost [DecidableEq D] {v w : Tree D} {k : Nat} (h : Near v w k) : ∀ old : List (Name × Tree D), (∀ q ∈ points v, q ∈ old) →
    cost old w ≤ k := by
  have size : ∀ (old : List (Name × Tree D)) (w : Tree D), cost old w ≤ w.size := by
    intro old w
    induction w with
    | nil => exact Nat.le_refl _
    | node lv n d l r ihl ihr => simp only [cost, Tree.size]; split <;> split <;> omega
  have known : ∀ (old : List (Name × Tree D)) (m : Name) (c : Tree D), (∀ q ∈ point (some m) c, q ∈ old) →
      (if (point (some m) c).any (· ∈ old) then 0 else cost old c) = 0 := by
    intro old m c h
    cases c with
    | nil => simp [point, cost]
    | node lv n d l r => rw [if_pos]; simpa [point] using h
  induction h with
  | here v w => intro old _; exact size old w
  | left h ih =>
    intro old ho
    have h1 := ih old (fun q hq => ho q (by simp only [points, List.mem_append]; tauto))
    have h2 := known old _ _ (fun q hq => ho q (by
      simp only [points, Option.map_some, List.mem_append]; exact .inl (.inl (.inr hq))))
    simp only [cost, Option.map_some]
    rw [h2]
    split <;> omega
  | right h ih =>
    intro old ho
    have h1 := ih old (fun q hq => ho q (by simp only [points, List.mem_append]; tauto))
    have h2 := known old _ _ (fun q hq => ho q (by
      simp only [points, Option.map_some, List.mem_append]; exact .inl (.inl (.inl hq))))
    simp only [cost, Option.map_some]
    rw [h2]
    split <;> omega

theorem nearLr_cost [DecidableEq D] [DecidableEq R] {f : R → D → Nat → Option Name → R} {v w : Tree (Tr × D)} {k : Nat}
    (h : NearLr f v w k) : ∀ (old : List (Name × Option Name × R × Tree (Tr × D))) (start : Option Name) (a : R),
      (∀ q ∈ pointsLr f start a v, q ∈ old) → costLr f old start a w ≤ k := by
  have size : ∀ (old : List (Name × Option Name × R × Tree (Tr × D))) (w : Tree (Tr × D)) (start : Option Name) (a : R),
      costLr f old start a w ≤ w.size := by
    intro old w
    induction w with
    | nil => intro _ _; exact Nat.le_refl _
    | node lv n d l r ihl ihr =>
      intro start a
      have h1 := ihl start a
      have h2 := ihr n (afterNode f start a lv n d.2 l)
      simp only [costLr, Tree.size]; split <;> split <;> omega
  have known : ∀ (old : List (Name × Option Name × R × Tree (Tr × D))) (m : Name) (start : Option Name) (a : R) (c : Tree (Tr × D)),
      (∀ q ∈ pointLr (some m) start a c, q ∈ old) →
      (if (pointLr (some m) start a c).any (· ∈ old) then 0 else costLr f old start a c) = 0 := by
    intro old m start a c h
    cases c with
    | nil => simp [pointLr, costLr]
    | node lv n d l r => rw [if_pos]; simpa [pointLr] using h
  induction h with
  | here v w => intro old start a _; exact size old w start a
  | @left lv lv' n d d' l l' k r r' h ih =>
    intro old start a ho
    have h1 := ih old start a (fun q hq => ho q (by simp only [pointsLr, List.mem_append]; tauto))
    have h2 := size old r' (some n) (afterNode f start a lv' (some n) d'.2 l')
    simp only [costLr]
    split <;> split <;> omega
  | @right lv lv' n d d' l r r' k hf h ih =>
    intro old start a ho
    have e : afterNode f start a lv (some n) d.2 l = afterNode f start a lv' (some n) d'.2 l := hf _
    have h1 := ih old (some n) (afterNode f start a lv (some n) d.2 l)
      (fun q hq => ho q (by simp only [pointsLr, List.mem_append]; tauto))
    have h2 := known old (.forkL n) start a l (fun q hq => ho q (by
      simp only [pointsLr, Option.map_some, List.mem_append]; exact .inl (.inl (.inl hq))))
    simp only [costLr, Option.map_some]
    rw [h2, ← e]
    split <;> omega

/-! Where the trees come from -/

theorem view_exists {e : Engine} {σ : Mem D X} : ∀ {t : Tree D} {h : Option Tr}, RepT e σ h t →
    ∃ v, View σ h v ∧ plain v = t ∧ nodeNames v = nodeNames t := by
  intro t
  induction t with
  | nil => rintro h rfl; exact ⟨.nil, .nil, rfl, rfl⟩
  | node lv n d l r ihl ihr =>
    rintro h ⟨k, hl, hr, rfl, -, hc, h1, h2⟩
    obtain ⟨vl, a1, a2, a3⟩ := ihl h1
    obtain ⟨vr, b1, b2, b3⟩ := ihr h2
    exact ⟨_, View.node (h := ⟨lv, n, k⟩) hc a1 b1, by simp only [plain, a2, b2], by simp only [nodeNames, a3, b3]⟩

theorem names_count : ∀ (t : Tree D) (x : Name), (nodeNames t).count x = (Heap.tN .dcg t).count x := by
  intro t x
  induction t with
  | nil => rfl
  | node lv n d l r ihl ihr => simp only [nodeNames, Heap.tN, Heap.nm, List.count_append, ihl, ihr]; omega

end Iodyn.Incr
