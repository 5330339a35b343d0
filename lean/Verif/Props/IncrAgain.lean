import Verif.Proof.IncrAgain
import Verif.Props.Incr
/-
C60 the work of every fold of a long session.
-/
namespace Iodyn.Incr
open Iodyn.Heap
variable {E M R C D X : Type} [DecidableEq D] [DecidableEq X] [DecidableEq R]

omit [DecidableEq R] in
theorem mrun_det {V K : Type} [DecidableEq V] [DecidableEq K] {body : K → Prog V K R R} {p : Name} {σ : Store V} {n m : Nat} {key : K}
    {T : Table V K R} {o o' : MOut V K R R} (h : mrun body p σ n key T = some (.ok o)) (h' : mrun body p σ m key T = some (.ok o')) :
    o = o' := by
  have h1 := mrun_mono (Nat.le_max_left n m) h
  have h2 := mrun_mono (Nat.le_max_right n m) h'
  rw [h1] at h2
  cases h2
  rfl

omit [DecidableEq R] in
theorem mrun_other {V K : Type} [DecidableEq V] [DecidableEq K] {body : K → Prog V K R R} {p q : Name} (hq : q ≠ p) {σ : Store V} :
    ∀ {n : Nat} {key : K} {T : Table V K R} {o : MOut V K R R}, mrun body q σ n key T = some (.ok o) → o.table p = T p := by
  have ex : ∀ {A : Type} {callee : K → Table V K R → Option (P (MOut V K R R))},
      (∀ key T o, callee key T = some (.ok o) → o.table p = T p) → ∀ (g : Prog V K R A) (T : Table V K R) (o : MOut V K R A),
        mexec callee q σ g T = some (.ok o) → o.table p = T p := by
    intro A callee hc g
    induction g with
    | ret a => intro T o h; cases h; rfl
    | fail e => intro T o h; cases h
    | force l k ih =>
      intro T o h
      unfold mexec at h
      split at h
      · cases h
      · next v _ =>
        cases hm : mexec callee q σ (k v) T with
        | none => simp only [hm] at h; cases h
        | some y =>
          cases y with
          | error e => simp only [hm] at h; cases h
          | ok o1 => simp only [hm] at h; cases h; exact ih v T o1 hm
    | call nm key k ih =>
      intro T o h
      cases nm with
      | none =>
        unfold mexec at h
        cases hcall : callee key T with
        | none => simp only [hcall] at h; cases h
        | some y =>
          cases y with
          | error e => simp only [hcall] at h; cases h
          | ok c =>
            simp only [hcall] at h
            cases hm : mexec callee q σ (k c.val) c.table with
            | none => simp only [hm] at h; cases h
            | some y =>
              cases y with
              | error e => simp only [hm] at h; cases h
              | ok o1 =>
                simp only [hm] at h; cases h
                exact (ih c.val c.table o1 hm).trans (hc key T c hcall)
      | some nm =>
        unfold mexec at h
        cases hl : lookup T q nm σ key with
        | some e =>
          simp only [hl] at h
          cases hm : mexec callee q σ (k e.res) T with
          | none => simp only [hm] at h; cases h
          | some y =>
            cases y with
            | error e => simp only [hm] at h; cases h
            | ok o1 => simp only [hm] at h; cases h; exact ih e.res T o1 hm
        | none =>
          simp only [hl] at h
          cases hcall : callee key T with
          | none => simp only [hcall] at h; cases h
          | some y =>
            cases y with
            | error e => simp only [hcall] at h; cases h
            | ok c =>
              simp only [hcall] at h
              cases hm : mexec callee q σ (k c.val) (c.table.set q nm ⟨key, c.reads, c.val⟩) with
              | none => simp only [hm] at h; cases h
              | some y =>
                cases y with
                | error e => simp only [hm] at h; cases h
                | ok o1 =>
                  simp only [hm] at h; cases h
                  refine (ih c.val _ o1 hm).trans (Eq.trans ?_ (hc key T c hcall))
                  funext m
                  exact set_other (fun h => hq h.1.symm)
  intro n
  induction n with
  | zero => intro key T o h; cases h
  | succ n ih =>
    intro key T o h
    unfold mrun at h
    cases hm : mexec (mrun body q σ n) q σ (body key) T with
    | none => simp only [hm] at h; cases h
    | some y =>
      cases y with
      | error e => simp only [hm] at h; cases h
      | ok o1 => simp only [hm] at h; cases h; exact ex (fun key T o h => ih h) (body key) T o1 hm

/-- What the stored calls are after a history. -/
structure Kept (body : Name → Key R → Prog (Cell D X) (Key R) R R) (p : Name) (T : Table (Cell D X) (Key R) R)
    (ct : Tree (Tr × D) → Option (CT (Cell D X) (Key R) R)) (vs : List (Tree (Tr × D))) : Prop where
  valid : Valid body T
  full : ∀ v ∈ vs.head?, ∃ c, ct v = some c ∧ (∃ (σ : Mem D X) (h : Tr), View σ (some h) v) ∧ Full T p c
  dom : ∀ m, T p m ≠ none → ∃ w ∈ vs, m ∈ memoNames w

theorem kept_other {F : Name → Fns D R} {p q : Name} {T : Table (Cell D X) (Key R) R} {ct : Tree (Tr × D) → Option (CT (Cell D X) (Key R) R)}
    {vs : List (Tree (Tr × D))} (h : Kept (fun p => foldBody (F p)) p T ct vs) (hq : q ≠ p) {σ : Mem D X} {n : Nat} {k : Key R}
    {o : MOut (Cell D X) (Key R) R R} (ho : mrun (foldBody (F q)) q σ n k T = some (.ok o)) :
    Kept (fun p => foldBody (F p)) p o.table ct vs := by
  have e := mrun_other hq ho
  refine ⟨?_, ?_, fun m hm => h.dom m (by rw [← e]; exact hm)⟩
  · exact (mrun_sound (body := fun p => foldBody (F p)) (p := q) n k T o h.valid ho).1
  · intro v hv
    obtain ⟨c, h1, h2, h3⟩ := h.full v hv
    exact ⟨c, h1, h2, fun q hq => has_congr (congrFun e q.1) (h3 q hq)⟩

theorem kept_fold {body : Name → Key R → Prog (Cell D X) (Key R) R R} {p : Name} {T : Table (Cell D X) (Key R) R}
    {ct : Tree (Tr × D) → Option (CT (Cell D X) (Key R) R)} {C : CT (Cell D X) (Key R) R → Prop} (hC : Family (body p) C)
    (hct : ∀ (σ : Mem D X) h v c, View σ h v → ct v = some c → C c) (hnil : C .nil)
    (hm : ∀ v c, ct v = some c → c.memos = memoNames v) {vs : List (Tree (Tr × D))} (hk : Kept body p T ct vs)
    {σ : Mem D X} {h : Tr} {v : Tree (Tr × D)} (hv : View σ (some h) v) (hn : (nodeNames v).Nodup) (hr : NoReturn vs v)
    {c : CT (Cell D X) (Key R) R} (hc : ct v = some c) (hi : CT.In σ c) {key : Key R} {loc : Loc} {cell : Cell D X}
    {nl nr : Option Name} {res : R} {l r : CT (Cell D X) (Key R) R} (he : c = .node key loc cell nl nr res l r) :
    ∃ o, mrun (body p) p σ c.size key T = some (.ok o) ∧ o.val = res ∧ Kept body p o.table ct (v :: vs) ∧
      ∀ v0 ∈ vs.head?, ∀ c0, ct v0 = some c0 → ∀ old : Name → CT (Cell D X) (Key R) R → Bool,
        (∀ m w, old m w = true → (m, w) ∈ c0.points) → o.work ≤ c.cost old := by
  have hd : c.memos.Nodup := by rw [hm v c hc]; exact memos_nodup hn
  have main : ∀ c0, C c0 → Full T p c0 → (∀ m ∈ c.memos, m ∉ c0.memos → T p m = none) →
      ∃ o, mrun (body p) p σ c.size key T = some (.ok o) ∧ o.val = res ∧ Kept body p o.table ct (v :: vs) ∧
        ∀ old : Name → CT (Cell D X) (Key R) R → Bool, (∀ m w, old m w = true → (m, w) ∈ c0.points) → o.work ≤ c.cost old := by
    intro c0 h0 hF hnew
    obtain ⟨rd, T', w, h1, h2, h3, -⟩ := next_run hC h0 (hct σ _ v c hv hc) hi hd hk.valid hF hnew (old := fun _ _ => false) (by simp) he
    refine ⟨_, h1, rfl, ⟨(mrun_sound (body := body) _ _ _ _ hk.valid h1).1, ?_, ?_⟩, ?_⟩
    · intro v' hv'
      simp only [List.head?_cons, Option.mem_def, Option.some.injEq] at hv'
      subst hv'
      exact ⟨c, hc, ⟨σ, h, hv⟩, h3⟩
    · intro m hne
      by_cases hmem : m ∈ c.memos
      · exact ⟨v, List.mem_cons_self, by rw [← hm v c hc]; exact hmem⟩
      · have hne : T' p m ≠ none := hne
        rw [h2.frame m hmem] at hne
        obtain ⟨w, h4, h5⟩ := hk.dom m hne
        exact ⟨w, List.mem_cons_of_mem _ h4, h5⟩
    · intro old hold
      obtain ⟨rd', T2, w', k1, -, -, k2⟩ := next_run hC h0 (hct σ _ v c hv hc) hi hd hk.valid hF hnew (old := old) hold he
      rw [h1] at k1
      cases k1
      exact k2
  cases vs with
  | nil =>
    obtain ⟨o, h1, h2, h3, -⟩ := main .nil hnil (fun q hq => by cases hq) (fun m _ _ => by
      by_contra hne
      obtain ⟨w, hw, -⟩ := hk.dom m hne
      cases hw)
    exact ⟨o, h1, h2, h3, fun v0 hv0 => by cases hv0⟩
  | cons v0 vs =>
    obtain ⟨c0, k1, ⟨σ0, h0, k2⟩, k3⟩ := hk.full v0 rfl
    obtain ⟨o, h1, h2, h3, h4⟩ := main c0 (hct σ0 _ v0 c0 k2 k1) k3 (fun m hmem hno => by
      by_contra hne
      obtain ⟨w, hw, hmw⟩ := hk.dom m hne
      rw [hm v c hc] at hmem
      rw [hm v0 c0 k1] at hno
      rcases List.mem_cons.1 hw with rfl | hw
      · exact hno hmw
      · exact hr m hmem hno w hw hmw)
    refine ⟨o, h1, h2, h3, fun v1 hv1 c1 hc1 old hold => ?_⟩
    simp only [List.head?_cons, Option.mem_def, Option.some.injEq] at hv1
    subst hv1
    rw [k1] at hc1
    cases hc1
    exact h4 old hold

omit [DecidableEq D] [DecidableEq X] [DecidableEq R] in
theorem up_shape {F : Fns D R} {σ : Mem D X} {h : Tr} {v : Tree (Tr × D)} (hv : View σ (some h) v) {x : R}
    (hx : (plain v).foldUpMeta F.up = .ok (some x)) : ∃ c : CT (Cell D X) (Key R) R, ctUp F v = some c ∧ CT.In σ c ∧ c.size = v.size ∧
      ∃ loc cell nl nr cl cr, c = .node (.up h) loc cell nl nr x cl cr := by
  obtain ⟨c, hc, hcr⟩ := ctUp_exists (X := X) hx
  obtain ⟨-, i1, s1⟩ := ctUp_wf hv hc
  refine ⟨c, hc, i1, s1, ?_⟩
  cases hv with
  | node =>
    obtain ⟨cl, cr, y, -, -, -, rfl⟩ := ctUp_node hc
    simp only [CT.res?, Option.some.injEq] at hcr
    subst hcr
    exact ⟨_, _, _, _, _, _, rfl⟩

theorem UpHistory.kept {F : Name → Fns D R} {p : Name} {T : Table (Cell D X) (Key R) R} {vs : List (Tree (Tr × D))}
    (h : UpHistory F p T vs) : Kept (fun p => foldBody (F p)) p T (ctUp (F p)) vs := by
  induction h with
  | start => exact ⟨Valid.empty _, fun v hv => (by cases hv), fun m hm => absurd rfl hm⟩
  | other ht hq ho ih => exact kept_other ih hq ho
  | fold ht hv hn hr hx ho ih =>
    obtain ⟨c, hc, hi, hs, loc, cell, nl, nr, cl, cr, he⟩ := up_shape hv hx
    obtain ⟨o', h1, -, h3, -⟩ := kept_fold (body := fun p => foldBody (F p)) (upFamily (F p)) (fun σ h v c hv hc => ⟨σ, h, v, hv, hc⟩)
      ⟨Store.empty, none, .nil, .nil, rfl⟩ (fun v c hc => ctUp_memos hc) ih hv hn hr hc hi he
    rw [mrun_det ho h1]
    exact h3

/-- **C60.** In a session of any number of folds in a namespace, between which the trees and the store change in any way and other
namespaces are used, every fold gives the right result and runs the function only at the nodes that are not below a branch
that the fold before it has seen unchanged (below a node of the same name on the same side). Condition: in the folds before, names
that had left the tree did not come back. -/
theorem C60_session {F : Name → Fns D R} {p : Name} {T : Table (Cell D X) (Key R) R} {v : Tree (Tr × D)} {vs : List (Tree (Tr × D))}
    (ht : UpHistory F p T (v :: vs)) {σ : Mem D X} {h : Tr} {v' : Tree (Tr × D)} (hv : View σ (some h) v') (hn : (nodeNames v').Nodup)
    {x : R} (hx : (plain v').foldUpMeta (F p).up = .ok (some x)) :
    ∃ o, (∀ n, v'.size ≤ n → mrun (foldBody (F p)) p σ n (.up h) T = some (.ok o)) ∧ o.val = x ∧ o.work ≤ cost (points v) v' := by
  have hk := ht.kept
  obtain ⟨c, hc, hi, hs, loc, cell, nl, nr, cl, cr, he⟩ := up_shape hv hx
  have hd : c.memos.Nodup := by rw [ctUp_memos hc]; exact memos_nodup hn
  obtain ⟨c0, k1, -, k3⟩ := hk.full v rfl
  classical
  obtain ⟨rd, T', w, h1, h2, -⟩ := later_run (body := fun p => foldBody (F p)) (p := p) (old := fun m w => decide ((m, w) ∈ c0.points))
    (ctUp_wf hv hc).1 hi hd c.size T (Nat.le_refl _) hk.valid (fun m _ w hw => k3 (m, w) (by simpa using hw)) _ _ _ _ _ _ _ _ he
  refine ⟨_, fun n hn => mrun_mono (hs ▸ hn) h1, rfl, Nat.le_trans h2 (ctUp_cost (old := points v) ?_ hc)⟩
  intro m w cw hm hw
  have h6 : (m, some cw) ∈ (points v).map (fun q => (q.1, (ctUp (F p) q.2 : Option (CT (Cell D X) (Key R) R)))) :=
    List.mem_map.2 ⟨(m, w), hm, by simp only [hw]⟩
  rw [← ctUp_points k1] at h6
  obtain ⟨q, hq, hq'⟩ := List.mem_map.1 h6
  simp only [Prod.mk.injEq, Option.some.injEq] at hq'
  obtain ⟨q1, q2⟩ := q
  simp only at hq'
  obtain ⟨rfl, rfl⟩ := hq'
  simpa using hq

omit [DecidableEq D] [DecidableEq X] [DecidableEq R] in
theorem lr_shape {F : Fns D R} {σ : Mem D X} {h : Tr} {v : Tree (Tr × D)} (start : Option Name) (a : R) (hv : View σ (some h) v) :
    CT.In σ (ctLr F start a v : CT (Cell D X) (Key R) R) ∧ (ctLr F start a v : CT (Cell D X) (Key R) R).size = v.size ∧
      ∃ loc cell nl nr cl cr, (ctLr F start a v : CT (Cell D X) (Key R) R) =
        .node (.lr h start a) loc cell nl nr ((plain v).foldLrMeta F.lr start a) cl cr := by
  obtain ⟨-, i1, s1⟩ := ctLr_wf (F := F) start a hv
  refine ⟨i1, s1, ?_⟩
  cases hv with
  | @node _ d _ _ l r =>
    obtain ⟨loc, cell, nl, nr, res, cl, cr, he⟩ := ctLr_key (F := F) (X := X) (h := h) (d := d) (lv := h.level) (n := h.name)
      (l := l) (r := r) (start := start) (a := a)
    have := ctLr_res (F := F) (X := X) (.node h.level h.name (h, d) l r) start a
    rw [he] at this
    simp only [CT.resOr] at this
    subst this
    exact ⟨_, _, _, _, _, _, he⟩

theorem LrHistory.kept {F : Name → Fns D R} {p : Name} {start : Option Name} {a : R} {T : Table (Cell D X) (Key R) R}
    {vs : List (Tree (Tr × D))} (h : LrHistory F p start a T vs) :
    Kept (fun p => foldBody (F p)) p T (fun v => some (ctLr (F p) start a v)) vs := by
  induction h with
  | start => exact ⟨Valid.empty _, fun v hv => (by cases hv), fun m hm => absurd rfl hm⟩
  | other ht hq ho ih => exact kept_other ih hq ho
  | fold ht hv hn hr ho ih =>
    obtain ⟨hi, hs, loc, cell, nl, nr, cl, cr, he⟩ := lr_shape (F := F p) start a hv
    obtain ⟨o', h1, -, h3, -⟩ := kept_fold (body := fun p => foldBody (F p)) (lrFamily (F p))
      (fun σ h v c hv hc => ⟨σ, h, v, start, a, hv, by simpa using hc.symm⟩)
      ⟨Store.empty, none, .nil, start, a, .nil, rfl⟩ (fun v c hc => by cases hc; exact ctLr_memos v start a) ih hv hn hr rfl hi he
    rw [mrun_det ho h1]
    exact h3

/-- **C60, left folds.** A branch is unchanged only if the value and the name that reach it are too. -/
theorem C60_session_lr {F : Name → Fns D R} {p : Name} {start : Option Name} {a : R} {T : Table (Cell D X) (Key R) R}
    {v : Tree (Tr × D)} {vs : List (Tree (Tr × D))} (ht : LrHistory F p start a T (v :: vs)) {σ : Mem D X} {h : Tr}
    {v' : Tree (Tr × D)} (hv : View σ (some h) v') (hn : (nodeNames v').Nodup) :
    ∃ o, (∀ n, v'.size ≤ n → mrun (foldBody (F p)) p σ n (.lr h start a) T = some (.ok o)) ∧
      o.val = (plain v').foldLrMeta (F p).lr start a ∧ o.work ≤ costLr (F p).lr (pointsLr (F p).lr start a v) start a v' := by
  have hk := ht.kept
  obtain ⟨hi, hs, loc, cell, nl, nr, cl, cr, he⟩ := lr_shape (F := F p) start a hv
  have hd : (ctLr (F p) start a v' : CT (Cell D X) (Key R) R).memos.Nodup := by rw [ctLr_memos]; exact memos_nodup hn
  obtain ⟨c0, k1, -, k3⟩ := hk.full v rfl
  simp only [Option.some.injEq] at k1
  subst k1
  classical
  obtain ⟨rd, T', w, h1, h2, -⟩ := later_run (body := fun p => foldBody (F p)) (p := p)
    (old := fun m w => decide ((m, w) ∈ (ctLr (F p) start a v).points)) (ctLr_wf start a hv).1 hi hd _ T (Nat.le_refl _) hk.valid
    (fun m _ w hw => k3 (m, w) (by simpa using hw)) _ _ _ _ _ _ _ _ he
  refine ⟨_, fun n hn => mrun_mono (hs ▸ hn) h1, rfl, Nat.le_trans h2 (ctLr_cost ?_ v' start a)⟩
  intro m s b w hm
  simp only [decide_eq_true_eq]
  rw [ctLr_points]
  exact List.mem_map.2 ⟨(m, s, b, w), hm, rfl⟩

/-- A history can be continued with every tree that meets the conditions. -/
theorem UpHistory.extend {F : Name → Fns D R} {p : Name} {T : Table (Cell D X) (Key R) R} {vs : List (Tree (Tr × D))}
    (ht : UpHistory F p T vs) {σ : Mem D X} {h : Tr} {v : Tree (Tr × D)} (hv : View σ (some h) v) (hn : (nodeNames v).Nodup)
    (hr : NoReturn vs v) {x : R} (hx : (plain v).foldUpMeta (F p).up = .ok (some x)) : ∃ T' : Table (Cell D X) (Key R) R, UpHistory F p T' (v :: vs) := by
  obtain ⟨c, hc, hi, hs, loc, cell, nl, nr, cl, cr, he⟩ := up_shape hv hx
  obtain ⟨o, h1, -⟩ := kept_fold (body := fun p => foldBody (F p)) (upFamily (F p)) (fun σ h v c hv hc => ⟨σ, h, v, hv, hc⟩)
    ⟨Store.empty, none, .nil, .nil, rfl⟩ (fun v c hc => ctUp_memos hc) (UpHistory.kept ht) hv hn hr hc hi he
  exact ⟨_, .fold ht hv hn hr hx h1⟩

/-- The work of folds over the first variable, each after some statements. -/
def workList (F : Fns (TreeData Nat Count) Nat) (k : Tr → Key Nat) : List (List (Cmd Nat (RazMeta.Index Nat Count))) →
    HVars Nat Count → RMem Nat Count → RTable Nat Count Nat → Option (List Nat)
  | [], _, _, _ => some []
  | cs :: l, vs, σ, T => do
    let ((vs, _), σ) ← (HVars.run (M := Count) .dcg vs cs 60 σ).toOption
    let h ← root0 vs
    let o ← (← mrun (foldBody F) .unit σ 60 (k h) T).toOption
    let ws ← workList F k l vs σ o.table
    return o.work :: ws

/-- A tree of nine nodes with edits at the left end, at the right end and a new archive point at the left end. -/
example : workList sumF.fns .up [exBuild, exEdit, [.op 0 (.focus (6 : Nat)), .op 0 (.pushL 8), .op 0 .unfocus],
    [.op 0 .focusLeft, .op 0 (.pushL 1), .op 0 (.archL 2 (some (.usize 9))), .op 0 .unfocus], []] [] Store.empty Table.empty =
    some [9, 3, 4, 5, 1] := by
  decide +kernel

/-- The conditions of `C60_session` for a history of two folds, with the tree of a program. -/
example : ∃ (T : RTable Nat Count Nat) (v : Tree (Tr × TreeData Nat Count)) (σ : RMem Nat Count) (h : Tr) (x : Nat),
    UpHistory (fun _ => sumF.fns) .unit T [v, v] ∧ View σ (some h) v ∧ (nodeNames v).Nodup ∧ NoReturn [v, v] v ∧
      (plain v).foldUpMeta sumF.fns.up = .ok (some x) ∧ 1 < v.size := by
  have hrun : (do
      let (vs, _) ← Vars.run (M := Count) [] exBuild
      match (vs[0]? : Option (Option (St Nat Count))) with
      | some (some (.tree t)) =>
        let x ← t.tree.foldUpMeta sumF.fns.up
        return (x, t.tree.size)
      | _ => .error .explicit : P (Option Nat × Nat)) = .ok (some 15, 9) := by decide +kernel
  obtain ⟨⟨vs, os⟩, h1, h⟩ := bind_ok.1 hrun
  simp only at h
  split at h
  · next t ht =>
    obtain ⟨x, h2, h⟩ := bind_ok.1 h
    have hxs : x = some 15 ∧ t.tree.size = 9 := by
      have : (x, t.tree.size) = (some 15, 9) := Except.ok.inj h
      exact Prod.mk.inj this
    obtain ⟨rfl, hs⟩ := hxs
    obtain ⟨hvs, σ, -, h3⟩ := C58_reachable (M := Count) (cs := exBuild) (by constructor <;> simp [exBuild, Cmd.names])
      (by intro c; revert c; simp [exBuild, Cmd.isClone]) h1
    obtain ⟨mt, h, v, -, k2, k3, k4⟩ := h3 0 t ht
    have hx : (plain v).foldUpMeta sumF.fns.up = .ok (some 15) := by rw [k3]; exact h2
    cases h with
    | none => cases k2; cases hx
    | some h =>
      have nr : ∀ vs : List (Tree (Tr × TreeData Nat Count)), NoReturn (v :: vs) v := fun vs m hm hn => absurd hm hn
      obtain ⟨T1, a1⟩ := UpHistory.extend (F := fun _ => sumF.fns) (p := .unit) .start k2 k4 trivial hx
      obtain ⟨T2, a2⟩ := a1.extend k2 k4 (nr _) hx
      refine ⟨T2, v, σ, h, 15, a2, k2, k4, nr _, hx, ?_⟩
      rw [← plain_size, k3, hs]; decide
  · cases h

/-- A store with the nodes of the list: name, data and branches. -/
def exStore (l : List (Name × Nat × Option Tr × Option Tr)) : Mem Nat Unit :=
  ⟨fun k => (l.find? (fun x => decide (Loc.named x.1 = k))).map (fun x => .node x.2.1 x.2.2.1 x.2.2.2), 0, []⟩

/-- A handle by name. -/
def exH (n : Nat) : Tr := ⟨0, some (.usize n), .named (.usize n)⟩

/-- Sums of all nodes. -/
def exSum : Fns Nat Nat := ⟨fun l d _ _ r => .ok (l.getD 0 + d + r.getD 0), fun a d _ _ => a + d⟩

/-- Node 0 above node 1 above node 2 (with data `d`) above a leaf 4. -/
def exDeep (d : Nat) : Mem Nat Unit := exStore [(.usize 0, 1, some (exH 1), none), (.usize 1, 1, some (exH 2), none),
  (.usize 2, d, some (exH 4), none), (.usize 4, 1, none, none)]

/-- Node 2 above a leaf 5. -/
def exOther : Mem Nat Unit := exStore [(.usize 2, 1, some (exH 5), none), (.usize 5, 1, none, none)]

/-- What is seen behind the root of `exDeep`. -/
def exDeepV (d : Nat) : Tree (Tr × Nat) :=
  .node 0 (some (.usize 0)) (exH 0, 1) (.node 0 (some (.usize 1)) (exH 1, 1) (.node 0 (some (.usize 2)) (exH 2, d)
    (.node 0 (some (.usize 4)) (exH 4, 1) .nil .nil) .nil) .nil) .nil

/-- **C60, the condition is needed.** Folding a tree, then another one with some of its names, then the first again and then an edited
one costs more than the last edit: the third fold has not seen that calls below the one it used were replaced by the second. -/
theorem C60_names_return : View (exDeep 1) (some (exH 0)) (exDeepV 1) ∧ View (exDeep 7) (some (exH 0)) (exDeepV 7) ∧
    ∃ o1 o2 o3 o4, mrun (foldBody exSum) .unit (exDeep 1) 9 (.up (exH 0)) Table.empty = some (.ok o1) ∧
      mrun (foldBody exSum) .unit exOther 9 (.up (exH 2)) o1.table = some (.ok o2) ∧
      mrun (foldBody exSum) .unit (exDeep 1) 9 (.up (exH 0)) o2.table = some (.ok o3) ∧
      mrun (foldBody exSum) .unit (exDeep 7) 9 (.up (exH 0)) o3.table = some (.ok o4) ∧
      o4.work = 4 ∧ cost (points (exDeepV 1)) (exDeepV 7) = 3 := by
  refine ⟨.node rfl (.node rfl (.node rfl (.node rfl .nil .nil) .nil) .nil) .nil,
    .node rfl (.node rfl (.node rfl (.node rfl .nil .nil) .nil) .nil) .nil, _, _, _, _, rfl, rfl, rfl, rfl, ?_, ?_⟩
  · decide +kernel
  · decide +kernel

end Iodyn.Incr
