import Verif.Proof.IncrFold
/-
The programs `reverse` and `filter` as memoised folds.
-/
namespace Iodyn.Incr.Up
open Iodyn.Heap (Tr Cell Mem HTree RepT Keeps Dis RMem)
variable {V W K R S A D X D' X' E M N : Type}

theorem agrees_keep {fs : List (Loc × Cell D' X')} {τ τ' : Mem D' X'} {n : Option Name} (h : Agrees fs τ) (hf : Unused τ)
    (hk : Keeps n.toList τ τ') (hd : ∀ m q c, (Loc.named m q, c) ∈ fs → n ≠ some m) : Agrees fs τ' := by
  rintro ⟨l, x⟩ hm
  have h1 := h _ hm
  cases l with
  | named m q =>
    by_cases hq : q = τ.path
    · subst hq
      rw [hk.named m (fun hn => hd m _ x hm (by simpa using hn))]
      exact h1
    · rw [hk.other m q hq]; exact h1
  | anon k =>
    have : k < τ.next := by
      apply Classical.byContradiction
      intro hn
      have h2 := hf k (by omega)
      simp only at h1
      rw [h2] at h1
      cases h1
    simp only at h1 ⊢
    rw [hk.anon k this]; exact h1

/-- A sequence whose articulations are among those given. -/
structure SeqRel (fs : List (Loc × Cell (TreeData E N) (Nat × List E))) (r : HTree N) (x : RazTree E N) : Prop where
  info : r.info = x.info
  tree : ∀ τ, Agrees fs τ → ∃ w, View τ r.tree w ∧ plain w = x.tree
  top : ∀ h, r.tree = some h → ∃ c, (h.link, c) ∈ fs

theorem SeqRel.mono {fs fs' : List (Loc × Cell (TreeData E N) (Nat × List E))} {r : HTree N} {x : RazTree E N} (hs : fs ⊆ fs')
    (h : SeqRel fs r x) : SeqRel fs' r x :=
  ⟨h.info, fun τ ha => h.tree τ (fun q hq => ha q (hs hq)), fun t ht => by obtain ⟨c, hc⟩ := h.top t ht; exact ⟨c, hs hc⟩⟩

theorem SeqRel.isNone {fs : List (Loc × Cell (TreeData E N) (Nat × List E))} {r : HTree N} {x : RazTree E N} (h : SeqRel fs r x)
    {τ : RMem E N} (ha : Agrees fs τ) : r.tree.isNone = x.isEmpty := by
  obtain ⟨w, h1, h2⟩ := h.tree τ ha
  unfold RazTree.isEmpty
  rw [← h2]
  generalize r.tree = t at h1
  cases h1 <;> rfl

theorem SeqRel.node {fs : List (Loc × Cell (TreeData E N) (Nat × List E))} {r : HTree N} {x : RazTree E N} (h : SeqRel fs r x)
    {τ : RMem E N} (ha : Agrees fs τ) {t : Tr} (ht : r.tree = some t) :
    ∃ d l r, (t.link, Cell.node d l r) ∈ fs ∧ τ.cells t.link = some (.node d l r) ∧ x.tree.peek? = some d ∧ ∃ lv n l' r', x.tree = .node lv n d l' r' := by
  obtain ⟨w, h1, h2⟩ := h.tree τ ha
  obtain ⟨c, hc⟩ := h.top t ht
  rw [ht] at h1
  cases h1 with
  | @node _ d hl hr l r hc' _ _ =>
    have h3 := ha _ hc
    simp only [hc', Option.some.injEq] at h3
    subst h3
    exact ⟨d, hl, hr, hc, hc', by rw [← h2]; rfl, _, _, _, _, h2.symm⟩

section
variable [DecidableEq E] [DecidableEq M] [DecidableEq N] [RazMeta E N]

/-- What a step of a node function does. -/
def StepOK (callee : Tr → GSpace E M N → Option (P (AOut (Cell (TreeData E M) (Nat × List E)) (Cell (TreeData E N) (Nat × List E)) Tr (HTree N) (HTree N))))
    (σ : RMem E M) (s : GSpace E M N) (fs : List (Loc × Cell (TreeData E N) (Nat × List E))) (n : Option Name)
    (prog : AProg (Cell (TreeData E M) (Nat × List E)) (Cell (TreeData E N) (Nat × List E)) Tr (HTree N) (HTree N)) (v : P (RazTree E N)) : Prop :=
  match v with
  | .error q => amexec callee σ prog s = some (.error q)
  | .ok z => ∃ r fs' s', amexec callee σ prog s = some (.ok ⟨r, [], fs', s', 0⟩) ∧ s'.table = s.table ∧ Unused s'.mem ∧
      Keeps n.toList s.mem s'.mem ∧ Agrees fs' s'.mem ∧ (∀ m q c, (Loc.named m q, c) ∈ fs' → n = some m ∨ (Loc.named m q, c) ∈ fs) ∧
      SeqRel (fs ++ fs') r z

variable {callee : Tr → GSpace E M N → Option (P (AOut (Cell (TreeData E M) (Nat × List E)) (Cell (TreeData E N) (Nat × List E)) Tr (HTree N) (HTree N)))}
  {σ : RMem E M} {s : GSpace E M N} {fs : List (Loc × Cell (TreeData E N) (Nat × List E))} {n : Option Name}

omit [RazMeta E N] in
theorem ret_ok (hs : Unused s.mem) {r : HTree N} {z : RazTree E N} (h : SeqRel fs r z) : StepOK callee σ s fs n (.ret r) (.ok z) :=
  ⟨r, [], s, rfl, rfl, hs, Keeps.refl _ _, Agrees.nil _, (fun _ _ _ h => by cases h), h.mono (List.subset_append_left _ _)⟩

theorem empty_rel : SeqRel (E := E) (N := N) fs (HTree.empty E) RazTree.empty :=
  ⟨rfl, fun _ _ => ⟨.nil, .nil, rfl⟩, fun _ h => by cases h⟩

omit [DecidableEq E] [DecidableEq N] in
theorem vecTree_nil : (Eval.vecTree [] : P (RazTree E N)) = .ok RazTree.empty := rfl

omit [DecidableEq E] [DecidableEq N] in
theorem vecTree_cons {c : List E} (hc : c ≠ []) : (Eval.vecTree c : P (RazTree E N)) = .ok ⟨RazMeta.fromVec c 0 none, leaf c none⟩ := by
  unfold Eval.vecTree RazTree.fromVec
  rw [if_neg hc]
  rfl

theorem vecTree_ok (hs : Unused s.mem) (c : List E) : StepOK callee σ s fs n (vecTreeProg c) (Eval.vecTree c) := by
  by_cases hc : c = []
  · subst hc
    rw [vecTree_nil]
    exact ret_ok hs empty_rel
  · rw [vecTree_cons hc]
    unfold vecTreeProg fromVecProg
    simp only [if_neg hc]
    obtain ⟨h1, h2, h3, h4, k, h5, -⟩ := put_spec hs (.node (.leaf c) none none)
    unfold StepOK
    simp only [leafProg, topProg, amexec, Space.alloc, h4]
    refine ⟨_, _, _, rfl, h1, h2, ?_, ?_, ?_, ?_⟩
    · exact h3.mono (fun x hx => by cases hx)
    · exact agrees_cons.2 ⟨h4, agrees_cons.2 ⟨h4, Agrees.nil _⟩⟩
    · intro m q x hm
      simp only [List.append_nil, List.singleton_append, List.mem_cons, Prod.mk.injEq, List.not_mem_nil, or_false, or_self] at hm
      rw [h5] at hm
      cases hm.1
    · refine ⟨rfl, fun τ ha => ?_, fun h hh => ?_⟩
      · have := (agrees_cons.1 (agrees_append.1 ha).2).1
        exact ⟨_, View.node (h := ⟨0, none, _⟩) this .nil .nil, rfl⟩
      · cases hh
        exact ⟨_, List.mem_append_right _ List.mem_cons_self⟩

theorem join_ok (hs : Unused s.mem) (hf : Agrees fs s.mem) {a b : HTree N} {x y : RazTree E N} (ha : SeqRel fs a x) (hb : SeqRel fs b y)
    (hn : ∀ m q c, (Loc.named m q, c) ∈ fs → n ≠ some m) (lv : Nat) :
    StepOK callee σ s fs n (unwrapJoinProg a lv n b) (do unwrap (← x.join lv n y)) := by
  unfold unwrapJoinProg joinTreeProg
  cases hta : a.tree with
  | none =>
    have h1 := ha.isNone hf
    have hx : x.tree = .nil := by
      rw [hta] at h1
      unfold RazTree.isEmpty at h1
      cases hx : x.tree with
      | nil => rfl
      | node => rw [hx] at h1; cases h1
    simp only [RazTree.join, hx]
    rfl
  | some t =>
  cases htb : b.tree with
  | none =>
    have h1 := hb.isNone hf
    have hy : y.tree = .nil := by
      rw [htb] at h1
      unfold RazTree.isEmpty at h1
      cases hy : y.tree with
      | nil => rfl
      | node => rw [hy] at h1; cases h1
    simp only [RazTree.join, hy]
    cases x.tree <;> rfl
  | some u =>
  obtain ⟨d1, l1, r1, m1, c1, p1, lv1, n1, tl1, tr1, q1⟩ := ha.node hf hta
  obtain ⟨d2, l2, r2, m2, c2, p2, lv2, n2, tl2, tr2, q2⟩ := hb.node hf htb
  have hj : x.join lv n y = (do
      let t ← bin x.tree lv n y.tree
      let rz ← mkRazTree t
      return some rz) := by
    unfold RazTree.join
    rw [q1, q2]
  simp only [hj, bin, p1, p2]
  have hexec : amexec callee σ (binProg t lv n u fun t => topProg t fun m => (.ret ⟨m, some t⟩ : AProg (Cell (TreeData E M) (Nat × List E)) (Cell (TreeData E N) (Nat × List E)) Tr (HTree N) (HTree N))) s =
      after [] [(t.link, Cell.node d1 l1 r1)] 0 (after [] [(u.link, Cell.node d2 l2 r2)] 0
        (amexec callee σ (match TreeData.rebuild (some d1) .dummy lv n (some d2) with
          | .error q => .fail q
          | .ok d => .alloc n (.node d (some t) (some u)) fun k' => topProg ⟨lv, n, k'⟩ fun m => .ret ⟨m, some ⟨lv, n, k'⟩⟩) s)) := by
    simp only [binProg, amexec, c1, c2]
    rfl
  cases hd : TreeData.rebuild (some d1) .dummy lv n (some d2) with
  | error q =>
    rw [hd] at hexec
    exact hexec
  | ok d =>
    rw [hd] at hexec
    simp only at hexec
    obtain ⟨a1, a2, a3, a4, a5⟩ := alloc_spec hs n (.node d (some t) (some u))
    simp only [amexec, topProg, a4] at hexec
    have hf' := agrees_keep hf hs a3 hn
    have fin : ∀ (m : N), treetopMeta (.node lv n d x.tree y.tree) = .ok m →
        ∃ r fs' s', (after [] [(t.link, Cell.node d1 l1 r1)] 0 (after [] [(u.link, Cell.node d2 l2 r2)] 0
          (after [] [((s.alloc n (.node d (some t) (some u))).2, Cell.node d (some t) (some u))] 0
            (after [] [((s.alloc n (.node d (some t) (some u))).2, Cell.node d (some t) (some u))] 0
              (amexec callee σ (.ret ⟨m, some ⟨lv, n, (s.alloc n (.node d (some t) (some u))).2⟩⟩)
                (s.alloc n (.node d (some t) (some u))).1))))) = some (.ok ⟨r, [], fs', s', 0⟩) ∧ s'.table = s.table ∧ Unused s'.mem ∧
          Keeps n.toList s.mem s'.mem ∧ Agrees fs' s'.mem ∧ (∀ m q c, (Loc.named m q, c) ∈ fs' → n = some m ∨ (Loc.named m q, c) ∈ fs) ∧
          SeqRel (fs ++ fs') r ⟨m, .node lv n d x.tree y.tree⟩ := by
      intro m hm
      refine ⟨_, _, _, rfl, a1, a2, a3, ?_, ?_, ?_⟩
      · exact agrees_cons.2 ⟨hf' _ m1, agrees_cons.2 ⟨hf' _ m2, agrees_cons.2 ⟨a4, agrees_cons.2 ⟨a4, Agrees.nil _⟩⟩⟩⟩
      · intro m q c hc
        simp only [List.append_nil, List.singleton_append, List.mem_cons, List.not_mem_nil, or_false] at hc
        rcases hc with hc | hc | hc | hc
        · rw [hc]; exact .inr m1
        · rw [hc]; exact .inr m2
        · exact .inl (a5 m q (Prod.mk.inj hc).1.symm)
        · exact .inl (a5 m q (Prod.mk.inj hc).1.symm)
      · refine ⟨rfl, fun τ hag => ?_, fun h hh => ?_⟩
        · obtain ⟨g1, g2⟩ := agrees_append.1 hag
          obtain ⟨w1, v1, e1⟩ := ha.tree τ g1
          obtain ⟨w2, v2, e2⟩ := hb.tree τ g1
          rw [hta] at v1
          rw [htb] at v2
          have g3 := (agrees_cons.1 (agrees_cons.1 (agrees_cons.1 g2).2).2).1
          exact ⟨_, View.node (h := ⟨lv, n, _⟩) g3 v1 v2, by simp only [plain, e1, e2]⟩
        · cases hh
          exact ⟨_, List.mem_append_right _ (List.mem_cons_of_mem _ (List.mem_cons_of_mem _ List.mem_cons_self))⟩
    cases d with
    | dummy => exact hexec
    | leaf v =>
      obtain ⟨r, fs', s', e, rest⟩ := fin _ rfl
      exact ⟨r, fs', s', hexec.trans e, rest⟩
    | branch l r =>
      obtain ⟨r, fs', s', e, rest⟩ := fin _ rfl
      exact ⟨r, fs', s', hexec.trans e, rest⟩

/-- What the node function of a program computes with values. -/
def valNode : Rebuild E → Option (RazTree E N) → TreeData E M → Nat → Option Name → Option (RazTree E N) → P (RazTree E N)
  | c, l, d, lv, n, r =>
    match d with
    | .leaf v => (match c with | .reverse => Eval.Reverse.init v | .filter p => Eval.Filter.init p v)
    | _ =>
      match l, r with
      | none, none => .error .explicit
      | some r, none => .ok r
      | none, some r => .ok r
      | some lr, some rr => (match c with | .reverse => Eval.Reverse.bin lr lv n rr | .filter _ => Eval.Filter.bin lr lv n rr)

omit [DecidableEq E] [DecidableEq M] [DecidableEq N] in
theorem scratch_eq (c : Rebuild E) (t : RazTree E M) : (c.scratch t : P (Option (RazTree E N))) = t.tree.foldUpMeta (valNode c) := by
  cases c <;> exact congrArg (fun f => t.tree.foldUpMeta f) (by funext l d lv n r; cases d <;> cases l <;> cases r <;> rfl)

/-- The meaning of a program. -/
def sem (c : Rebuild E) : Sem (HTree N) (RazTree E N) (TreeData E M) (Cell (TreeData E N) (Nat × List E)) := ⟨valNode c, SeqRel⟩

theorem reverseBin_ok (hs : Unused s.mem) (hf : Agrees fs s.mem) {a b : HTree N} {x y : RazTree E N} (ha : SeqRel fs a x) (hb : SeqRel fs b y)
    (hn : ∀ m q c, (Loc.named m q, c) ∈ fs → n ≠ some m) (lv : Nat) :
    StepOK callee σ s fs n (reverseBin a lv n b) (Eval.Reverse.bin x lv n y) := by
  unfold reverseBin Eval.Reverse.bin
  rw [← ha.isNone hf, ← hb.isNone hf]
  cases a.tree.isNone <;> cases b.tree.isNone
  · exact join_ok hs hf hb ha hn lv
  · exact ret_ok hs ha
  · exact ret_ok hs hb
  · exact ret_ok hs empty_rel

theorem filterBin_ok (hs : Unused s.mem) (hf : Agrees fs s.mem) {a b : HTree N} {x y : RazTree E N} (ha : SeqRel fs a x) (hb : SeqRel fs b y)
    (hn : ∀ m q c, (Loc.named m q, c) ∈ fs → n ≠ some m) (lv : Nat) :
    StepOK callee σ s fs n (filterBin a lv n b) (Eval.Filter.bin x lv n y) := by
  unfold filterBin Eval.Filter.bin
  rw [← ha.isNone hf, ← hb.isNone hf]
  cases a.tree.isNone <;> cases b.tree.isNone
  · exact join_ok hs hf ha hb hn lv
  · exact ret_ok hs ha
  · exact ret_ok hs hb
  · exact ret_ok hs empty_rel

theorem node_ok (c : Rebuild E) : NodeOK (X := Nat × List E) (c.node : NodeProg _ (Cell (TreeData E N) (Nat × List E)) (HTree N) (TreeData E M)) (sem c) := by
  refine ⟨fun _ _ _ _ hs h => h.mono hs, fun callee σ s fs a b x y d lv n hs hf ha hb hn => ?_⟩
  have key : StepOK callee σ s fs n (c.node a d lv n b) (valNode c x d lv n y) := by
    have branch : (∀ v, d ≠ .leaf v) → StepOK callee σ s fs n (c.node a d lv n b) (valNode c x d lv n y) := by
      intro hd
      rcases a with _ | a <;> rcases x with _ | x <;> rcases b with _ | b <;> rcases y with _ | y <;> try exact ha.elim
      all_goals try exact hb.elim
      all_goals cases d with
        | leaf v => exact absurd rfl (hd v)
        | _ =>
          cases c <;> first
            | rfl
            | exact ret_ok hs hb
            | exact ret_ok hs ha
            | exact reverseBin_ok hs hf ha hb hn lv
            | exact filterBin_ok hs hf ha hb hn lv
    cases d with
    | leaf v =>
      cases c with
      | reverse => exact vecTree_ok hs v.reverse
      | filter p => exact vecTree_ok hs (v.filter p)
    | dummy => exact branch (fun v h => by cases h)
    | branch l r => exact branch (fun v h => by cases h)
  have hval : (sem c).f x d lv n y = valNode c x d lv n y := rfl
  rw [hval]
  cases hv : valNode c x d lv n y with
  | error q => rw [hv] at key; exact key
  | ok z => rw [hv] at key; exact key

/-! ### Histories -/

section
variable [DecidableEq D] [DecidableEq X] [DecidableEq D'] [DecidableEq X'] {node : NodeProg (Cell D X) (Cell D' X') R D} {g : Sem R S D (Cell D' X')}

theorem _root_.Iodyn.Incr.Folded.inv (ok : NodeOK node g) {s : USpace D X D' X' R} (h : Folded node s) : SInv g s := by
  induction h with
  | start => exact sInv_empty g
  | fold _ hv hn ho ih => obtain ⟨t', -, p⟩ := run_part ok [] ih hv hn ho; exact p.inv

theorem _root_.Iodyn.Incr.FoldHistory.kept (ok : NodeOK node g) {s : USpace D X D' X' R} {vs : List (Tree (Tr × D))} (h : FoldHistory node s vs) :
    Kept g s vs := by
  induction h with
  | start => exact ⟨sInv_empty g, (fun _ _ h => by cases h), (fun _ _ h => by cases h)⟩
  | fold _ hv hn hr ho ih => exact ih.next ok hv hn hr ho
end

/-! ### Clients -/

open Iodyn.Heap

/-- All namespaces are good. -/
def AllInv (g : Name → Rebuild E) (S : Name → GSpace E M N) : Prop := ∀ p, SInv (sem (g p)) (S p)

/-- What reading a sequence in the namespace gives. -/
structure Shows (τ : RMem E N) (a : Option (HTree N)) (b : Option (RazTree E N)) : Prop where
  read : ∃ n, ∀ f, n ≤ f → readBack τ f a = .rebuilt b

theorem rebuildIn_sim {g : Name → Rebuild E} {S : Name → GSpace E M N} (hS : AllInv g S) (p : Name) {σ : RMem E M} {ht : HTree M}
    {t : RazTree E M} (hr : RepT .dcg σ ht.tree t.tree) (hn : (tN .dcg t.tree).Nodup) :
    Sim (rebuildIn (g p) ht (S p)) σ ((g p).scratch t) (fun b a σ' => σ' = σ ∧ SInv (sem (g p)) a.2 ∧ Shows a.2.mem a.1 b) := by
  obtain ⟨v, hv, hv1, hv2⟩ := view_exists hr
  rw [scratch_eq, ← hv1]
  have hnd : (nodeNames v).Nodup := by
    rw [hv2, List.nodup_iff_count_le_one]
    intro x
    rw [names_count]
    exact List.nodup_iff_count_le_one.1 hn x
  obtain ⟨mt, tr⟩ := ht
  simp only at hv
  cases tr with
  | none =>
    cases hv
    exact ⟨(none, S p), σ, ⟨0, fun f _ => rfl⟩, rfl, hS p, ⟨0, fun f _ => rfl⟩⟩
  | some h =>
    have key := fun n hn => fold_run (node_ok (M := M) (N := N) (g p)) σ [] v n hn h (S p) hv hnd (hS p)
    have hsem : (sem (g p) : Sem (HTree N) (RazTree E N) (TreeData E M) _).f = valNode (g p) := rfl
    rw [hsem] at key
    cases hm : (plain v).foldUpMeta (valNode (N := N) (g p)) with
    | error q =>
      rw [hm] at key
      refine ⟨v.size, fun f hf => ?_⟩
      unfold rebuildIn
      simp only [key f hf]
    | ok t' =>
      rw [hm] at key
      obtain ⟨o, h1, pt⟩ := key v.size (Nat.le_refl _)
      have run : ∀ f, v.size ≤ f → rebuildIn (g p) ⟨mt, some h⟩ (S p) f σ = .ok ((some o.val, o.space), σ) := by
        intro f hf
        unfold rebuildIn
        simp only [amrun_mono hf h1]
      refine ⟨(some o.val, o.space), σ, ⟨v.size, run⟩, rfl, pt.inv, ?_⟩
      have hres := pt.res
      cases t' with
      | none => exact hres.elim
      | some b =>
        have hres : SeqRel o.facts o.val b := hres
        obtain ⟨w, w1, w2⟩ := hres.tree _ pt.facts
        refine ⟨w.size, fun f hf => ?_⟩
        simp only [readBack, readTree_view w1 f hf, hres.info, w2]

theorem rev_sim [RazMeta E M] {g : Name → Rebuild E} {σ : RMem E M} {hvs : HVars E M} {vs : Vars E M} {S : Name → GSpace E M N}
    (h : RepV .dcg σ hvs vs) (hS : AllInv g S) (ev : REv E (RazMeta.Index E M)) (l : List (REv E (RazMeta.Index E M)))
    (hg : ev.UsesNs g) (hf : Fine .dcg vs (REv.stmts (ev :: l))) :
    Sim (HVars.rev hvs S ev) σ (vs.rev (N := N) ev) (fun b a σ' => RepV .dcg σ' a.1 b.1 ∧ a.2.2 = b.2 ∧ AllInv g a.2.1 ∧
      Fine .dcg b.1 (REv.stmts l)) := by
  cases ev with
  | stmt c =>
    unfold HVars.rev Vars.rev
    refine (vars_step_sim h c hf.head).bind ?_
    rintro ⟨vs', o⟩ ⟨hvs', o'⟩ σ' - ⟨k1, k2, k3⟩
    simp only at k1 k2 k3; subst k2
    exact Sim.pure ⟨k1, rfl, hS, hf.tail k3⟩
  | rebuild p c i =>
    have hg : c = g p := hg
    subst hg
    have hf : Fine .dcg vs (REv.stmts l) := hf
    unfold HVars.rev Vars.rev
    rcases h.lookup i with ⟨h1, h2⟩ | ⟨h1, h2⟩ | ⟨hs, s, h1, h2, h3, hi, h4⟩ <;> simp only [h1, h2]
    · exact Sim.pure ⟨h, rfl, hS, hf⟩
    · exact Sim.pure ⟨h, rfl, hS, hf⟩
    · cases hs with
      | cursor hz =>
        cases s with
        | cursor z => exact Sim.pure ⟨h, rfl, hS, hf⟩
        | tree t => exact h3.elim
      | tree ht =>
        cases s with
        | cursor z => exact h3.elim
        | tree t =>
          refine (rebuildIn_sim hS p (RepRT.tree h3) ?_).bind ?_
          · have hx : (vN .dcg vs).Nodup := by
              rcases hf with ⟨hf, -⟩ | ⟨-, hf⟩
              · rw [hf]; exact List.nodup_nil
              · exact (List.nodup_append.1 hf).1
            rw [List.nodup_iff_count_le_one] at hx ⊢
            intro x
            refine Nat.le_trans ?_ (hx x)
            have := vN_get (e := .dcg) vs i hi x
            rw [h4] at this
            exact this
          · rintro b ⟨t', s⟩ σ' - ⟨rfl, q1, ⟨n, q2⟩⟩
            simp only at q1 q2
            refine ⟨(hvs, (fun q => if q = p then s else S q), .rebuilt b), σ', ⟨n, fun f hle => ?_⟩, h, rfl, ?_, hf⟩
            · simp only [bind, q2 f hle, pure]
            · intro q
              by_cases hq : q = p
              · subst hq; simp only [if_true]; exact q1
              · simp only [if_neg hq]; exact hS q

theorem revs_sim [RazMeta E M] {g : Name → Rebuild E} : ∀ (l : List (REv E (RazMeta.Index E M))) {σ : RMem E M}
    {hvs : HVars E M} {vs : Vars E M} {S : Name → GSpace E M N}, RepV .dcg σ hvs vs → AllInv g S → (∀ ev ∈ l, ev.UsesNs g) →
    Fine .dcg vs (REv.stmts l) → Sim (HVars.revs hvs S l) σ (vs.revs (N := N) l) (fun b a σ' => RepV .dcg σ' a.1 b.1 ∧ a.2.2 = b.2) := by
  intro l
  induction l with
  | nil => intro σ hvs vs S h _ _ _; exact Sim.pure ⟨h, rfl⟩
  | cons ev l ih =>
    intro σ hvs vs S h hS hg hf
    unfold HVars.revs Vars.revs
    refine (rev_sim h hS ev l (hg ev List.mem_cons_self) hf).bind ?_
    rintro ⟨vs', o⟩ ⟨hvs', S', o'⟩ σ' - ⟨k1, k2, k3, k4⟩
    simp only at k1 k2 k3 k4; subst k2
    refine (ih k1 k3 (fun ev h => hg ev (List.mem_cons_of_mem _ h)) k4).bind ?_
    rintro ⟨vs'', os⟩ ⟨hvs'', S'', os'⟩ σ'' - ⟨q1, q2⟩
    simp only at q1 q2; subst q2
    exact Sim.pure ⟨q1, rfl⟩

theorem revAnswers_of_fine [RazMeta E M] {g : Name → Rebuild E} (l : List (REv E (RazMeta.Index E M)))
    (hg : ∀ ev ∈ l, ev.UsesNs g) (h : Fine .dcg ([] : Vars E M) (REv.stmts l)) :
    REvAnswers (M := M) (N := N) l (revAnswers (M := M) l) := by
  have h1 := revs_sim (N := N) l (σ := (Store.empty : RMem E M)) (hvs := []) (vs := [])
    ⟨rfl, fun i h1 _ => by simp at h1⟩ (S := fun _ => Space.empty) (fun p => sInv_empty _) hg h
  unfold revAnswers
  unfold Sim at h1
  cases hx : Vars.revs (M := M) (N := N) [] l with
  | error p =>
    rw [hx] at h1
    obtain ⟨f0, hf⟩ := h1
    exact ⟨f0, fun f hle => by rw [hf f hle]; rfl⟩
  | ok b =>
    rw [hx] at h1
    obtain ⟨a, σ', ⟨f0, hf⟩, -, h3⟩ := h1
    exact ⟨f0, fun f hle => by rw [hf f hle]; exact congrArg Except.ok h3⟩
end
end Iodyn.Incr.Up
