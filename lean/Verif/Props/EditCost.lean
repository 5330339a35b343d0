import Verif.Proof.EditShared
import Verif.Props.IncrAgain
import Verif.Props.IncrMap
/-
C79 the work of folds after edits.
-/
namespace Iodyn.Incr
open Iodyn.Heap
variable {E M R D X : Type}

/-- With enough fuel the computation ends with this result. -/
def Runs {A : Type} (m : H D X A) (σ : Mem D X) (a : A) (σ' : Mem D X) : Prop := ∃ f0, ∀ f, f0 ≤ f → m f σ = .ok (a, σ')

theorem Runs.bind {A B : Type} {m : H D X A} {k : A → H D X B} {σ σ' σ'' : Mem D X} {a : A} {b : B} (h : Runs m σ a σ') (h' : Runs (k a) σ' b σ'') :
    Runs (m >>= k) σ b σ'' := by
  obtain ⟨f0, h⟩ := h
  obtain ⟨f1, h'⟩ := h'
  refine ⟨max f0 f1, fun f hf => ?_⟩
  rw [run_ok (h f (by omega)), h' f (by omega)]

theorem Runs.pure {A : Type} {σ : Mem D X} {a : A} : Runs (Pure.pure a : H D X A) σ a σ := ⟨0, fun _ _ => rfl⟩

theorem sim_runs {A B : Type} {m : H D X A} {σ : Mem D X} {x : P B} {b : B} {Q : B → A → Mem D X → Prop} (h : Sim m σ x Q) (hx : x = .ok b) :
    ∃ a σ', Runs m σ a σ' ∧ Q b a σ' := by
  subst hx
  exact h

theorem fold_some {f : Option R → D → Nat → Option Name → Option R → P R} {t : Tree D} (ht : t ≠ .nil) {o : Option R} (h : t.foldUpMeta f = .ok o) :
    ∃ x, o = some x := by
  cases t with
  | nil => exact absurd rfl ht
  | node lv n d l r =>
    unfold Tree.foldUpMeta at h
    obtain ⟨a, -, h⟩ := bind_ok.1 h
    obtain ⟨b, -, h⟩ := bind_ok.1 h
    obtain ⟨c, -, hfin⟩ := bind_ok.1 h
    cases hfin
    exact ⟨c, rfl⟩

theorem rep_root {e : Engine} {σ : Mem D X} {h : Option Tr} {t : Tree D} (hr : RepT e σ h t) (ht : t ≠ .nil) : ∃ k, h = some k := by
  cases t with
  | nil => exact absurd rfl ht
  | node => obtain ⟨k, _, _, e, -⟩ := hr; exact ⟨_, e⟩

section
variable [DecidableEq D] [DecidableEq X] [DecidableEq R]

/-- The first fold in a namespace. -/
theorem first_fold {F : Name → Fns D R} {p : Name} {σ : Mem D X} {h : Tr} {v : Tree (Tr × D)} (hv : View σ (some h) v) (hn : (nodeNames v).Nodup)
    {x : R} (hx : (plain v).foldUpMeta (F p).up = .ok (some x)) :
    ∃ o, (∀ n, v.size ≤ n → mrun (foldBody (F p)) p σ n (.up h) (Table.empty : Table (Cell D X) (Key R) R) = some (.ok o)) ∧ o.val = x ∧ o.work ≤ v.size := by
  obtain ⟨c, hc, hi, hs, loc, cell, nl, nr, cl, cr, he⟩ := up_shape hv hx
  have hd : c.memos.Nodup := by rw [ctUp_memos hc]; exact memos_nodup hn
  obtain ⟨rd, T', w, h1, h2, -⟩ := later_run (body := fun p => foldBody (F p)) (p := p) (old := fun _ _ => false)
    (ctUp_wf hv hc).1 hi hd c.size Table.empty (Nat.le_refl _) (Valid.empty _) (fun m _ w hw => by cases hw) _ _ _ _ _ _ _ _ he
  refine ⟨_, fun n hn => mrun_mono (hs ▸ hn) h1, rfl, Nat.le_trans h2 (Nat.le_trans (ctUp_cost (old := []) ?_ hc) (cost_le_size _ _))⟩
  intro m w cw hm
  cases hm
end

variable [RazMeta E M] [DecidableEq E] [DecidableEq M] [DecidableEq R]

/-- Names of all cells of the edits. -/
def restCells {I : Type} (l : List (I × List (LOp E))) : List Name := l.flatMap (fun q => LOp.cells q.2)

/-- What holds between the edits of a session. -/
structure Going (F : Fns (TreeData E M) R) (p : Name) (σ : RMem E M) (ht : HTree M) (t : RazTree E M) (T : RTable E M R) (v : Tree (Tr × TreeData E M))
    (vs : List (Tree (Tr × TreeData E M))) (rest : List Name) : Prop where
  rep : RepRT .dcg σ ht t
  inv : TInv t
  canon : Canon t.tree
  full : t.tree ≠ .nil
  view : View σ ht.tree v
  plain : plain v = t.tree
  hist : UpHistory (fun _ => F) p T (v :: vs)
  nodup : (tN .dcg t.tree ++ rest).Nodup
  past : ∀ w ∈ vs, ∀ x ∈ nodeNames w, x ∉ rest

theorem names_mem {t : Tree D} {x : Name} : x ∈ nodeNames t ↔ x ∈ tN .dcg t := by
  rw [← List.count_pos_iff, ← List.count_pos_iff, names_count]

theorem names_nodup {t : Tree D} (h : (tN .dcg t).Nodup) : (nodeNames t).Nodup :=
  count_nodup fun x => by rw [names_count]; exact nodup_count h x

theorem nodeNames_plain : ∀ v : Tree (Tr × D), nodeNames (plain v) = nodeNames v
  | .nil => rfl
  | .node lv n (h, d) l r => by simp only [plain, nodeNames, nodeNames_plain l, nodeNames_plain r]

omit [RazMeta E M] in
theorem refold_runs {F : Fns (TreeData E M) R} {p : Name} {ht : HTree M} {h : Tr} (hh : ht.tree = some h) {σ : RMem E M} {T : RTable E M R} {k : Nat}
    {o : MOut (Cell (TreeData E M) (Nat × List E)) (Key R) R R} (ho : ∀ n, k ≤ n → mrun (foldBody F) p σ n (.up h) T = some (.ok o)) :
    Runs (refold F p ht T) σ (some o.val, o.work, o.table) σ := by
  refine ⟨k, fun f hf => ?_⟩
  unfold refold
  simp only [hh, ho f hf]

/-- One edit and the fold after it. -/
theorem going_step [LawfulMeta E M] {F : Fns (TreeData E M) R} {p : Name} {σ : RMem E M} {ht : HTree M} {t t' : RazTree E M} {T : RTable E M R}
    {v : Tree (Tr × TreeData E M)} {vs : List (Tree (Tr × TreeData E M))} {i : RazMeta.Index E M} {ops : List (LOp E)} {rest : List Name}
    (g : Going F p σ ht t T v vs (LOp.cells ops ++ rest)) (hl : ∀ z, t.focus i = .ok (some z) → z.Local ops) (he : t.edit i ops = .ok t') {x : Option R}
    (hx : t'.tree.foldUpMeta F.up = .ok x) : ∃ ht' σ' w T' v', Runs (ht.edit .dcg i ops) σ ht' σ' ∧ Runs (refold F p ht' T) σ' (x, w, T') σ' ∧
      w ≤ (2 * (t.tree.depth + LOp.points ops) + 1) * t'.tree.gap ∧ Going F p σ' ht' t' T' v' (v :: vs) rest := by
  have hc := nodup_count g.nodup
  simp only [List.count_append] at hc
  obtain ⟨ht', σ', h1, h2, S, h3⟩ := sim_runs (edit_sim g.rep g.inv g.canon hl (count_nodup fun x => by
    have := hc x; simp only [List.count_append]; omega)) he
  obtain ⟨v', a1, a2, a3⟩ := view_exists h2.tree
  have hsub := h3.names
  have hn' : (tN .dcg t'.tree ++ rest).Nodup := count_nodup fun x => by
    have := hc x
    have := hsub x
    simp only [List.count_append] at *
    omega
  have hn : (nodeNames v').Nodup := by rw [a3]; exact names_nodup (List.Nodup.of_append_left hn')
  obtain ⟨y, rfl⟩ := fold_some h3.full hx
  obtain ⟨h, hh⟩ := rep_root h2.tree h3.full
  have a1' := a1
  rw [hh] at a1'
  rw [← a2] at hx
  obtain ⟨o, o1, o2, o3⟩ := C60_session (F := fun _ => F) g.hist a1' hn hx
  subst o2
  have hnv : ∀ x, x ∈ nodeNames v ↔ x ∈ tN .dcg t.tree := fun x => by rw [← nodeNames_plain, g.plain, names_mem]
  have hr : NoReturn (v :: vs) v' := by
    intro m hm hno w hw hmw
    obtain ⟨n, k1, k2⟩ := memo_name hm
    obtain ⟨n', k3, k4⟩ := memo_name hmw
    have hnn : n = n' := by rcases k2 with rfl | rfl <;> rcases k4 with k4 | k4 <;> cases k4 <;> rfl
    subst hnn
    have hnot : n ∉ nodeNames v := by
      intro hnv
      have := name_memo (by rw [g.plain]; exact g.inv.wf.resolve_left g.full) n hnv
      rcases k2 with rfl | rfl
      · exact hno this.1
      · exact hno this.2
    rw [a3, names_mem] at k1
    rcases List.mem_append.1 (hsub.subset k1) with k1 | k1
    · exact hnot ((hnv n).2 k1)
    · exact g.past w hw n k3 (List.mem_append_left _ k1)
  refine ⟨ht', σ', o.work, o.table, v', h1, refold_runs hh o1, Nat.le_trans o3 (edited_cost h3 g.rep h2 g.view g.plain a1 a2 hn),
    h2, h3.inv, h3.canon, h3.full, a1, a2, .fold g.hist a1' hn hr hx (o1 _ (Nat.le_refl _)), hn', ?_⟩
  intro w hw x hx hx'
  rcases List.mem_cons.1 hw with rfl | hw
  · have b1 := List.count_pos_iff.2 ((hnv x).1 hx)
    have b2 := List.count_pos_iff.2 hx'
    have := hc x
    omega
  · exact g.past w hw x hx (List.mem_append_right _ hx')

theorem going_all [LawfulMeta E M] {F : Fns (TreeData E M) R} {p : Name} : ∀ (l : List (RazMeta.Index E M × List (LOp E))) {σ : RMem E M} {ht : HTree M}
    {t : RazTree E M} {T : RTable E M R} {v : Tree (Tr × TreeData E M)} {vs : List (Tree (Tr × TreeData E M))} {rest},
    Going F p σ ht t T v vs (restCells l) → t.LocalEdit l → t.refolds F.up l = .ok rest → ∃ outs σ', Runs (ht.refolds F p T l) σ outs σ' ∧
      List.Forall₂ (fun (q : Option R × Nat × Nat × Nat) (o : Option R × Nat) => o.1 = q.1 ∧ o.2 ≤ (2 * (q.2.1 + q.2.2.1) + 1) * q.2.2.2) rest outs := by
  intro l
  induction l with
  | nil =>
    intro σ ht t T v vs rest g hl hr
    cases hr
    exact ⟨[], σ, .pure, .nil⟩
  | cons q l ih =>
    obtain ⟨i, ops⟩ := q
    intro σ ht t T v vs rest g hl hr
    unfold RazTree.refolds at hr
    obtain ⟨t', e1, hr⟩ := bind_ok.1 hr
    obtain ⟨x, e2, hr⟩ := bind_ok.1 hr
    obtain ⟨rest', e3, hfin⟩ := bind_ok.1 hr
    cases hfin
    obtain ⟨ht', σ', w, T', v', k1, k2, k3, k4⟩ := going_step (rest := restCells l) g hl.1 e1 e2
    obtain ⟨outs, σ'', k5, k6⟩ := ih k4 (hl.2 t' e1) e3
    exact ⟨(x, w) :: outs, σ'', k1.bind (k2.bind (k5.bind .pure)), .cons ⟨rfl, k3⟩ k6⟩

omit [RazMeta E M] [DecidableEq E] in
theorem session_count {I : Type} (ops : List (LOp E)) (x : Name) : ∀ l : List (I × List (LOp E)),
    (sessionCells ops l).count x = (LOp.cells ops).count x + (restCells l).count x
  | [] => by simp [sessionCells, restCells]
  | (i, ops') :: l => by
    have := session_count ops x l
    simp only [sessionCells, restCells, List.flatMap_cons, List.count_append] at *
    omega

/-- **C79.** A program makes a sequence, folds it (memoised, in one namespace), and then edits it at one place after another; after each edit
it folds it again. If no name is used twice, then over the store every fold gives the result that a fold from scratch gives; the first runs the
function at most once for each node, and each later one at most `(2 * (depth + points) + 1) * gap` times, where `depth` is the depth of
the tree before the edit, `points` the number of named archive points of the edit, and `gap` the largest number of nodes of
the new tree that hang together without names. The rest of the sequence does not count, however long it is. -/
theorem C79_session [LawfulMeta E M] {F : Fns (TreeData E M) R} {p : Name} {ops : List (LOp E)} {l : List (RazMeta.Index E M × List (LOp E))}
    (hn : (sessionCells ops l).Nodup) (hl : LocalSession (M := M) ops l) {r : Option R} {size : Nat} {rest : List (Option R × Nat × Nat × Nat)}
    (hr : refoldSession (M := M) F.up ops l = .ok (r, size, rest)) (σ : RMem E M) :
    ∃ work outs f0, (∀ f, f0 ≤ f → (hrefoldSession F p ops l f σ).map (·.1) = .ok (r, work, outs)) ∧ work ≤ size ∧
      List.Forall₂ (fun (q : Option R × Nat × Nat × Nat) (o : Option R × Nat) =>
        o.1 = q.1 ∧ o.2 ≤ (2 * (q.2.1 + q.2.2.1) + 1) * q.2.2.2) rest outs := by
  unfold refoldSession at hr
  obtain ⟨z, e1, hr⟩ := bind_ok.1 hr
  obtain ⟨t, e2, hr⟩ := bind_ok.1 hr
  obtain ⟨x, e3, hr⟩ := bind_ok.1 hr
  obtain ⟨rest', e4, hfin⟩ := bind_ok.1 hr
  cases hfin
  have hc := nodup_count hn
  simp only [session_count] at hc
  have start : LInvs (Raz.new : Raz E M) (Raz.new : Raz E M) [] 0 := ⟨ZInv.empty, ZC.empty, rfl, rfl, fun x => Nat.le_refl _, Nat.le_refl _⟩
  have hnew : ∀ x, (cN .dcg (Raz.new : Raz E M).lForest ++ cN .dcg (Raz.new : Raz E M).rForest).count x = 0 := fun x => rfl
  have hnd : (cN .dcg (Raz.new : Raz E M).lForest ++ cN .dcg (Raz.new : Raz E M).rForest ++ LOp.cells ops).Nodup := count_nodup fun x => by
    have := hc x
    rw [List.count_append, hnew]
    omega
  obtain ⟨hz, σ1, k1, k2, k3, k4, -⟩ := sim_runs (lops_sim (σ := σ) ops start hl.1 RepZ.empty hnd) e1
  obtain ⟨ht, σ2, k5, k6, k7, k8, k9, k10, -⟩ := sim_runs (close_sim k3 k4 k2 hnd) e2
  obtain ⟨v, a1, a2, a3⟩ := view_exists k6.tree
  have hn' : (tN .dcg t.tree ++ restCells l).Nodup := count_nodup fun x => by
    have := hc x
    have h1 := k10 x
    rw [List.count_append, hnew] at h1
    simp only [List.nil_append] at h1
    rw [List.count_append]
    omega
  have hnv : (nodeNames v).Nodup := by rw [a3]; exact names_nodup (List.Nodup.of_append_left hn')
  obtain ⟨y, rfl⟩ := fold_some k9 e3
  obtain ⟨h, hh⟩ := rep_root k6.tree k9
  have a1' := a1
  rw [hh] at a1'
  rw [← a2] at e3
  obtain ⟨o, o1, o2, o3⟩ := first_fold (F := fun _ => F) (p := p) a1' hnv e3
  subst o2
  have g : Going F p σ2 ht t o.table v [] (restCells l) := ⟨k6, k7, k8, k9, a1, a2, .fold .start a1' hnv trivial e3 (o1 _ (Nat.le_refl _)), hn',
    fun w hw => by cases hw⟩
  obtain ⟨outs, σ3, g1, g2⟩ := going_all l g (hl.2 z t e1 e2) e4
  obtain ⟨f0, hrun⟩ : Runs (hrefoldSession F p ops l) σ (some o.val, o.work, outs) σ3 :=
    k1.bind (k5.bind ((refold_runs hh o1).bind (g1.bind .pure)))
  refine ⟨o.work, outs, f0, fun f hf => by rw [hrun f hf]; rfl, ?_, g2⟩
  rw [← plain_size, a2] at o3
  exact o3

/-! ### With names for all archive points -/

/-- Not an archive point without name. -/
def Titled : Item E → Prop
  | .elem _ => True
  | .mark _ nm => nm.isSome = true
  | .pend _ nm => nm.isSome = true

omit [RazMeta E M] [DecidableEq E] [DecidableEq M] [DecidableEq R] in
theorem popSide_mem {l : List (Item E)} {i : Item E} (h : i ∈ (popSide l).2) : i ∈ l := by
  rcases l with _ | ⟨j, _ | ⟨k, l⟩⟩
  · simp [popSide] at h
  · cases j <;> simp [popSide] at h
  · cases j
    · simp only [popSide] at h; exact List.mem_cons_of_mem _ h
    all_goals
      cases k <;> simp only [popSide, List.mem_cons] at h ⊢ <;> tauto

omit [RazMeta E M] [DecidableEq E] [DecidableEq M] [DecidableEq R] in
theorem archiveSide_mem {l : List (Item E)} {lev : Nat} {nm : Option Name} {i : Item E} (h : i ∈ archiveSide lev nm l) : i = .pend lev nm ∨ i ∈ l := by
  rcases l with _ | ⟨j, l⟩
  · cases h
  · cases j <;> simp only [archiveSide, List.mem_cons] at h ⊢ <;> tauto

/-- The sides of a cursor have no archive points without names. -/
structure AllTitled (z : Raz E M) : Prop where
  inv : ZInv z
  left : ∀ i ∈ z.left, Titled i
  right : ∀ i ∈ z.right, Titled i

omit [DecidableEq E] [DecidableEq M] in
theorem titled_lop {z z' : Raz E M} (h : AllTitled z) {op : LOp E} (ht : op.Titles) (hs : op.Lifts) (ho : z.lop op = .ok z') : AllTitled z' := by
  have cons : ∀ {x : E} {l : List (Item E)}, (∀ i ∈ l, Titled i) → ∀ i ∈ Item.elem x :: l, Titled i := by
    intro x l hl i hi
    rcases List.mem_cons.1 hi with rfl | hi
    · trivial
    · exact hl i hi
  have arch : ∀ {lev : Nat} {nm : Option Name} {l : List (Item E)}, nm.isSome = true → (∀ i ∈ l, Titled i) → ∀ i ∈ archiveSide lev nm l, Titled i := by
    intro lev nm l hnm hl i hi
    rcases archiveSide_mem hi with rfl | hi
    · exact hnm
    · exact hl i hi
  cases op with
  | pushL x =>
    cases ho
    obtain ⟨h1, h2, h3⟩ := pushLeft_ok h.inv x
    exact ⟨h1, h2 ▸ cons h.left, h3 ▸ h.right⟩
  | pushR x =>
    cases ho
    obtain ⟨h1, h2, h3⟩ := pushRight_ok h.inv x
    exact ⟨h1, h3 ▸ h.left, h2 ▸ cons h.right⟩
  | archL lev nm =>
    cases ho
    obtain ⟨h1, h2, h3⟩ := archiveLeft_ok h.inv hs nm
    exact ⟨h1, h2 ▸ arch ht h.left, h3 ▸ h.right⟩
  | archR lev nm =>
    cases ho
    obtain ⟨h1, h2, h3⟩ := archiveRight_ok h.inv hs nm
    exact ⟨h1, h3 ▸ h.left, h2 ▸ arch ht h.right⟩
  | popL =>
    obtain ⟨z1, h1, h2, h3, h4⟩ := popLeft_ok h.inv
    obtain ⟨⟨z2, e⟩, h5, hfin⟩ := bind_ok.1 ho
    rw [h1] at h5
    cases h5
    cases hfin
    exact ⟨h2, fun i hi => h.left i (popSide_mem (h3 ▸ hi)), h4 ▸ h.right⟩
  | popR =>
    obtain ⟨z1, h1, h2, h3, h4⟩ := popRight_ok h.inv
    obtain ⟨⟨z2, e⟩, h5, hfin⟩ := bind_ok.1 ho
    rw [h1] at h5
    cases h5
    cases hfin
    exact ⟨h2, h4 ▸ h.left, fun i hi => h.right i (popSide_mem (h3 ▸ hi))⟩

omit [DecidableEq E] [DecidableEq M] in
theorem local_lifts : ∀ {ops : List (LOp E)} {z z' : Raz E M}, z.Local ops → z.lops ops = .ok z' → ∀ op ∈ ops, op.Lifts
  | [], z, z', _, _, o, h => by cases h
  | op :: l, z, z', hl, ho, o, h => by
    obtain ⟨z1, h1, ho⟩ := bind_ok.1 ho
    rcases List.mem_cons.1 h with rfl | h
    · have := hl.1
      cases o <;> first | trivial | exact this
    · exact local_lifts (hl.2 z1 h1) ho o h

omit [DecidableEq E] [DecidableEq M] in
theorem titled_lops : ∀ {ops : List (LOp E)} {z z' : Raz E M}, AllTitled z → (∀ op ∈ ops, op.Titles) → (∀ op ∈ ops, op.Lifts) → z.lops ops = .ok z' →
    AllTitled z'
  | [], z, z', h, _, _, ho => by cases ho; exact h
  | op :: l, z, z', h, ht, hl, ho => by
    obtain ⟨z1, h1, ho⟩ := bind_ok.1 ho
    exact titled_lops (titled_lop h (ht op List.mem_cons_self) (hl op List.mem_cons_self) h1) (fun o ho => ht o (List.mem_cons_of_mem _ ho))
      (fun o ho => hl o (List.mem_cons_of_mem _ ho)) ho

/-- A tree without unnamed archive points. -/
structure TreeTitled (t : RazTree E M) : Prop where
  inv : TInv t
  items : ∀ i ∈ t.items, Titled i

omit [DecidableEq E] [DecidableEq M] in
theorem titled_unfocus {z : Raz E M} {t : RazTree E M} (h : AllTitled z) (hu : z.unfocus = .ok t) : TreeTitled t := by
  obtain ⟨t2, u1, u2, u3⟩ := unfocus_inv h.inv
  rw [hu] at u1
  cases u1
  refine ⟨u2, fun i hi => ?_⟩
  rw [u3] at hi
  obtain ⟨j, hj, rfl⟩ := List.mem_map.1 hi
  have : Titled j := by
    rcases glue_mem hj with hj | hj
    · exact h.left j hj
    · exact h.right j hj
  cases j with
  | elem => exact this
  | mark => exact this
  | pend lev nm => simp only [Titled, Item.settle, Option.isSome_map] at this ⊢; exact this

theorem titled_edit [LawfulMeta E M] {t t' : RazTree E M} (h : TreeTitled t) {i : RazMeta.Index E M} {ops : List (LOp E)} (ht : ∀ op ∈ ops, op.Titles)
    (hl : ∀ op ∈ ops, op.Lifts) (he : t.edit i ops = .ok t') : TreeTitled t' := by
  obtain ⟨o, e1, he⟩ := bind_ok.1 he
  obtain ⟨z, e2, he⟩ := bind_ok.1 he
  obtain ⟨z', e3, e4⟩ := bind_ok.1 he
  cases o with
  | none => cases e2
  | some z0 =>
    cases e2
    obtain ⟨k1, k2, -⟩ := focus_ok h.inv.wf e1
    have hz : AllTitled z := ⟨k1, fun i hi => h.items i (by rw [← k2]; simp [hi]), fun i hi => h.items i (by rw [← k2]; simp [hi])⟩
    exact titled_unfocus (titled_lops hz ht hl e3) e4

omit [DecidableEq E] [DecidableEq M] in
theorem edit_lifts {t t' : RazTree E M} {i : RazMeta.Index E M} {ops : List (LOp E)} (hl : ∀ z, t.focus i = .ok (some z) → z.Local ops)
    (he : t.edit i ops = .ok t') : ∀ op ∈ ops, op.Lifts := by
  obtain ⟨o, e1, he⟩ := bind_ok.1 he
  obtain ⟨z, e2, he⟩ := bind_ok.1 he
  obtain ⟨z', e3, -⟩ := bind_ok.1 he
  cases o with
  | none => cases e2
  | some z0 => cases e2; exact local_lifts (hl z e1) e3

omit [DecidableEq E] [DecidableEq M] in
theorem titled_gap {t : Tree (TreeData E M)} (hw : WF t) (h : ∀ i ∈ t.items, Titled i) : t.gap ≤ 1 := by
  induction hw with
  | leaf v => simp [Tree.gap, Tree.unnamed]
  | @branch lv nm l r _ _ _ ihl ihr =>
    simp only [Tree.items, List.mem_append, List.mem_cons] at h
    have h1 := ihl (fun i hi => h i (.inl hi))
    have h2 := ihr (fun i hi => h i (.inr (.inr hi)))
    have h3 := h _ (.inr (.inl rfl))
    cases nm with
    | none => cases h3
    | some n => simp only [Tree.gap, Tree.unnamed]; omega

theorem TreeTitled.gap {t : RazTree E M} (h : TreeTitled t) : t.tree.gap ≤ 1 := by
  rcases h.inv.wf with hn | hw
  · rw [hn]; simp [Tree.gap]
  · exact titled_gap hw h.items

omit [DecidableEq R] in
theorem titled_refolds [LawfulMeta E M] {up : Option R → TreeData E M → Nat → Option Name → Option R → P R} :
    ∀ (l : List (RazMeta.Index E M × List (LOp E))) {t : RazTree E M} {rest}, TreeTitled t → (∀ q ∈ l, ∀ op ∈ q.2, op.Titles) →
      t.LocalEdit l → t.refolds up l = .ok rest → ∀ q ∈ rest, q.2.2.2 ≤ 1
  | [], t, rest, _, _, _, hr => by cases hr; simp
  | (i, ops) :: l, t, rest, h, ht, hl, hr => by
    obtain ⟨t', e1, hr⟩ := bind_ok.1 hr
    obtain ⟨x, e2, hr⟩ := bind_ok.1 hr
    obtain ⟨rest', e3, hfin⟩ := bind_ok.1 hr
    cases hfin
    have h' := titled_edit h (ht _ List.mem_cons_self) (edit_lifts hl.1 e1) e1
    intro q hq
    rcases List.mem_cons.1 hq with rfl | hq
    · exact h'.gap
    · exact titled_refolds l h' (fun q hq => ht q (List.mem_cons_of_mem _ hq)) (hl.2 t' e1) e3 q hq

/-- **C79, named archive points.** If all archive points have names, then a fold after an edit runs the function at most
`2 * (depth + points) + 1` times. -/
theorem C79_named [LawfulMeta E M] {F : Fns (TreeData E M) R} {p : Name} {ops : List (LOp E)} {l : List (RazMeta.Index E M × List (LOp E))}
    (hn : (sessionCells ops l).Nodup) (hl : LocalSession (M := M) ops l) (ht : ∀ op ∈ ops, op.Titles) (ht' : ∀ q ∈ l, ∀ op ∈ q.2, op.Titles)
    {r : Option R} {size : Nat} {rest : List (Option R × Nat × Nat × Nat)} (hr : refoldSession (M := M) F.up ops l = .ok (r, size, rest))
    (σ : RMem E M) : ∃ work outs f0, (∀ f, f0 ≤ f → (hrefoldSession F p ops l f σ).map (·.1) = .ok (r, work, outs)) ∧ work ≤ size ∧
      List.Forall₂ (fun (q : Option R × Nat × Nat × Nat) (o : Option R × Nat) => o.1 = q.1 ∧ o.2 ≤ 2 * (q.2.1 + q.2.2.1) + 1) rest outs := by
  obtain ⟨work, outs, f0, h1, h2, h3⟩ := C79_session (p := p) hn hl hr σ
  refine ⟨work, outs, f0, h1, h2, ?_⟩
  have hg : ∀ q ∈ rest, q.2.2.2 ≤ 1 := by
    obtain ⟨z, e1, hr⟩ := bind_ok.1 hr
    obtain ⟨t, e2, hr⟩ := bind_ok.1 hr
    obtain ⟨x, e3, hr⟩ := bind_ok.1 hr
    obtain ⟨rest', e4, hfin⟩ := bind_ok.1 hr
    cases hfin
    have h0 : AllTitled (Raz.new : Raz E M) := ⟨ZInv.empty, fun i hi => (by cases hi), fun i hi => (by cases hi)⟩
    exact titled_refolds l (titled_unfocus (titled_lops h0 ht (local_lifts hl.1 e1) e1) e2) ht' (hl.2 z t e1 e2) e4
  clear hr h1 h2
  induction h3 with
  | nil => exact .nil
  | cons h _ ih =>
    refine .cons ⟨h.1, Nat.le_trans h.2 ?_⟩ (ih (fun q hq => hg q (List.mem_cons_of_mem _ hq)))
    exact Nat.le_trans (Nat.mul_le_mul_left _ (hg _ List.mem_cons_self)) (Nat.le_of_eq (Nat.mul_one _))

/-! ### A session that meets the conditions -/

/-- `Near` as a test. -/
def nearB : List (Item E) → Bool
  | .elem _ :: _ => true
  | .pend _ _ :: _ => true
  | _ => false

omit [RazMeta E M] [DecidableEq E] [DecidableEq M] [DecidableEq R] in
theorem nearB_sound {l : List (Item E)} (h : nearB l = true) : Iodyn.Near l := by
  rcases l with _ | ⟨i, l⟩
  · cases h
  · cases i with
    | elem => exact ⟨_, _, rfl, fun _ _ h => by cases h⟩
    | pend => exact ⟨_, _, rfl, fun _ _ h => by cases h⟩
    | mark => cases h

/-- `LOp.Stays` as a test. -/
def staysB (z : Raz E M) : LOp E → Bool
  | .archL lev _ => decide (1 ≤ lev)
  | .archR lev _ => decide (1 ≤ lev)
  | .popL => nearB z.left
  | .popR => nearB z.right
  | _ => true

omit [RazMeta E M] [DecidableEq E] [DecidableEq M] [DecidableEq R] in
theorem staysB_sound {z : Raz E M} {op : LOp E} (h : staysB z op = true) : op.Stays z := by
  cases op <;> simp only [staysB, decide_eq_true_eq] at h <;> first | exact h | exact nearB_sound h

/-- `Raz.Local` as a test. -/
def localB : List (LOp E) → Raz E M → Bool
  | [], z => nearB z.left || nearB z.right
  | op :: l, z => staysB z op && match z.lop op with
    | .ok z' => localB l z'
    | .error _ => true

omit [DecidableEq E] [DecidableEq M] in
theorem localB_sound : ∀ {l : List (LOp E)} {z : Raz E M}, localB l z = true → z.Local l
  | [], z, h => by
    simp only [localB, Bool.or_eq_true] at h
    exact h.imp nearB_sound nearB_sound
  | op :: l, z, h => by
    simp only [localB, Bool.and_eq_true] at h
    refine ⟨staysB_sound h.1, fun z' hz => localB_sound ?_⟩
    have := h.2
    rw [hz] at this
    exact this

/-- `RazTree.LocalEdit` as a test. -/
def editB : List (RazMeta.Index E M × List (LOp E)) → RazTree E M → Bool
  | [], _ => true
  | (i, ops) :: l, t =>
    (match t.focus i with
      | .ok (some z) => localB ops z
      | _ => true) &&
    match t.edit i ops with
    | .ok t' => editB l t'
    | .error _ => true

omit [DecidableEq E] [DecidableEq M] in
theorem editB_sound : ∀ {l : List (RazMeta.Index E M × List (LOp E))} {t : RazTree E M}, editB l t = true → t.LocalEdit l
  | [], t, _ => trivial
  | (i, ops) :: l, t, h => by
    simp only [editB, Bool.and_eq_true] at h
    refine ⟨fun z hz => localB_sound ?_, fun t' ht => editB_sound ?_⟩
    · have := h.1; rw [hz] at this; exact this
    · have := h.2; rw [ht] at this; exact this

/-- `LocalSession` as a test. -/
def sessionB (ops : List (LOp E)) (l : List (RazMeta.Index E M × List (LOp E))) : Bool :=
  localB ops (Raz.new : Raz E M) && match (do let z ← (Raz.new : Raz E M).lops ops; z.unfocus : P (RazTree E M)) with
    | .ok t => editB l t
    | .error _ => true

omit [DecidableEq E] [DecidableEq M] in
theorem sessionB_sound {ops : List (LOp E)} {l : List (RazMeta.Index E M × List (LOp E))} (h : sessionB (M := M) ops l = true) :
    LocalSession (M := M) ops l := by
  simp only [sessionB, Bool.and_eq_true] at h
  refine ⟨localB_sound h.1, fun z t e1 e2 => editB_sound ?_⟩
  have := h.2
  rw [show (do let z ← (Raz.new : Raz E M).lops ops; z.unfocus : P (RazTree E M)) = .ok t from bind_ok.2 ⟨z, e1, e2⟩] at this
  exact this

/-- A sequence of eight elements with archive points of levels 1, 2, 1, 3, 1, 2, 1. -/
def exOps : List (LOp Nat) :=
  [.pushL 1, .archL 1 (some (.usize 1)), .pushL 2, .archL 2 (some (.usize 2)), .pushL 3, .archL 1 (some (.usize 3)), .pushL 4,
    .archL 3 (some (.usize 4)), .pushL 5, .archL 1 (some (.usize 5)), .pushL 6, .archL 2 (some (.usize 6)), .pushL 7,
    .archL 1 (some (.usize 7)), .pushL 8]

/-- Edits near the left end, in the middle and near the right end: replacing, and inserting with archive points. -/
def exRounds : List (RazMeta.Index Nat Count × List (LOp Nat)) :=
  [((1 : Nat), [.popL, .pushL 10]), ((4 : Nat), [.pushL 20, .archL 1 (some (.usize 8)), .pushL 30]), ((7 : Nat), [.pushR 40, .pushR 50, .popR])]

set_option synthInstance.maxSize 1000 in
/-- The conditions of `C79_session` and `C79_named`, for a session of three edits in a tree of 15 nodes and depth 3. -/
example : (sessionCells exOps exRounds).Nodup ∧ LocalSession (M := Count) exOps exRounds ∧ (∀ op ∈ exOps, op.Titles) ∧
    (∀ q ∈ exRounds, ∀ op ∈ q.2, op.Titles) ∧
    refoldSession (M := Count) sumF.fns.up exOps exRounds = .ok (some 36, 15, [(some 45, 3, 0, 1), (some 95, 3, 1, 1), (some 135, 4, 0, 1)]) := by
  refine ⟨by decide +kernel, sessionB_sound (by decide +kernel), ?_, ?_, by decide +kernel⟩
  · simp [exOps, LOp.Titles]
  · simp [exRounds, LOp.Titles]

/-- What the folds of this session do over the store. -/
example : (hrefoldSession (M := Count) sumF.fns .unit exOps exRounds 99 Store.empty).map (·.1) =
    .ok (some 36, 15, [(some 45, 4), (some 95, 6), (some 135, 4)]) := by
  decide +kernel

/-- The same sequence without names. -/
def exPlain : List (LOp Nat) := exOps.map (fun
  | .archL lev _ => .archL lev none
  | op => op)

set_option synthInstance.maxSize 1000 in
/-- **C79, names are needed.** Without names each fold after an edit runs the function at every node (of 15); the gap is the whole tree. -/
theorem C79_unnamed : LocalSession (M := Count) exPlain exRounds.tail.tail ∧
    refoldSession (M := Count) sumF.fns.up exPlain exRounds.tail.tail = .ok (some 36, 15, [(some 76, 3, 0, 15)]) ∧
    (hrefoldSession (M := Count) sumF.fns .unit exPlain exRounds.tail.tail 99 Store.empty).map (·.1) = .ok (some 36, 15, [(some 76, 15)]) := by
  refine ⟨sessionB_sound (by decide +kernel), by decide +kernel, by decide +kernel⟩

end Iodyn.Incr
