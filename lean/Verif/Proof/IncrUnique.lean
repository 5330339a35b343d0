import Verif.Proof.IncrObs
import Verif.Proof.HeapSession
import Verif.Props.Session
/-
The memoised computation of eval/examples/unique_elms.rs against the plain one.
-/
namespace Iodyn.Incr.Obs
open Iodyn.Heap (Tr Cell Mem HTree)
open Iodyn.Skip (Skiplist Path ObsRes)
open Iodyn.Eval (UniqueElms.start UniqueElms.step UniqueElms.fin)
variable {E M V U K R A D X : Type}

/-! ### Searching and inserting -/

section
variable {callee : K → Store (Path E U) → Option (P (R × Store (Path E U)))} {σ : Store V}

/-- Going on with a result that may be a panic. -/
def go {B : Type} (x : P B) (k : B → Option (P (A × Store (Path E U)))) : Option (P (A × Store (Path E U))) :=
  match x with
  | .error q => some (.error q)
  | .ok b => k b

theorem exec_assert (b : Bool) (k : OProg V (Path E U) ObsParam (ObsRes E U) K R A) (τ : Store (Path E U)) :
    sexec skipView callee σ (assertO b k) τ = go (assert b) (fun _ => sexec skipView callee σ k τ) := by
  cases b <;> rfl

theorem exec_search (pathLen : Nat) (key : Word) (τ : Store (Path E U)) : ∀ (fuel : Nat) (a : Loc) (cur : List (Option Loc))
    (k : List (Option Loc) × Option (List (E × Option U)) → OProg V (Path E U) ObsParam (ObsRes E U) K R A),
    sexec skipView callee σ (searchFrom pathLen key fuel a cur k) τ =
      go (Skip.buildPathRec τ pathLen key fuel a cur) (fun r => sexec skipView callee σ (k r) τ) := by
  intro fuel
  induction fuel with
  | zero => intro a cur k; rfl
  | succ fuel ih =>
    intro a cur k
    unfold searchFrom Skip.buildPathRec
    simp only [sexec, Store.force, skipView]
    cases τ.cells a with
    | none => rfl
    | some w =>
      simp only [bind, Except.bind]
      cases Skip.buildPathStep a w pathLen key cur.length with
      | error q => rfl
      | ok res =>
        simp only
        cases res.kvs with
        | some kvs =>
          simp only
          rw [exec_assert]
          cases assert (decide ((cur ++ res.paths).length = pathLen)) <;> rfl
        | none =>
          simp only
          cases res.next with
          | some b => exact ih _ _ _
          | none =>
            simp only
            rw [exec_assert]
            cases assert (decide ((cur ++ res.paths).length = pathLen)) <;> rfl

theorem exec_ext [DecidableEq E] (hash : E → Word) (s : Skiplist) (x : E) (opv : Option U) (τ : Store (Path E U))
    (k : Skiplist × Option U → OProg V (Path E U) ObsParam (ObsRes E U) K R A) :
    sexec skipView callee σ (extProg hash s x opv k) τ = go (s.ext .dcg hash τ x opv) (fun r => sexec skipView callee σ (k r.2) r.1) := by
  unfold extProg Skiplist.ext Skiplist.search
  cases makeMask s.pathLen with
  | error q => rfl
  | ok mask =>
    simp only [bind, Except.bind]
    cases s.head with
    | none => rfl
    | some a =>
      simp only
      rw [exec_search]
      cases Skip.buildPathRec τ s.pathLen (hash x &&& mask) (s.pathLen + 1) a [] with
      | error q => rfl
      | ok r =>
        obtain ⟨cur, old⟩ := r
        cases old <;> rfl
end

/-! ### The fold -/

section
variable [DecidableEq E] {callee : LrKey Skiplist → Store (Path E Unit) → Option (P (Skiplist × Store (Path E Unit)))} {σ : Store V}

theorem step_error (hash : E → Word) (q : Panic) : ∀ v : List E, v.foldl (UniqueElms.step .dcg hash) (.error q) = .error q := by
  intro v
  induction v with
  | nil => rfl
  | cons x v ih => exact ih

theorem exec_vec (hash : E → Word) : ∀ (v : List E) (a : Skiplist) (τ : Store (Path E Unit))
    (k : Skiplist → OProg V (Path E Unit) ObsParam (ObsRes E Unit) (LrKey Skiplist) Skiplist Skiplist),
    sexec skipView callee σ (foldVecO (putProg hash) v a k) τ =
      go (v.foldl (UniqueElms.step .dcg hash) (.ok (τ, a))) (fun r => sexec skipView callee σ (k r.2) r.1) := by
  intro v
  induction v with
  | nil => intro a τ k; rfl
  | cons x v ih =>
    intro a τ k
    unfold foldVecO putProg
    rw [exec_ext, List.foldl_cons]
    have e : UniqueElms.step .dcg hash (.ok (τ, a)) x = (a.ext .dcg hash τ x (some ())).bind fun r => .ok (r.1, r.2.1) := rfl
    rw [e]
    cases a.ext .dcg hash τ x (some ()) with
    | error q => simp only [Except.bind, step_error, go]
    | ok r =>
      simp only [Except.bind, go]
      exact ih _ _ _

/-- What one node does. -/
def nodeF (hash : E → Word) (x : Store (Path E Unit) × Skiplist) (d : TreeData E M) (_ : Nat) (n : Option Name) : P (Store (Path E Unit) × Skiplist) :=
  match d with
  | .leaf v => UniqueElms.fin (v.foldl (UniqueElms.step .dcg hash) (.ok x)) n
  | _ => .ok x

theorem exec_node (hash : E → Word) (a : Skiplist) (d : TreeData E M) (l : Nat) (n : Option Name) (τ : Store (Path E Unit))
    (k : Skiplist → OProg V (Path E Unit) ObsParam (ObsRes E Unit) (LrKey Skiplist) Skiplist Skiplist) :
    sexec skipView callee σ (uniqueNode hash a d l n k) τ = go (nodeF hash (τ, a) d l n) (fun r => sexec skipView callee σ (k r.2) r.1) := by
  unfold uniqueNode archNode nodeF
  cases d with
  | leaf v =>
    simp only
    rw [exec_vec]
    cases v.foldl (UniqueElms.step .dcg hash) (.ok (τ, a)) with
    | error q => rfl
    | ok r => cases n <;> rfl
  | _ => rfl

/-- Pairs the other way round. -/
def turn (x : P (Store (Path E Unit) × Skiplist)) : P (Skiplist × Store (Path E Unit)) := x.map fun r => (r.2, r.1)

end

section
variable [DecidableEq E]

theorem run_fold (hash : E → Word) {σ : Mem (TreeData E M) X} : ∀ (v : Tree (Tr × TreeData E M)) {h : Tr}, View σ (some h) v → ∀ (m : Nat), v.size ≤ m →
    ∀ (c : Option Name) (a : Skiplist) (τ : Store (Path E Unit)),
      srun skipView (lrObsBody (uniqueNode hash)) σ m ⟨h, c, a⟩ τ = some (turn (Lr.foldP (nodeF hash) c (τ, a) v)) := by
  intro v
  induction v with
  | nil => intro h hv; cases hv
  | node lv n d l r ihl ihr =>
    intro h hv m hm c a τ
    cases hv with
    | @node _ d hl hr _ _ hc hvl hvr =>
    cases m with
    | zero => simp [Tree.size] at hm
    | succ m =>
      simp only [Tree.size] at hm
      have el : hl.isSome = l.isSome := by cases hvl <;> rfl
      have er : hr.isSome = r.isSome := by cases hvr <;> rfl
      have call : ∀ {t : Option Tr} {w : Tree (Tr × TreeData E M)} (_ : View σ t w) (_ : ∀ {h : Tr}, View σ (some h) w → ∀ (c : Option Name) (a : Skiplist) (τ : Store (Path E Unit)),
          srun skipView (lrObsBody (uniqueNode hash)) σ m ⟨h, c, a⟩ τ = some (turn (Lr.foldP (nodeF hash) c (τ, a) w)))
          (nm c : Option Name) (a : Skiplist) (τ : Store (Path E Unit)) (k : Skiplist → OProg (Cell (TreeData E M) X) (Path E Unit) ObsParam (ObsRes E Unit) (LrKey Skiplist) Skiplist Skiplist),
          sexec skipView (srun skipView (lrObsBody (uniqueNode hash)) σ m) σ (lrMemoO nm c a t k) τ =
            go (Lr.foldP (nodeF hash) c (τ, a) w) (fun r => sexec skipView (srun skipView (lrObsBody (uniqueNode hash)) σ m) σ (k r.2) r.1) := by
        intro t w hw ih nm c a τ k
        cases hw with
        | nil => rfl
        | node hc' hl' hr' =>
          have := ih (.node hc' hl' hr') c a τ
          unfold lrMemoO
          simp only [sexec]
          rw [this]
          cases Lr.foldP (nodeF hash) c (τ, a) _ <;> rfl
      have cl := call hvl (fun hv => ihl hv m (by omega))
      have cr := call hvr (fun hv => ihr hv m (by omega))
      simp only [srun, lrObsBody, sexec, hc, Lr.foldP, el, er]
      split
      · rw [cl]
        cases Lr.foldP (nodeF hash) c (τ, a) l with
        | error q => rfl
        | ok x1 =>
          simp only [go, bind, Except.bind]
          rw [exec_node]
          cases nodeF hash (x1.1, x1.2) d h.level h.name with
          | error q => rfl
          | ok x2 =>
            simp only [go]
            rw [cr]
            cases Lr.foldP (nodeF hash) h.name (x2.1, x2.2) r <;> rfl
      · rw [exec_node]
        cases nodeF hash (τ, a) d h.level c <;> rfl

theorem foldP_unique (hash : E → Word) (mt : M) (v : Tree (Tr × TreeData E M)) (x : Store (Path E Unit) × Skiplist) :
    Lr.foldP (nodeF hash) (some (.str "start")) x v =
      RazTree.foldLrArchive (.ok x) (UniqueElms.step .dcg hash) UniqueElms.fin (fun a _ => a) (⟨mt, plain v⟩ : RazTree E M) := by
  have e : ∀ (a : P (Store (Path E Unit) × Skiplist)) (d : TreeData E M) (l : Nat) (n : Option Name), (a.bind fun x => nodeF hash x d l n) =
      match d with
      | .leaf v => UniqueElms.fin (v.foldl (UniqueElms.step .dcg hash) a) n
      | _ => a := by
    intro a d l n
    cases a with
    | error q =>
      cases d with
      | leaf v => simp only [Except.bind, step_error]; rfl
      | _ => rfl
    | ok x => cases d <;> rfl
  rw [Lr.foldP_eq]
  unfold RazTree.foldLrArchive
  congr 1
  funext a d l n
  rw [e]
  cases d <;> rfl

theorem items_names (x : Name) : ∀ t : Tree (TreeData E M), (namesOf t.items).count x ≤ (Heap.tN .dcg t).count x := by
  intro t
  have nof : ∀ (a b : List (Item E)) (lv : Nat) (n : Option Name), namesOf (a ++ .mark lv n :: b) = namesOf a ++ (n.toList ++ namesOf b) := by
    intro a b lv n
    cases n <;> simp [namesOf]
  induction t with
  | nil => simp [Tree.items, namesOf]
  | node lv n d l r ihl ihr =>
    cases d with
    | leaf v =>
      have : namesOf ((Tree.node lv n (.leaf v) l r : Tree (TreeData E M)).items) = [] := by
        simp only [Tree.items, namesOf, List.filterMap_map, List.filterMap_eq_nil_iff]
        intro y _; rfl
      rw [this]; simp
    | branch a b => simp only [Tree.items, nof, Heap.tN, Heap.nm, List.count_append]; omega
    | dummy => simp only [Tree.items, nof, Heap.tN, Heap.nm, List.count_append]; omega

/-- The names of the sequence are good for this computation. -/
def ClearNames (t : RazTree E M) : Prop := .unit ∉ Heap.tN .dcg t.tree ∧ .str "start" ∉ Heap.tN .dcg t.tree

/-- The stored calls of this computation are good. -/
def UniqueOK [DecidableEq M] (hash : E → Word) (s : UqSpace E M) : Prop := TableOK skipView (lrObsBody (uniqueNode hash)) [] s

open Iodyn.Heap (Sim RepT tN) in
theorem unique_view [DecidableEq M] [RazMeta E M] (hash : E → Word) {L : Nat} (hL : 1 ≤ L) (hL' : L ≤ 63) {σ : Mem (TreeData E M) (Nat × List E)} {ht : HTree M}
    {t : RazTree E M} {s : UqSpace E M} {v : Tree (Tr × TreeData E M)} (v1 : View σ ht.tree v) (v2 : plain v = t.tree) (hn : (tN .dcg t.tree).Nodup)
    (hc : ClearNames t) (hr : t.Reachable .any) (hs : UniqueOK hash s) :
    ∃ sk s', (∀ f, v.size ≤ f → uniqueIn hash L ht s f σ = .ok ((sk, s'), σ)) ∧ (∀ x, sk.get hash s'.mem x = .ok (Eval.setOf t.elems x)) ∧ UniqueOK hash s' := by
  have cnt := fun x => items_names x t.tree
  have hni : (namesOf t.items).Nodup := List.nodup_iff_count_le_one.2 fun x => Nat.le_trans (cnt x) (List.nodup_iff_count_le_one.1 hn x)
  have nin : ∀ x, x ∉ tN .dcg t.tree → x ∉ namesOf t.items := by
    intro x hx h
    have h1 := List.count_pos_iff.2 h
    have h2 := List.count_eq_zero.2 hx
    have := cnt x
    rw [RazTree.items] at h1
    omega
  obtain ⟨τ', sk, h1, h2⟩ := Eval.C65_unique_skiplist (G := Unit) .dcg hash hL hL' s.mem (s := ⟨some t, 0, (), 0, 0, 0⟩) rfl hr
    (fun _ => ⟨hni, nin _ hc.1, nin _ hc.2⟩)
  have h1 : t.foldLrArchive (.ok (s.mem, UniqueElms.start L)) (UniqueElms.step .dcg hash) UniqueElms.fin (fun a _ => a) = .ok (τ', sk) := h1
  cases hh : ht.tree with
  | none =>
    rw [hh] at v1
    cases v1
    have ht0 : t.tree = .nil := v2.symm
    have h3 : (τ', sk) = (s.mem, UniqueElms.start L) := by
      unfold RazTree.foldLrArchive at h1
      rw [ht0] at h1
      exact (Except.ok.inj h1).symm
    cases h3
    exact ⟨_, s, fun f _ => by unfold uniqueIn; simp only [hh], h2, hs⟩
  | some h =>
    rw [hh] at v1
    have h3 := run_fold hash v v1 v.size (Nat.le_refl _) (some (.str "start")) (UniqueElms.start L) s.mem
    rw [foldP_unique hash t.info v, v2] at h3
    rw [show (⟨t.info, t.tree⟩ : RazTree E M) = t from rfl, h1] at h3
    obtain ⟨o, o1, o2, o3, o4⟩ := run_total hs h3
    refine ⟨o.val, o.space, fun f hf => ?_, fun x => ?_, o4⟩
    · unfold uniqueIn
      simp only [hh, o1 f hf]
    · rw [o2, o3]
      exact h2 x

open Iodyn.Heap (Sim RepT tN) in
theorem unique_sim [DecidableEq M] [RazMeta E M] (hash : E → Word) {L : Nat} (hL : 1 ≤ L) (hL' : L ≤ 63) {σ : Mem (TreeData E M) (Nat × List E)} {ht : HTree M}
    {t : RazTree E M} {s : UqSpace E M} (hrep : RepT .dcg σ ht.tree t.tree) (hn : (tN .dcg t.tree).Nodup) (hc : ClearNames t) (hr : t.Reachable .any)
    (hs : UniqueOK hash s) : Sim (uniqueRun hash L ht s) σ (.ok (fun x => .ok (Eval.setOf t.elems x) : E → P (Option Unit))) (fun b a σ' => σ' = σ ∧ a.1 = b ∧ UniqueOK hash a.2) := by
  obtain ⟨v, v1, v2, -⟩ := view_exists hrep
  obtain ⟨sk, s', h1, h2, h3⟩ := unique_view hash hL hL' v1 v2 hn hc hr hs
  refine ⟨(fun x => .ok (Eval.setOf t.elems x), s'), σ, ⟨v.size, fun f hf => ?_⟩, rfl, rfl, h3⟩
  unfold uniqueRun
  simp only [h1 f hf]
  congr 3
  funext x
  exact h2 x

open Iodyn.Heap (Sim RepT tN) in
theorem unique_numbered [DecidableEq M] [RazMeta E M] (hash : E → Word) {L : Nat} (hL : 1 ≤ L) (hL' : L ≤ 63) :
    Heap.ComputesN (uniqueRun (M := M) hash L) (fun t => .ok (fun x => .ok (Eval.setOf t.elems x))) (UniqueOK hash) := by
  intro σ ht t s h1 h2 ⟨k, h3⟩ h4 h5
  refine unique_sim hash hL hL' h1 h2 ⟨fun h => ?_, fun h => ?_⟩ h4.any h5
  · obtain ⟨j, -, h | h⟩ := h3 _ h <;> cases h
  · obtain ⟨j, -, h | h⟩ := h3 _ h <;> cases h
end

/-! ### Computations on variables, for trees without some names -/

section
open Iodyn.Heap (Sim RepV RepT HVars Fine vN tN cmdN CompAnswers vars_step_sim AllReach lists_step)
variable [RazMeta E M] {Sp B : Type}

/-- The names are neither in the variables nor in the statements. -/
def Free (bad : List Name) (vs : Vars E M) (cs : List (Cmd E (RazMeta.Index E M))) : Prop :=
  ∀ x ∈ bad, x ∉ vN .dcg vs ∧ x ∉ cs.flatMap (cmdN .dcg)

/-- The computation gives in namespaces of this kind, for trees as clients have them and without the names, what it gives from scratch. -/
def ComputesOff (bad : List Name) (run : HTree M → Sp → Heap.HR E M (B × Sp)) (scratch : RazTree E M → P B) (Inv : Sp → Prop) : Prop :=
  ∀ (σ : Mem (TreeData E M) (Nat × List E)) (ht : HTree M) (t : RazTree E M) (s : Sp), RepT .dcg σ ht.tree t.tree → (tN .dcg t.tree).Nodup →
    (∀ x ∈ bad, x ∉ tN .dcg t.tree) → t.Reachable .full → Inv s → Sim (run ht s) σ (scratch t) (fun b a σ' => σ' = σ ∧ a.1 = b ∧ Inv a.2)

variable {run : HTree M → Sp → Heap.HR E M (B × Sp)} {scratch : RazTree E M → P B} {Inv : Sp → Prop} {bad : List Name}

theorem comp_sim [LawfulMeta E M] (hc : ComputesOff bad run scratch Inv) {σ : Mem (TreeData E M) (Nat × List E)} {hvs : HVars E M} {vs : Vars E M}
    {S : Name → Sp} (h : RepV .dcg σ hvs vs) (hS : ∀ p, Inv (S p)) (hr : AllReach vs) (ev : CompEv E (RazMeta.Index E M))
    (l : List (CompEv E (RazMeta.Index E M))) (hl : ∀ c, ev = .stmt c → c.LevelOK) (hf : Fine .dcg vs (CompEv.stmts (ev :: l)))
    (hb : Free bad vs (CompEv.stmts (ev :: l))) :
    Sim (HVars.comp run hvs S ev) σ (vs.comp scratch ev) (fun b a σ' => RepV .dcg σ' a.1 b.1 ∧ a.2.2 = b.2 ∧ (∀ p, Inv (a.2.1 p)) ∧
      AllReach b.1 ∧ Fine .dcg b.1 (CompEv.stmts l) ∧ Free bad b.1 (CompEv.stmts l)) := by
  cases ev with
  | stmt c =>
    unfold HVars.comp Vars.comp
    refine (vars_step_sim h c hf.head).bind ?_
    rintro ⟨vs', o⟩ ⟨hvs', o'⟩ σ' hstep ⟨k1, k2, k3⟩
    simp only at k1 k2 k3; subst k2
    refine Sim.pure ⟨k1, rfl, hS, (lists_step hr (hl c rfl) hstep).2, hf.tail k3, fun x hx => ?_⟩
    obtain ⟨b1, b2⟩ := hb x hx
    have b2 : x ∉ cmdN .dcg c ++ (CompEv.stmts l).flatMap (cmdN .dcg) := b2
    simp only [List.mem_append, not_or] at b2
    refine ⟨fun hm => ?_, b2.2⟩
    have h1 := k3 x
    have h2 := List.count_pos_iff.2 hm
    have h3 := List.count_eq_zero.2 b1
    have h4 := List.count_eq_zero.2 b2.1
    simp only [List.count_append] at h1
    split at h1
    · simp only at h2; omega
    · simp only [List.count_nil] at h1 h2; omega
  | run p i =>
    have hf : Fine .dcg vs (CompEv.stmts l) := hf
    have hb : Free bad vs (CompEv.stmts l) := hb
    unfold HVars.comp Vars.comp
    rcases h.lookup i with ⟨h1, h2⟩ | ⟨h1, h2⟩ | ⟨hs, s, h1, h2, h3, hi, h4⟩ <;> simp only [h1, h2]
    · exact Sim.pure ⟨h, rfl, hS, hr, hf, hb⟩
    · exact Sim.pure ⟨h, rfl, hS, hr, hf, hb⟩
    · cases hs with
      | cursor hz =>
        cases s with
        | cursor z => exact Sim.pure ⟨h, rfl, hS, hr, hf, hb⟩
        | tree t => exact h3.elim
      | tree ht =>
        cases s with
        | cursor z => exact h3.elim
        | tree t =>
          have cnt : ∀ x, (tN .dcg t.tree).count x ≤ (vN .dcg vs).count x := by
            intro x
            have := Heap.vN_get (e := .dcg) vs i hi x
            rw [h4] at this
            exact this
          refine (hc σ ht t (S p) (Heap.RepRT.tree h3) ?_ ?_ (hr i _ h2) (hS p)).bind ?_
          · have hx : (vN .dcg vs).Nodup := by
              rcases hf with ⟨hf, -⟩ | ⟨-, hf⟩
              · rw [hf]; exact List.nodup_nil
              · exact (List.nodup_append.1 hf).1
            rw [List.nodup_iff_count_le_one] at hx ⊢
            exact fun x => Nat.le_trans (cnt x) (hx x)
          · intro x hx hm
            have h1 := List.count_pos_iff.2 hm
            have h2 := List.count_eq_zero.2 (hb x hx).1
            have := cnt x
            omega
          · rintro b ⟨b', s⟩ σ' - ⟨rfl, rfl, q1⟩
            refine Sim.pure ⟨h, rfl, ?_, hr, hf, hb⟩
            intro q
            by_cases hq : q = p
            · subst hq; simp only [if_true]; exact q1
            · simp only [if_neg hq]; exact hS q

theorem comps_sim [LawfulMeta E M] (hc : ComputesOff bad run scratch Inv) : ∀ (l : List (CompEv E (RazMeta.Index E M)))
    {σ : Mem (TreeData E M) (Nat × List E)} {hvs : HVars E M} {vs : Vars E M} {S : Name → Sp},
    RepV .dcg σ hvs vs → (∀ p, Inv (S p)) → AllReach vs → (∀ c ∈ CompEv.stmts l, c.LevelOK) → Fine .dcg vs (CompEv.stmts l) → Free bad vs (CompEv.stmts l) →
    Sim (HVars.comps run hvs S l) σ (vs.comps scratch l) (fun b a σ' => RepV .dcg σ' a.1 b.1 ∧ a.2.2 = b.2) := by
  intro l
  induction l with
  | nil => intro σ hvs vs S h _ _ _ _ _; exact Sim.pure ⟨h, rfl⟩
  | cons ev l ih =>
    intro σ hvs vs S h hS hr hl hf hb
    unfold HVars.comps Vars.comps
    refine (comp_sim hc h hS hr ev l (fun c hc => hl c (by subst hc; exact List.mem_cons_self)) hf hb).bind ?_
    rintro ⟨vs', o⟩ ⟨hvs', S', o'⟩ σ' - ⟨k1, k2, k3, k4, k5, k6⟩
    simp only at k1 k2 k3 k4 k5 k6; subst k2
    refine (ih k1 k3 k4 (fun c hc => hl c ?_) k5 k6).bind ?_
    · cases ev with
      | stmt => exact List.mem_cons_of_mem _ hc
      | run => exact hc
    · rintro ⟨vs'', os⟩ ⟨hvs'', S'', os'⟩ σ'' - ⟨q1, q2⟩
      simp only at q1 q2; subst q2
      exact Sim.pure ⟨q1, rfl⟩

theorem compAnswers_off [LawfulMeta E M] {new : Sp} (hc : ComputesOff bad run scratch Inv) (hnew : Inv new) (l : List (CompEv E (RazMeta.Index E M)))
    (hl : ∀ c ∈ CompEv.stmts l, c.LevelOK) (h : Fine .dcg ([] : Vars E M) (CompEv.stmts l)) (hb : Free bad ([] : Vars E M) (CompEv.stmts l)) :
    CompAnswers run new l (compAnswers scratch l) := by
  have h1 := comps_sim hc l (σ := Store.empty) (hvs := []) (vs := []) ⟨rfl, fun i h1 _ => by simp at h1⟩ (S := fun _ => new) (fun _ => hnew)
    (fun i s hi => by simp at hi) hl h hb
  unfold compAnswers
  unfold Sim at h1
  cases hx : Vars.comps (M := M) scratch [] l with
  | error p =>
    rw [hx] at h1
    obtain ⟨f0, hf⟩ := h1
    exact ⟨f0, fun f hle => by rw [hf f hle]; rfl⟩
  | ok b =>
    rw [hx] at h1
    obtain ⟨a, σ', ⟨f0, hf⟩, -, h3⟩ := h1
    exact ⟨f0, fun f hle => by rw [hf f hle]; exact congrArg Except.ok h3⟩

theorem unique_off [DecidableEq E] [DecidableEq M] (hash : E → Word) {L : Nat} (hL : 1 ≤ L) (hL' : L ≤ 63) :
    ComputesOff [.unit, .str "start"] (uniqueRun (M := M) hash L) (fun t => .ok (fun x => .ok (Eval.setOf t.elems x))) (UniqueOK hash) :=
  fun σ ht t s h1 h2 h3 h4 h5 => unique_sim hash hL hL' h1 h2 ⟨h3 _ (by simp), h3 _ (by simp)⟩ h4.any h5

omit [RazMeta E M] in
theorem cmdN_plain {I : Type} (c : Cmd E I) {x : Name} (hx : ∀ m, x ≠ .pair m (.str "tree")) (h : x ∉ c.names) : x ∉ cmdN .dcg c := by
  intro hm
  have h1 := Heap.cmdN_count c x
  have h2 := List.count_pos_iff.2 hm
  have h3 := List.count_eq_zero.2 h
  split at h1
  · exact hx _ rfl
  · omega
end
end Iodyn.Incr.Obs
