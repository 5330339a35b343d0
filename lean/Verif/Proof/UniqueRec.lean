import Verif.Proof.SkipSees
/-
The runs of `unique_elms` over trees without memoisation, with what they depend on.
-/
namespace Iodyn.Incr.Uq
open Iodyn.Heap (Tr Cell Mem)
open Iodyn.Skip
variable {E M X : Type} {L : Nat} {hash : E → Word}

/-! ### Stages -/

theorem put_before (st : Stage E) (x : E) : (st.put x).before = (cellLoc st.name st.cntr, x) :: st.before := rfl

theorem arch_before (st : Stage E) (c : Option Name) : (st.arch c).before = st.before := by cases c <;> rfl

theorem puts_suffix (v : List E) : ∀ st : Stage E, st.before <:+ (v.foldl Stage.put st).before := by
  induction v with
  | nil => exact fun _ => List.suffix_refl _
  | cons x v ih => exact fun st => (List.suffix_cons _ _).trans (ih (st.put x))

theorem leaf_suffix (st : Stage E) (l : Leaf E) : st.before <:+ (st.leaf l).before := by
  unfold Stage.leaf
  rw [arch_before]
  exact puts_suffix _ _

theorem leaves_suffix (ls : List (Leaf E)) : ∀ st : Stage E, st.before <:+ (ls.foldl Stage.leaf st).before := by
  induction ls with
  | nil => exact fun _ => List.suffix_refl _
  | cons x v ih => exact fun st => (leaf_suffix st x).trans (ih _)

theorem leafViews_append (a b : List (Leaf E)) : ∀ st : Stage E, leafViews L hash st (a ++ b) = leafViews L hash st a ++ leafViews L hash (a.foldl Stage.leaf st) b := by
  induction a with
  | nil => exact fun _ => rfl
  | cons x a ih => intro st; rw [List.cons_append, leafViews, ih]; rfl

/-- All cells so far are different. -/
def Apart (st : Stage E) : Prop := (st.before.map (·.1)).Nodup

theorem Apart.mono {s t : Stage E} (h : Apart t) (hs : s.before <:+ t.before) : Apart s := by
  unfold Apart at *
  obtain ⟨a, ha⟩ := hs
  rw [← ha, List.map_append] at h
  exact (List.nodup_append.1 h).2.1

variable [DecidableEq E]

theorem CellsOk.set {τ : Store (Path E Unit)} {l : Loc} {w : Path E Unit} : ∀ {bs : List (Loc × E)}, l ∉ bs.map (·.1) → CellsOk L hash τ bs → CellsOk L hash (τ.set l w) bs
  | [], _, _ => trivial
  | (l', x) :: bs, hl, h => by
    simp only [List.map_cons, List.mem_cons, not_or] at hl
    refine ⟨?_, CellsOk.set hl.2 h.2⟩
    show (if l' = l then some w else τ.cells l') = _
    rw [if_neg (Ne.symm hl.1)]
    exact h.1

section
variable {V K R A : Type} {callee : K → Store (Path E Unit) → Option (P (Rec V (Path E Unit) ObsParam (ObsRes E Unit) K R R))} {σ : Store V}

theorem texec_vec (hL : 1 ≤ L) (hL' : L ≤ 63) : ∀ (v : List E) (st : Stage E) (τ : Store (Path E Unit)), τ.path = [] → CellsOk L hash τ st.before →
    Apart (v.foldl Stage.put st) → ∃ τ' : Store (Path E Unit), τ'.path = [] ∧ CellsOk L hash τ' (v.foldl Stage.put st).before ∧
      ∀ k : Skiplist → OProg V (Path E Unit) ObsParam (ObsRes E Unit) K R R, texec skipView callee σ (foldVecO (putProg hash) v (st.handle L) k) τ =
        thenT [] (putsFacts L hash st.name st.cntr (seesAll L hash st v)) (texec skipView callee σ (k ((v.foldl Stage.put st).handle L)) τ') := by
  intro v
  induction v with
  | nil => exact fun st τ hp ck _ => ⟨τ, hp, ck, fun k => (thenT_nil _).symm⟩
  | cons x v ih =>
    intro st τ hp ck ha
    have ha1 : Apart (st.put x) := ha.mono (puts_suffix v (st.put x))
    have hl : cellLoc st.name st.cntr ∉ st.before.map (·.1) := by
      have : ((cellLoc st.name st.cntr) :: st.before.map (·.1)).Nodup := ha1
      exact (List.nodup_cons.1 this).1
    obtain ⟨τ', h1, h2, h3⟩ := ih (st.put x) (τ.set (cellLoc st.name st.cntr) (cellOf L hash (sees L hash st.before x) x)) hp
      ⟨by show (if _ = _ then _ else _) = _; rw [if_pos rfl], ck.set hl⟩ ha
    refine ⟨τ', h1, h2, fun k => ?_⟩
    unfold foldVecO
    rw [texec_put hL hL' st hp ck, h3, thenT_thenT]
    rfl

theorem handle_arch (st : Stage E) (c : Option Name) : archiveAt (st.handle L) c = (st.arch c).handle L := by cases c <;> rfl

end

theorem texec_node {V : Type} {callee : LrKey Skiplist → Store (Path E Unit) → Option (P (Rec V (Path E Unit) ObsParam (ObsRes E Unit) (LrKey Skiplist) Skiplist Skiplist))} {σ : Store V}
    (hL : 1 ≤ L) (hL' : L ≤ 63) (c : Option Name) (h : Tr) (d : TreeData E M) (lv : Nat) (st : Stage E) (τ : Store (Path E Unit)) (hp : τ.path = []) (ck : CellsOk L hash τ st.before)
    (ha : Apart ((ownLeaf c h d).foldl Stage.leaf st)) :
    ∃ τ' : Store (Path E Unit), τ'.path = [] ∧ CellsOk L hash τ' ((ownLeaf c h d).foldl Stage.leaf st).before ∧
      ∀ k : Skiplist → OProg V (Path E Unit) ObsParam (ObsRes E Unit) (LrKey Skiplist) Skiplist Skiplist,
        texec skipView callee σ (uniqueNode hash (st.handle L) d lv c k) τ =
          thenT [] ((leafViews L hash st (ownLeaf c h d)).flatMap (LeafView.facts L hash)) (texec skipView callee σ (k (((ownLeaf c h d).foldl Stage.leaf st).handle L)) τ') := by
  cases d with
  | leaf v =>
    obtain ⟨τ', h1, h2, h3⟩ := texec_vec (callee := callee) (σ := σ) hL hL' v st τ hp ck (ha.mono (by
      show _ <:+ ((v.foldl Stage.put st).arch c).before
      rw [arch_before]))
    refine ⟨τ', h1, ?_, fun k => ?_⟩
    · show CellsOk L hash τ' ((v.foldl Stage.put st).arch c).before
      rw [arch_before]; exact h2
    · show texec skipView callee σ (foldVecO (putProg hash) v (st.handle L) fun a => k (archiveAt a c)) τ = _
      rw [h3]
      simp only [ownLeaf, leafViews, List.flatMap_cons, List.flatMap_nil, List.append_nil, List.foldl_cons, List.foldl_nil, handle_arch]
      rfl
  | branch a b => exact ⟨τ, hp, ck, fun k => (thenT_nil _).symm⟩
  | dummy => exact ⟨τ, hp, ck, fun k => (thenT_nil _).symm⟩

/-! ### Trees -/

/-- The stage after a tree. -/
def afterTree (c : Option Name) (st : Stage E) (v : Tree (Tr × TreeData E M)) : Stage E := (leavesOf c v).foldl Stage.leaf st

theorem treeFacts_node (c n : Option Name) (h : Tr) (d : TreeData E M) (lv : Nat) (l r : Tree (Tr × TreeData E M)) (hb : (l.isSome || r.isSome) = true) (st : Stage E) :
    treeFacts L hash c st (.node lv n (h, d) l r) = treeFacts L hash c st l ++ (leafViews L hash (afterTree c st l) (ownLeaf n h d)).flatMap (LeafView.facts L hash) ++
      treeFacts L hash n ((leavesOf c l ++ ownLeaf n h d).foldl Stage.leaf st) r := by
  unfold treeFacts
  rw [leavesOf, if_pos hb, leafViews_append, leafViews_append, List.flatMap_append, List.flatMap_append]
  rfl

theorem tree_rec (hL : 1 ≤ L) (hL' : L ≤ 63) {σ : Mem (TreeData E M) X} : ∀ (v : Tree (Tr × TreeData E M)) {h : Tr}, View σ (some h) v → ∀ (m : Nat), v.size ≤ m →
    ∀ (c : Option Name) (st : Stage E) (τ : Store (Path E Unit)), τ.path = [] → CellsOk L hash τ st.before → Apart (afterTree c st v) →
    ∃ τ', trun skipView (lrObsBody (uniqueNode hash)) σ m ⟨h, c, st.handle L⟩ τ =
        some (.ok ⟨(afterTree c st v).handle L, treeReads v, treeFacts L hash c st v, treeCalls L hash c st v, τ'⟩) ∧
      τ'.path = [] ∧ CellsOk L hash τ' (afterTree c st v).before := by
  intro v
  induction v with
  | nil => intro h hv; cases hv
  | node lv n d l r ihl ihr =>
    intro h hv m hm c st τ hp ck ha
    cases hv with
    | @node _ d hl hr _ _ hc hvl hvr =>
    cases m with
    | zero => simp [Tree.size] at hm
    | succ m =>
      simp only [Tree.size] at hm
      have el : hl.isSome = l.isSome := by cases hvl <;> rfl
      have er : hr.isSome = r.isSome := by cases hvr <;> rfl
      have rl : rootOf l = hl := by cases hvl <;> rfl
      have rr : rootOf r = hr := by cases hvr <;> rfl
      have call : ∀ {t : Option Tr} {w : Tree (Tr × TreeData E M)} (_ : View σ t w) (_ : ∀ {h : Tr}, View σ (some h) w → ∀ (c : Option Name) (st : Stage E) (τ : Store (Path E Unit)),
          τ.path = [] → CellsOk L hash τ st.before → Apart (afterTree c st w) →
          ∃ τ', trun skipView (lrObsBody (uniqueNode hash)) σ m ⟨h, c, st.handle L⟩ τ =
            some (.ok ⟨(afterTree c st w).handle L, treeReads w, treeFacts L hash c st w, treeCalls L hash c st w, τ'⟩) ∧
          τ'.path = [] ∧ CellsOk L hash τ' (afterTree c st w).before)
          (nm c : Option Name) (st : Stage E) (τ : Store (Path E Unit)) (_ : τ.path = []) (_ : CellsOk L hash τ st.before) (_ : Apart (afterTree c st w)),
          ∃ τ', τ'.path = [] ∧ CellsOk L hash τ' (afterTree c st w).before ∧
            ∀ (k : Skiplist → OProg (Cell (TreeData E M) X) (Path E Unit) ObsParam (ObsRes E Unit) (LrKey Skiplist) Skiplist Skiplist)
              (o : Rec (Cell (TreeData E M) X) (Path E Unit) ObsParam (ObsRes E Unit) (LrKey Skiplist) Skiplist Skiplist),
              texec skipView (trun skipView (lrObsBody (uniqueNode hash)) σ m) σ (k ((afterTree c st w).handle L)) τ' = some (.ok o) →
              texec skipView (trun skipView (lrObsBody (uniqueNode hash)) σ m) σ (lrMemoO nm c (st.handle L) t k) τ =
                some (.ok { o with reads := treeReads w ++ o.reads, facts := treeFacts L hash c st w ++ o.facts,
                                   calls := branchCall L hash nm c st w (treeCalls L hash c st w) o.calls }) := by
        intro t w hw ih nm c st τ hp ck ha
        cases hw with
        | nil => exact ⟨τ, hp, ck, fun k o ho => ho⟩
        | node hc' hl' hr' =>
          obtain ⟨τ', t1, t2, t3⟩ := ih (.node hc' hl' hr') c st τ hp ck ha
          refine ⟨τ', t2, t3, fun k o ho => ?_⟩
          unfold lrMemoO
          simp only [texec]
          rw [t1]
          simp only [ho, thenCall]
          rfl
      have cl := call hvl (fun hv => ihl hv m (by omega))
      have cr := call hvr (fun hv => ihr hv m (by omega))
      simp only [trun, lrObsBody, texec, hc, el, er]
      by_cases hb : (l.isSome || r.isSome) = true
      · have hall : afterTree c st (.node h.level h.name (h, d) l r) = afterTree h.name ((leavesOf c l ++ ownLeaf h.name h d).foldl Stage.leaf st) r := by
          unfold afterTree
          rw [leavesOf, if_pos hb, List.foldl_append]
        have hmid : (leavesOf c l ++ ownLeaf h.name h d).foldl Stage.leaf st = (ownLeaf h.name h d).foldl Stage.leaf (afterTree c st l) := by
          rw [List.foldl_append]; rfl
        rw [hall] at ha ⊢
        have ha2 : Apart ((ownLeaf h.name h d).foldl Stage.leaf (afterTree c st l)) := by
          rw [← hmid]; exact ha.mono (leaves_suffix _ _)
        have ha1 : Apart (afterTree c st l) := ha2.mono (leaves_suffix _ _)
        rw [if_pos hb]
        obtain ⟨τ1, p1, k1, e1⟩ := cl (forks h.name).1 c st τ hp ck ha1
        obtain ⟨τ2, p2, k2, e2⟩ := texec_node (callee := trun skipView (lrObsBody (uniqueNode hash)) σ m) (σ := σ) hL hL' h.name h d h.level (afterTree c st l) τ1 p1 k1 ha2
        obtain ⟨τ3, p3, k3, e3⟩ := cr (forks h.name).2 h.name ((leavesOf c l ++ ownLeaf h.name h d).foldl Stage.leaf st) τ2 p2 (by rw [hmid]; exact k2) ha
        refine ⟨τ3, ?_, p3, k3⟩
        rw [e1 _ ⟨(afterTree h.name ((leavesOf c l ++ ownLeaf h.name h d).foldl Stage.leaf st) r).handle L, treeReads r,
          (leafViews L hash (afterTree c st l) (ownLeaf h.name h d)).flatMap (LeafView.facts L hash) ++ treeFacts L hash h.name ((leavesOf c l ++ ownLeaf h.name h d).foldl Stage.leaf st) r,
          branchCall L hash (forks h.name).2 h.name ((leavesOf c l ++ ownLeaf h.name h d).foldl Stage.leaf st) r
            (treeCalls L hash h.name ((leavesOf c l ++ ownLeaf h.name h d).foldl Stage.leaf st) r) .nil, τ3⟩ ?_]
        · rw [treeFacts_node c h.name h d h.level l r hb]
          simp only [thenT, treeReads, rl, rr, List.nil_append, List.append_assoc, List.singleton_append, treeCalls]
          have f1 : (forks h.name).1 = h.name.map .forkL := by cases h.name <;> rfl
          have f2 : (forks h.name).2 = h.name.map .forkR := by cases h.name <;> rfl
          rw [f1, f2]
        · rw [e2]
          rw [← hmid, e3 _ ⟨(afterTree h.name ((leavesOf c l ++ ownLeaf h.name h d).foldl Stage.leaf st) r).handle L, [], [], .nil, τ3⟩ rfl]
          simp [thenT]
      · have hall : leavesOf c (.node h.level h.name (h, d) l r) = ownLeaf c h d := by
          rw [leavesOf, if_neg hb]
        have hf : treeFacts L hash c st (.node h.level h.name (h, d) l r) = (leafViews L hash st (ownLeaf c h d)).flatMap (LeafView.facts L hash) := by
          unfold treeFacts; rw [hall]
        have hall' : afterTree c st (.node h.level h.name (h, d) l r) = (ownLeaf c h d).foldl Stage.leaf st := by unfold afterTree; rw [hall]
        rw [hall'] at ha ⊢
        rw [if_neg hb, hf]
        obtain ⟨τ2, p2, k2, e2⟩ := texec_node (callee := trun skipView (lrObsBody (uniqueNode hash)) σ m) (σ := σ) hL hL' c h d h.level st τ hp ck ha
        refine ⟨τ2, ?_, p2, k2⟩
        rw [e2]
        have hl0 : l = .nil := by cases l with | nil => rfl | node => exact absurd rfl hb
        have hr0 : r = .nil := by cases r with | nil => rfl | node => subst hl0; exact absurd rfl hb
        subst hl0; subst hr0
        cases hvl; cases hvr
        simp [thenT, texec, treeReads, rootOf, treeCalls, branchCall]

end Iodyn.Incr.Uq
