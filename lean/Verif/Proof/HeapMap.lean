import Verif.Model.HeapMap
import Verif.Proof.IncrMap
/-
`map` in the store of the tree itself.
-/
namespace Iodyn.Heap
open Iodyn.Incr (MapFn)
variable {E M D X : Type} {e : Engine}

theorem map_tN (g : MapFn D D) : ∀ {t t' : Tree D}, t.map g.val = .ok t' → tN e t' = tN e t := by
  intro t
  induction t with
  | nil => intro t' h; cases h; rfl
  | node lv n d l r ihl ihr =>
    intro t' h
    simp only [Tree.map] at h
    obtain ⟨l', h1, h⟩ := bind_ok.1 h
    obtain ⟨r', h2, h⟩ := bind_ok.1 h
    obtain ⟨d', h3, h⟩ := bind_ok.1 h
    cases h
    simp only [tN, ihl h1, ihr h2]

/-- What mapping does. The cells of the tree may be in the namespaces `Q` too, those of the mapped tree are in the current one. -/
def MapOK (Q : NsPath → Prop) (e : Engine) (g : MapFn D D) (t : Tree D) : Prop :=
  ∀ (h : Option Tr) (σ : Mem D X), @RepT D X ⟨Q⟩ e σ h t → (tN e t).Nodup →
    match t.map g.val with
    | .error q => ∀ n, t.size ≤ n → ∀ f, mapOpt (mapTree e g n) h f σ = .error q
    | .ok t' => ∃ h' σ', (∀ n, t.size ≤ n → ∀ f, mapOpt (mapTree e g n) h f σ = .ok (h', σ')) ∧ RepT e σ' h' t' ∧ Keeps (tN e t) σ σ' ∧
        (e = .dcg → ∀ x, h.bind Tr.name = some x → h' = h.map (fun t => { t with link := .named x σ.path }))

theorem mapTree_run (Q : NsPath → Prop) (e : Engine) (g : MapFn D D) : ∀ t : Tree D, MapOK (X := X) Q e g t := by
  intro t
  induction t with
  | nil =>
    intro h σ hr _
    cases hr
    exact ⟨none, σ, fun _ _ _ => rfl, rfl, Keeps.refl _ _, fun _ x hx => by cases hx⟩
  | node lv nm d l r ihl ihr =>
    rintro h σ ⟨k, hl, hr, rfl, h1, h2, h3, h4⟩ hn
    simp only [tN] at hn
    have cnt := List.nodup_iff_count_le_one.1 hn
    simp only [List.count_append] at cnt
    have nl : (tN e l).Nodup := List.nodup_iff_count_le_one.2 fun x => by have := cnt x; omega
    have nr : (tN e r).Nodup := List.nodup_iff_count_le_one.2 fun x => by have := cnt x; omega
    have dis : ∀ {a b : List Name}, (∀ x, a.count x + b.count x ≤ 1) → Dis a b := by
      intro a b hc x ha hb
      have h1 := List.count_pos_iff.2 ha
      have h2 := List.count_pos_iff.2 hb
      have := hc x; omega
    have drl : Dis (tN e r) (tN e l) := dis fun x => by have := cnt x; omega
    have dlr : Dis (tN e l) (tN e r) := drl.symm
    have dln : Dis (tN e l) (Heap.nm e nm) := dis fun x => by have := cnt x; omega
    have drn : Dis (tN e r) (Heap.nm e nm) := dis fun x => by have := cnt x; omega
    have start : ∀ n f, mapOpt (mapTree e g (n+1)) (some ⟨lv, nm, k⟩) f σ = (do
        let l' ← mapOpt (mapTree e g n) hl
        let r' ← mapOpt (mapTree e g n) hr
        let a ← peekOp l'
        let b ← peekOp r'
        let d' ← liftP (g d lv nm a b)
        let t' ← newTree e lv nm d' l' r'
        return some t' : H D X (Option Tr)) f σ := by
      intro n f
      have h0 := forceNode_run h2 f
      have e0 : ∀ t, mapOpt (mapTree (X := X) e g (n+1)) (some t) = (mapTree e g (n+1) t >>= fun t' => pure (some t')) := fun _ => rfl
      rw [e0]
      simp only [mapTree, Bind.bind, h0]
      cases mapOpt (mapTree e g n) hl f σ with
      | error q => rfl
      | ok x =>
        simp only
        cases mapOpt (mapTree e g n) hr f x.2 with
        | error q => rfl
        | ok y =>
          simp only
          cases peekOp x.1 f y.2 with
          | error q => rfl
          | ok z =>
            simp only
            cases peekOp y.1 f z.2 with
            | error q => rfl
            | ok w =>
              simp only
              cases (liftP (g d lv nm z.1 w.1) : H D X D) f w.2 with
              | error q => rfl
              | ok u => rfl
    have hl1 := ihl hl σ h3 nl
    simp only [Tree.map]
    cases hml : l.map g.val with
    | error q =>
      rw [hml] at hl1
      intro n hle f
      obtain ⟨n, rfl⟩ : ∃ m, n = m + 1 := ⟨n - 1, by simp only [Tree.size] at hle; omega⟩
      simp only [Tree.size] at hle
      rw [start]
      exact run_err (hl1 n (by omega) f)
    | ok l' =>
      rw [hml] at hl1
      obtain ⟨hl', σ1, a1, a2, a3, -⟩ := hl1
      have h4' := @RepT.keep D X ⟨Q⟩ e _ _ _ a3 _ _ h4 drl
      have hr1 := ihr hr σ1 h4' nr
      simp only [bind, Except.bind]
      cases hmr : r.map g.val with
      | error q =>
        rw [hmr] at hr1
        intro n hle f
        obtain ⟨n, rfl⟩ : ∃ m, n = m + 1 := ⟨n - 1, by simp only [Tree.size] at hle; omega⟩
        simp only [Tree.size] at hle
        rw [start, run_ok (a1 n (by omega) f)]
        exact run_err (hr1 n (by omega) f)
      | ok r' =>
        rw [hmr] at hr1
        obtain ⟨hr', σ2, b1, b2, b3, -⟩ := hr1
        have a2' := a2.keep b3 (by rw [map_tN g hml]; exact dlr)
        simp only
        have go : ∀ n, l.size + r.size ≤ n → ∀ f, mapOpt (mapTree e g (n+1)) (some ⟨lv, nm, k⟩) f σ = (do
            let d' ← liftP (g.val d lv nm l' r')
            let t' ← newTree e lv nm d' hl' hr'
            return some t' : H D X (Option Tr)) f σ2 := by
          intro n hle f
          rw [start, run_ok (a1 n (by omega) f), run_ok (b1 n (by omega) f), run_ok (peekOp_run a2' f), run_ok (peekOp_run b2 f)]
          rfl
        cases hg : g.val d lv nm l' r' with
        | error q =>
          intro n hle f
          obtain ⟨n, rfl⟩ : ∃ m, n = m + 1 := ⟨n - 1, by simp only [Tree.size] at hle; omega⟩
          simp only [Tree.size] at hle
          rw [go n (by omega), hg]
          rfl
        | ok d' =>
          obtain ⟨k', σ3, c1, c2, c3, c4⟩ := newTree_run e lv nm d' hl' hr' σ2
          refine ⟨some ⟨lv, nm, k'⟩, σ3, ?_, ?_, ?_, ?_⟩
          · intro n hle f
            obtain ⟨n, rfl⟩ : ∃ m, n = m + 1 := ⟨n - 1, by simp only [Tree.size] at hle; omega⟩
            simp only [Tree.size] at hle
            rw [go n (by omega), hg]
            exact run_ok (c1 f)
          · exact RepT.new c2 c3 c4 a2' b2 (by rw [map_tN g hml]; exact dln) (by rw [map_tN g hmr]; exact drn)
          · refine ((a3.mono ?_).trans (b3.mono ?_)).trans (c4.mono ?_)
            · intro x hx; simp [tN, hx]
            · intro x hx; simp [tN, hx]
            · intro x hx; simp [tN, hx]
          · rintro rfl x hx
            simp only [Option.bind_some] at hx
            subst hx
            obtain ⟨q, rfl | h, c2⟩ := c2
            · rw [c2, c4.path, b3.path, a3.path]; rfl
            · exact h.elim

theorem mapQ_sim [RazMeta E M] {Q : NsPath → Prop} {σ : RMem E M} {ht : HTree M} {t : RazTree E M} (hr : @RepT _ _ ⟨Q⟩ e σ ht.tree t.tree)
    (hn : (tN e t.tree).Nodup) (f : E → E) :
    Sim (HTree.map e f ht) σ (t.map f) (fun b a σ' => RepRT e σ' a b ∧ Keeps (tN e t.tree) σ σ' ∧ tN e b.tree = tN e t.tree ∧
      (e = .dcg → ∀ x, ht.tree.bind Tr.name = some x → a.tree = ht.tree.map (fun t => { t with link := .named x σ.path }))) := by
  rw [Incr.razMap_eq]
  have h1 := mapTree_run Q e (Incr.razMapFn f : MapFn (TreeData E M) (TreeData E M)) t.tree ht.tree σ hr hn
  cases hm : t.tree.map (Incr.razMapFn f : MapFn (TreeData E M) (TreeData E M)).val with
  | error q =>
    rw [hm] at h1
    refine ⟨t.tree.size, fun n hle => ?_⟩
    exact run_err (h1 n hle n)
  | ok t' =>
    rw [hm] at h1
    obtain ⟨h', σ', a1, a2, a3, a4⟩ := h1
    have h2 := mkTree_sim a2
    show Sim _ _ (mkRazTree t') _
    cases hk : (mkRazTree t' : P (RazTree E M)) with
    | error q =>
      rw [hk] at h2
      obtain ⟨f0, hf⟩ := h2
      refine ⟨max f0 t.tree.size, fun n hle => ?_⟩
      exact (run_ok (a1 n (by omega) n)).trans (hf n (by omega))
    | ok b =>
      rw [hk] at h2
      obtain ⟨a, σ'', ⟨f0, hf⟩, b1, b2, b3⟩ := h2
      subst b3
      refine ⟨a, σ'', ⟨max f0 t.tree.size, fun n hle => (run_ok (a1 n (by omega) n)).trans (hf n (by omega))⟩, b1, a3, ?_, ?_⟩
      · rw [b2, map_tN _ hm]
      · intro he x hx
        have : a.tree = h' := by
          have h5 := hf f0 (Nat.le_refl _)
          unfold mkTree at h5
          simp only [Bind.bind] at h5
          split at h5
          · cases h5
          · cases h5; rfl
        rw [this]
        exact a4 he x hx

theorem map_sim [RazMeta E M] {σ : RMem E M} {ht : HTree M} {t : RazTree E M} (hr : RepT e σ ht.tree t.tree) (hn : (tN e t.tree).Nodup) (f : E → E) :
    Sim (HTree.map e f ht) σ (t.map f) (fun b a σ' => RepRT e σ' a b ∧ Keeps (tN e t.tree) σ σ' ∧ tN e b.tree = tN e t.tree ∧
      (e = .dcg → ∀ x, ht.tree.bind Tr.name = some x → a.tree = ht.tree)) := by
  refine (mapQ_sim (Q := fun _ => False) hr hn f).mono ?_
  rintro b a σ' - ⟨k1, k2, k3, k4⟩
  refine ⟨k1, k2, k3, fun he x hx => ?_⟩
  rw [k4 he x hx]
  subst he
  cases ht' : t.tree with
  | nil => rw [ht'] at hr; rw [hr] at hx; cases hx
  | node lv n d l r =>
    rw [ht'] at hr
    obtain ⟨k, hl, hr', e1, e2, -⟩ := hr
    rw [e1] at hx ⊢
    simp only [Option.bind_some] at hx
    subst hx
    obtain ⟨q, rfl | h, h1⟩ := e2
    · simp [h1]
    · exact h.elim

end Iodyn.Heap
