import Verif.Proof.EditStep
import Verif.Proof.IncrAgain
import Mathlib.Data.List.Perm.Subperm
/-
The nodes that a fold visits after an edit.
-/
namespace Iodyn.Incr
open Iodyn.Heap
variable {E M D X : Type}

theorem plain_subs {w0 : Tree D} : ∀ {v : Tree (Tr × D)}, w0 ∈ subs (plain v) → ∃ w ∈ subs v, plain w = w0
  | .nil, h => by simp [plain, subs] at h
  | .node lv n (h', d) l r, h => by
    simp only [plain, subs, List.mem_cons, List.mem_append] at h
    rcases h with rfl | h | h
    · exact ⟨_, List.mem_cons_self, rfl⟩
    · obtain ⟨w, h1, h2⟩ := plain_subs h
      exact ⟨w, by simp [subs, h1], h2⟩
    · obtain ⟨w, h1, h2⟩ := plain_subs h
      exact ⟨w, by simp [subs, h1], h2⟩

/-- What is seen at a node inside a tree. -/
theorem view_sub {σ : Mem D X} {w : Tree (Tr × D)} : ∀ {v : Tree (Tr × D)} {h : Option Tr}, View σ h v → RepT .dcg σ h (plain v) → w ∈ subs v →
    View σ (rootH w) w ∧ RepT .dcg σ (rootH w) (plain w) ∧ plain w ∈ subs (plain v) := by
  intro v
  induction v with
  | nil => intro h _ _ hw; simp [subs] at hw
  | node lv n d l r ihl ihr =>
    intro h hv hr hw
    have hroot := hv.root
    simp only [subs, List.mem_cons, List.mem_append] at hw
    rcases hw with rfl | hw
    · exact ⟨hroot ▸ hv, hroot ▸ hr, subs_self (by obtain ⟨h', d⟩ := d; simp [plain])⟩
    · cases hv with
      | @node h d hl hr' _ _ hc h1 h2 =>
        obtain ⟨k, hl2, hr2, e, -, hc2, r1, r2⟩ := hr
        obtain rfl : h.link = k := by rw [Option.some.inj e]
        rw [hc] at hc2
        cases hc2
        rcases hw with hw | hw
        · obtain ⟨a1, a2, a3⟩ := ihl h1 r1 hw
          exact ⟨a1, a2, by simp [plain, subs, a3]⟩
        · obtain ⟨a1, a2, a3⟩ := ihr h2 r2 hw
          exact ⟨a1, a2, by simp [plain, subs, a3]⟩

theorem View.keep {σ σ' : Mem D X} {N : List Name} (hk : Keeps N σ σ') : ∀ {v : Tree (Tr × D)} {h : Option Tr}, View σ h v →
    RepT .dcg σ h (plain v) → Dis (tN .dcg (plain v)) N → View σ' h v := by
  intro v
  induction v with
  | nil => intro h hv _ _; cases hv; exact .nil
  | node lv n d l r ihl ihr =>
    intro h hv hr hd
    cases hv with
    | @node h d hl hr' _ _ hc h1 h2 =>
      obtain ⟨k, hl2, hr2, e, hlk, hc2, r1, r2⟩ := hr
      obtain rfl : h.link = k := by rw [Option.some.inj e]
      have hcc := hc
      rw [hc2] at hcc
      cases hcc
      refine .node ?_ (ihl h1 r1 (hd.mono (by simp [tN, plain]) (List.Subset.refl _)))
        (ihr h2 r2 (hd.mono (fun x hx => by simp [tN, plain, hx]) (List.Subset.refl _)))
      rw [hlk.cell hk (hd.mono (fun x hx => by simp [tN, plain, hx]) (List.Subset.refl _)), hc2]

/-- Named nodes, except those of `S`, are in the old tree with all that is below. -/
def Shared (S : List Name) (v v' : Tree D) : Prop :=
  ∀ lv n d l r, .node lv (some n) d l r ∈ subs v' → n ∉ S → Tree.node lv (some n) d l r ∈ subs v

theorem mark_sub {lv : Nat} {n : Name} : ∀ {t : Tree (TreeData E M)}, .mark lv (some n) ∈ t.items → ∃ d l r, .node lv (some n) d l r ∈ subs t
  | .nil, h => by simp [Tree.items] at h
  | .node lv' n' d' l' r', h => by
    have main : .mark lv (some n) ∈ l'.items ++ .mark lv' n' :: r'.items → ∃ d l r, .node lv (some n) d l r ∈ subs (.node lv' n' d' l' r') := by
      intro h
      simp only [List.mem_append, List.mem_cons] at h
      rcases h with h | h | h
      · obtain ⟨d, l, r, h⟩ := mark_sub h
        exact ⟨d, l, r, by simp [subs, h]⟩
      · cases h
        exact ⟨_, _, _, List.mem_cons_self⟩
      · obtain ⟨d, l, r, h⟩ := mark_sub h
        exact ⟨d, l, r, by simp [subs, h]⟩
    cases d' with
    | leaf v => simp [Tree.items] at h
    | dummy => exact main h
    | branch a b => exact main h

theorem sub_mark [RazMeta E M] {lv : Nat} {n : Name} {d : TreeData E M} {l r : Tree (TreeData E M)} {t : Tree (TreeData E M)} (ht : WF t)
    (h : .node lv (some n) d l r ∈ subs t) : .mark lv (some n) ∈ t.items := by
  induction ht with
  | leaf v => simp [subs] at h
  | branch h1 _ _ ihl ihr =>
    simp only [subs, List.mem_cons, List.mem_append] at h
    simp only [Tree.items, List.mem_append, List.mem_cons]
    rcases h with h | h | h
    · cases h; simp
    · exact .inl (ihl h)
    · exact .inr (.inr (ihr h))

theorem wf_sub [RazMeta E M] {w t : Tree (TreeData E M)} (ht : WF t) (h : w ∈ subs t) : WF w := by
  induction ht with
  | leaf v => simp [subs] at h; subst h; exact .leaf v
  | branch h1 a b ihl ihr =>
    simp only [subs, List.mem_cons, List.mem_append] at h
    rcases h with rfl | h | h
    · exact .branch h1 a b
    · exact ihl h
    · exact ihr h

/-- An edit leaves the rest of the tree as it is. -/
theorem edited_shared [RazMeta E M] {t t' : RazTree E M} {ops : List (LOp E)} {k : Nat} {S : List Name} {σ σ' : RMem E M} (h : Edited t t' ops k S σ σ')
    {ht ht' : HTree M} (hr : RepRT .dcg σ ht t) (hr' : RepRT .dcg σ' ht' t') {v v' : Tree (Tr × TreeData E M)}
    (hv : View σ ht.tree v) (hp : plain v = t.tree) (hv' : View σ' ht'.tree v') (hp' : plain v' = t'.tree) : Shared S v v' := by
  intro lv n d l r hw hns
  obtain ⟨a1, a2, a3⟩ := view_sub hv' (hp' ▸ hr'.tree) hw
  have hwf : WF t'.tree := h.inv.wf.resolve_left h.full
  obtain ⟨hd, d⟩ := d
  rw [hp'] at a3
  have hm := sub_mark hwf a3
  rcases h.old lv n hm with hm | ⟨hm, -⟩
  · obtain ⟨d0, l0, r0, hs⟩ := mark_sub hm
    have hap := h.apart lv n d0 l0 r0 hs hns
    rw [show t.tree = plain v from hp.symm] at hs
    obtain ⟨w0, hw0, hpw⟩ := plain_subs hs
    obtain ⟨b1, b2, b3⟩ := view_sub hv (hp ▸ hr.tree) hw0
    obtain ⟨_, _, _, e, hlk, -⟩ := a2
    rw [hpw] at b2
    obtain ⟨k0, _, _, e0, hlk0, -⟩ := id b2
    obtain ⟨q, hq, rfl⟩ := hlk
    obtain ⟨q0, hq0, rfl⟩ := hlk0
    have hq : q = σ'.path := hq.resolve_right id
    have hq0 : q0 = σ.path := hq0.resolve_right id
    rw [hq, h.keeps.path] at e
    rw [hq0] at e0
    have hk := View.keep h.keeps b1 (by rw [hpw]; exact b2) (by rw [hpw]; exact hap)
    rw [e0] at hk
    rw [e] at a1
    rw [View.unique a1 hk]
    exact hw0
  · exact absurd hm hns

/-- The nodes that are reached from the root through nodes without name or with a name in `S`. -/
def topCost (S : List Name) : Tree D → Nat
  | .nil => 0
  | .node _ none _ l r => 1 + topCost S l + topCost S r
  | .node _ (some n) _ l r => if n ∈ S then 1 + topCost S l + topCost S r else 1

theorem branch_points {lv : Nat} {n : Option Name} {d : D} {l r : Tree D} : ∀ {v : Tree D}, .node lv n d l r ∈ subs v →
    point (n.map .forkL) l ++ point (n.map .forkR) r ⊆ points v
  | .nil, h => by simp [subs] at h
  | .node lv' n' d' l' r', h => by
    simp only [subs, List.mem_cons, List.mem_append] at h
    rcases h with h | h | h
    · cases h
      intro x hx
      simp only [points, List.mem_append] at hx ⊢
      tauto
    · intro x hx
      have := branch_points h hx
      simp only [points, List.mem_append]
      tauto
    · intro x hx
      have := branch_points h hx
      simp only [points, List.mem_append]
      tauto

theorem cost_top [DecidableEq D] {S : List Name} {v : Tree D} : ∀ {v' : Tree D}, Shared S v v' → cost (points v) v' ≤ topCost S v'
  | .nil, _ => by simp [cost, topCost]
  | .node lv n d l r, h => by
    have hl := cost_top (v' := l) (fun lv n d l r hw => h lv n d l r (by simp [subs, hw]))
    have hr := cost_top (v' := r) (fun lv n d l r hw => h lv n d l r (by simp [subs, hw]))
    have le : cost (points v) (.node lv n d l r) ≤ 1 + cost (points v) l + cost (points v) r := by
      simp only [cost]; split <;> split <;> omega
    cases n with
    | none => simp only [topCost]; omega
    | some n =>
      simp only [topCost]
      split
      · omega
      · next hns =>
        have hp := branch_points (h lv n d l r (by simp [subs]) hns)
        have one : ∀ {m : Name} {c : Tree D}, point (some m) c ⊆ points v →
            (if (point (some m) c).any (· ∈ points v) then 0 else cost (points v) c) = 0 := by
          intro m c hs
          cases c with
          | nil => simp [point, cost]
          | node => simp only [point] at hs ⊢; simp [hs List.mem_cons_self]
        simp only [cost, Option.map_some]
        rw [one (List.Subset.trans (List.subset_append_left _ _) hp), one (List.Subset.trans (List.subset_append_right _ _) hp)]
        exact Nat.le_refl _

theorem unnamed_gap : ∀ t : Tree D, t.unnamed ≤ t.gap
  | .nil => Nat.le_refl _
  | .node lv n d l r => by simp only [Tree.gap]; exact Nat.le_max_left _ _

theorem top_gap {S : List Name} {g : Nat} : ∀ {t : Tree D}, t.gap ≤ g →
    topCost S t ≤ t.unnamed + 2 * g * ((nodeNames t).filter (· ∈ S)).length
  | .nil, _ => by simp [topCost]
  | .node lv n d l r, h => by
    simp only [Tree.gap] at h
    have hl := top_gap (S := S) (t := l) (g := g) (by omega)
    have hr := top_gap (S := S) (t := r) (g := g) (by omega)
    have ul := unnamed_gap l
    have ur := unnamed_gap r
    have eq : ((nodeNames (.node lv n d l r)).filter (· ∈ S)).length = (n.toList.filter (· ∈ S)).length +
        ((nodeNames l).filter (· ∈ S)).length + ((nodeNames r).filter (· ∈ S)).length := by
      simp only [nodeNames, List.filter_append, List.length_append]
    rw [eq]
    generalize ((nodeNames l).filter (· ∈ S)).length = a at *
    generalize ((nodeNames r).filter (· ∈ S)).length = b at *
    cases n with
    | none =>
      simp only [topCost, Tree.unnamed, Option.toList, List.filter_nil, List.length_nil, Nat.zero_add, Nat.mul_add] at *
      omega
    | some n =>
      simp only [topCost, Tree.unnamed]
      split
      · next hs =>
        simp only [Option.toList, List.filter_cons, hs, decide_true, if_true, List.filter_nil, List.length_cons, List.length_nil, Nat.mul_add] at *
        omega
      · omega

theorem top_bound {S : List Name} {t : Tree D} (hn : (nodeNames t).Nodup) : topCost S t ≤ (2 * S.length + 1) * t.gap := by
  have h1 := top_gap (S := S) (Nat.le_refl t.gap)
  have h2 := unnamed_gap t
  have h3 : ((nodeNames t).filter (· ∈ S)).length ≤ S.length := by
    refine (List.subperm_of_subset (List.Nodup.filter _ hn) ?_).length_le
    intro x hx
    simpa using (List.mem_filter.1 hx).2
  have h4 := Nat.mul_le_mul_left (2 * t.gap) h3
  have h5 : (2 * S.length + 1) * t.gap = 2 * t.gap * S.length + t.gap := by
    rw [Nat.add_mul, Nat.one_mul, Nat.mul_assoc, Nat.mul_comm S.length, Nat.mul_assoc]
  omega

theorem gap_plain : ∀ v : Tree (Tr × D), (plain v).gap = v.gap := by
  have hu : ∀ v : Tree (Tr × D), (plain v).unnamed = v.unnamed := by
    intro v
    induction v with
    | nil => rfl
    | node lv n d l r ihl ihr => obtain ⟨h, d⟩ := d; cases n <;> simp only [plain, Tree.unnamed, ihl, ihr]
  intro v
  induction v with
  | nil => rfl
  | node lv n d l r ihl ihr =>
    have := hu (.node lv n d l r)
    obtain ⟨h, d⟩ := d
    simp only [plain] at this ⊢
    simp only [Tree.gap, this, ihl, ihr]

/-- The work of a fold after an edit. -/
theorem edited_cost [RazMeta E M] [DecidableEq E] [DecidableEq M] {t t' : RazTree E M} {ops : List (LOp E)} {S : List Name} {σ σ' : RMem E M} (h : Edited t t' ops (t.tree.depth + LOp.points ops) S σ σ')
    {ht ht' : HTree M} (hr : RepRT .dcg σ ht t) (hr' : RepRT .dcg σ' ht' t') {v v' : Tree (Tr × TreeData E M)}
    (hv : View σ ht.tree v) (hp : plain v = t.tree) (hv' : View σ' ht'.tree v') (hp' : plain v' = t'.tree) (hn : (nodeNames v').Nodup) :
    cost (points v) v' ≤ (2 * (t.tree.depth + LOp.points ops) + 1) * t'.tree.gap := by
  refine Nat.le_trans (cost_top (edited_shared h hr hr' hv hp hv' hp')) (Nat.le_trans (top_bound hn) ?_)
  rw [← hp', gap_plain]
  have := h.len
  exact Nat.mul_le_mul_right _ (by omega)

theorem memo_name : ∀ {v : Tree D} {m : Name}, m ∈ memoNames v → ∃ n ∈ nodeNames v, m = .forkL n ∨ m = .forkR n := by
  have one : ∀ {nm : Option Name} {c : Tree D} {q : Name × Tree D}, q ∈ point nm c → nm = some q.1 := by
    intro nm c q hq
    cases nm with
    | none => cases c <;> cases hq
    | some m =>
      cases c with
      | nil => cases hq
      | node => simp only [point, List.mem_singleton] at hq; subst hq; rfl
  intro v
  induction v with
  | nil => intro m h; simp [memoNames, points] at h
  | node lv n d l r ihl ihr =>
    intro m h
    obtain ⟨q, hq, rfl⟩ := List.mem_map.1 h
    simp only [points, List.mem_append] at hq
    simp only [nodeNames, List.mem_append]
    rcases hq with ((hq | hq) | hq) | hq
    · have := one hq
      cases n with
      | none => cases this
      | some n => exact ⟨n, by simp, by simp only [Option.map_some, Option.some.injEq] at this; simp [this]⟩
    · have := one hq
      cases n with
      | none => cases this
      | some n => exact ⟨n, by simp, by simp only [Option.map_some, Option.some.injEq] at this; simp [this]⟩
    · obtain ⟨n, h1, h2⟩ := ihl (List.mem_map_of_mem hq)
      exact ⟨n, by tauto, h2⟩
    · obtain ⟨n, h1, h2⟩ := ihr (List.mem_map_of_mem hq)
      exact ⟨n, by tauto, h2⟩

theorem name_memo [RazMeta E M] : ∀ {v : Tree (Tr × TreeData E M)}, WF (plain v) → ∀ n ∈ nodeNames v, .forkL n ∈ memoNames v ∧ .forkR n ∈ memoNames v := by
  intro v
  induction v with
  | nil => intro _ n h; simp [nodeNames] at h
  | node lv n d l r ihl ihr =>
    intro hw m hm
    obtain ⟨h, d⟩ := d
    simp only [plain] at hw
    simp only [nodeNames, List.mem_append] at hm
    generalize hpl : plain l = pl at hw
    generalize hpr : plain r = pr at hw
    cases hw with
    | leaf v0 =>
      cases l with
      | node => simp [plain] at hpl
      | nil =>
        cases r with
        | node => simp [plain] at hpr
        | nil => simp [nodeNames] at hm
    | branch h1 wl wr =>
      have inl := ihl (hpl ▸ wl)
      have inr := ihr (hpr ▸ wr)
      simp only [memoNames, points, List.map_append, List.mem_append] at inl inr ⊢
      rcases hm with (hm | hm) | hm
      · cases n with
        | none => simp at hm
        | some n =>
          simp only [Option.toList, List.mem_singleton] at hm
          subst hm
          cases l with
          | nil => cases (show pl = .nil from hpl.symm ▸ rfl); cases wl
          | node =>
            cases r with
            | nil => cases (show pr = .nil from hpr.symm ▸ rfl); cases wr
            | node => simp [point]
      · have := inl m hm
        tauto
      · have := inr m hm
        tauto

end Iodyn.Incr
