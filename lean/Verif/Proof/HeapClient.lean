import Verif.Proof.HeapNsGood
import Verif.Proof.HeapMap
import Verif.Proof.HeapMemoVars
import Verif.Spec.HeapClient
/-
Clients that map and convert in namespaces: the store simulates the values as long as no event uses a variable with a replaced cell.
-/
namespace Iodyn.Heap
variable {E M C : Type} [RazMeta E M] {e : Engine}

/-! ### Stacks -/

/-- The handle stands for the stack, with cells as stated. -/
structure StandA (e : Engine) (σ : RMem E M) (f : Foot) (hs : ASt E) (s : AStack E Nat) : Prop where
  rep : ∃ p, p ∈ f.spaces ∧ @RepA (inSpaces f.spaces) _ E e (σ.at p) hs s
  sub : Sub (sN e s.archived) f.names

omit [RazMeta E M] in
theorem carry_A {F F' : Spaces} {σ σ' : RMem E M} {N : List Name} (h : Carries e F F' σ σ' N) {hs : ASt E} {s : AStack E Nat}
    (hr : @RepA F _ E e σ hs s) (hN : sN e s.archived ⊆ N) : @RepA F' _ E e σ' hs s := by
  obtain ⟨r1, r2⟩ := hr
  exact ⟨r1, carry_S h r2 hN⟩

omit [RazMeta E M] in
/-- Seen from another namespace. -/
theorem StandA.move {σ : RMem E M} {f : Foot} {hs : ASt E} {s : AStack E Nat} (h : StandA e σ f hs s) (p : NsPath) :
    @RepA (inSpaces f.spaces) _ E e (σ.at p) hs s := by
  obtain ⟨⟨q, hq, h⟩, -⟩ := h
  exact carry_A (link_moves (.inl hq) (fun x hx => List.mem_cons_of_mem _ hx)) h (List.Subset.refl _)

omit [RazMeta E M] in
theorem StandA.of {σ : RMem E M} {S S' : List NsPath} {N : List Name} {p : NsPath} {hs : ASt E} {s : AStack E Nat}
    (h : @RepA (inSpaces S) _ E e (σ.at p) hs s) (hp : p ∈ S') (hS : S ⊆ S') (hN : Sub (sN e s.archived) N) : StandA e σ ⟨N, S'⟩ hs s :=
  ⟨⟨p, hp, carry_A (link_moves (.inr rfl) (fun x hx => List.mem_cons_of_mem _ (hS hx))) h (List.Subset.refl _)⟩, hN⟩

omit [RazMeta E M] in
/-- What an event in the namespace `p` leaves in place. -/
theorem carries_frame {σ σ' : RMem E M} {f : Foot} {q p : NsPath} (hq : q ∈ f.spaces) {W W' N : List Name} (hN : N ⊆ f.names)
    (hk : Keeps W (σ.at p) σ') (hW : W ⊆ W') (hh : f.hit p W' = false) :
    Carries e (inSpaces f.spaces) (inSpaces f.spaces) (σ.at q) (σ'.at q) N := by
  intro n l hn hl
  have key : ∀ x, x ∈ N → ∀ q', (q' = q ∨ q' ∈ f.spaces) → σ'.cells (.named x q') = σ.cells (.named x q') := by
    intro x hx q' hq'
    have hq' : q' ∈ f.spaces := by
      rcases hq' with rfl | hq'
      · exact hq
      · exact hq'
    by_cases hpq : q' = p
    · subst hpq
      refine hk.named x (fun hxW => ?_)
      have : f.hit q' W' = true := by
        simp only [Foot.hit, Bool.and_eq_true, decide_eq_true_eq, List.any_eq_true]
        exact ⟨hq', x, hW hxW, hN hx⟩
      rw [hh] at this; cases this
    · exact hk.other x q' hpq
  cases e <;> cases n <;> first
    | (obtain ⟨k, rfl, hl⟩ := hl; exact ⟨⟨k, rfl, Nat.lt_of_lt_of_le hl hk.next⟩, hk.anon k hl⟩)
    | (obtain ⟨q', hq', rfl⟩ := hl
       exact ⟨⟨q', hq', rfl⟩, key _ (hn (by simp [nm])) q' hq'⟩)

omit [RazMeta E M] in
theorem StandA.frame {σ σ' : RMem E M} {f : Foot} {hs : ASt E} {s : AStack E Nat} (h : StandA e σ f hs s) {p : NsPath} {W W' : List Name}
    (hk : Keeps W (σ.at p) σ') (hW : W ⊆ W') (hh : f.hit p W' = false) : StandA e σ' f hs s := by
  obtain ⟨⟨q, hq, h⟩, hs⟩ := h
  exact ⟨⟨q, hq, carry_A (carries_frame hq hs.subset hk hW hh) h (List.Subset.refl _)⟩, hs⟩

/-- One stack. -/
def SameStack (e : Engine) (σ : RMem E M) (fo : Option Foot) : Option (ASt E) → Option (AStack E Nat) → Prop
  | none, none => True
  | some hs, some s => ∀ f, fo = some f → StandA e σ f hs s
  | _, _ => False

/-- All stacks. -/
structure RepSG (e : Engine) (σ : RMem E M) (hss : List (Option (ASt E))) (ss : List (Option (AStack E Nat))) (g : Feet) : Prop where
  len : hss.length = ss.length
  glen : g.length = ss.length
  get : ∀ i : Nat, SameStack e σ (g[i]?.join) (hss[i]?.join) (ss[i]?.join)

section
omit [RazMeta E M]
variable {σ σ' : RMem E M} {hss : List (Option (ASt E))} {ss : List (Option (AStack E Nat))} {g : Feet}

theorem RepSG.lookup (h : RepSG e σ hss ss g) (i : Nat) :
    (hss[i]? = none ∧ ss[i]? = none) ∨ (hss[i]? = some none ∧ ss[i]? = some none) ∨
      ∃ hs s, hss[i]? = some (some hs) ∧ ss[i]? = some (some s) ∧ ∀ f, g[i]?.join = some f → StandA e σ f hs s := by
  have hg := h.get i
  by_cases hi : i < ss.length
  · have hi' : i < hss.length := by rw [h.len]; exact hi
    rw [List.getElem?_eq_getElem hi', List.getElem?_eq_getElem hi] at hg ⊢
    cases h1 : hss[i] <;> cases h2 : ss[i] <;> rw [h1, h2] at hg
    · exact .inr (.inl ⟨rfl, rfl⟩)
    · exact hg.elim
    · exact hg.elim
    · exact .inr (.inr ⟨_, _, rfl, rfl, hg⟩)
  · exact .inl ⟨by rw [List.getElem?_eq_none]; rw [h.len]; omega, by rw [List.getElem?_eq_none]; omega⟩

theorem RepSG.append (h : RepSG e σ hss ss g) {fo : Option Foot} {ho : Option (ASt E)} {o : Option (AStack E Nat)} (hr : SameStack e σ fo ho o) :
    RepSG e σ (hss ++ [ho]) (ss ++ [o]) (g ++ [fo]) := by
  refine ⟨by simp [h.len], by simp [h.glen], fun i => ?_⟩
  rw [join_append, join_append, join_append, h.len, h.glen]
  split
  · exact h.get i
  · split
    · exact hr
    · exact trivial

theorem RepSG.set (h : RepSG e σ hss ss g) (i : Nat) {fo : Option Foot} {ho : Option (ASt E)} {o : Option (AStack E Nat)}
    (hr : SameStack e σ fo ho o) : RepSG e σ (hss.set i ho) (ss.set i o) (g.set i fo) := by
  refine ⟨by simp [h.len], by simp [h.glen], fun j => ?_⟩
  rw [join_set, join_set, join_set, h.len, h.glen]
  split
  · exact hr
  · exact h.get j

/-- The handle and the stack change, the cells do not. -/
theorem RepSG.put (h : RepSG e σ hss ss g) {i : Nat} {ho : Option (ASt E)} {o : Option (AStack E Nat)}
    (hr : SameStack e σ (g[i]?.join) ho o) : RepSG e σ (hss.set i ho) (ss.set i o) g := by
  refine ⟨by simp [h.len], by simp [h.glen], fun j => ?_⟩
  rw [join_set, join_set, h.len]
  split
  · rename_i hij; rw [← hij.1]; exact hr
  · exact h.get j

theorem RepSG.write (h : RepSG e σ hss ss g) {p : NsPath} {W W' : List Name}
    (hk : Keeps W (σ.at p) σ') (hW : W ⊆ W') : RepSG e σ' hss ss (g.write p W') := by
  refine ⟨h.len, by simp [Feet.write, h.glen], fun i => ?_⟩
  have hg := h.get i
  have hw : (g.write p W')[i]?.join = g[i]?.join.filter (fun f => !f.hit p W') := by
    simp only [Feet.write, List.getElem?_map]
    rcases g[i]? with _ | (_ | f) <;> rfl
  rw [hw]
  cases h1 : hss[i]?.join <;> cases h2 : ss[i]?.join <;> rw [h1, h2] at hg
  · exact trivial
  · exact hg
  · exact hg
  · intro f hf
    rw [Option.filter_eq_some_iff] at hf
    exact (hg f hf.1).frame hk hW (by simpa using hf.2)

theorem RepSG.path (h : RepSG e σ hss ss g) (p : NsPath) : RepSG e (σ.at p) hss ss g := by
  refine ⟨h.len, h.glen, fun i => ?_⟩
  have hg := h.get i
  cases h1 : hss[i]?.join <;> cases h2 : ss[i]?.join <;> rw [h1, h2] at hg
  · exact trivial
  · exact hg
  · exact hg
  · exact fun f hf => ⟨(hg f hf).rep, (hg f hf).sub⟩

end

/-! ### Events -/

/-- All variables. -/
structure RepCG (e : Engine) (σ : RMem E M) (hst : HSSt E M) (st : SSt E M) (g : CFeet) : Prop where
  vars : RepG e σ hst.vars st.vars g.vars
  stacks : RepSG e σ hst.stacks st.stacks g.stacks

/-- A statement, with the stacks. -/
theorem stmt_ns {σ : RMem E M} {hst : HSSt E M} {st : SSt E M} {g g' : CFeet} (h : RepCG e σ hst st g) (hp : σ.path = [])
    (c : Cmd E (RazMeta.Index E M)) (p : NsPath) (hg : g.step (C := C) st p (.ev (.stmt c)) = some g') :
    Sim (inNs p (HSSt.step e hst (.stmt c))) σ (st.step (.stmt c)) (fun b a σ' => RepCG e σ' a.1 b.1 g' ∧ a.2 = b.2 ∧ σ'.path = []) := by
  simp only [CFeet.step, Option.map_eq_some_iff] at hg
  obtain ⟨v, hv, rfl⟩ := hg
  have key : Sim (inNs p (HVars.step e hst.vars c)) σ (st.vars.step c) _ := step_ns h.vars hp c p hv
  have in_bind : ∀ {A B : Type} (q : NsPath) (m : HR E M A) (k : A → B), inNs q (m >>= fun a => pure (k a)) = (inNs q m >>= fun a => pure (k a)) := by
    intro A B q
    induction q with
    | nil => intro m k; rfl
    | cons n q ih =>
      intro m k
      show inNs q (ns n (m >>= fun a => pure (k a))) = _
      have : ns n (m >>= fun a => pure (k a)) = (ns n m >>= fun a => (pure (k a) : HR E M B)) := by
        funext f τ
        simp only [ns, Bind.bind, Pure.pure]
        cases m f { τ with path := n :: τ.path } <;> rfl
      rw [this, ih]
      rfl
  show Sim (inNs p (HVars.step e hst.vars c >>= fun a => pure ((⟨a.1, hst.stacks⟩ : HSSt E M), a.2))) σ _ _
  rw [in_bind]
  refine key.bind ?_
  rintro ⟨vs', o⟩ ⟨hvs', o'⟩ σ' - ⟨k1, k2, k3, k4⟩
  simp only at k1 k2 ⊢; subst k2
  have hσ : (σ'.at p).at [] = σ' := by rw [← k3]; rfl
  refine Sim.pure ⟨⟨k1, ?_⟩, rfl, k3⟩
  have := (h.stacks.write k4 (List.Subset.refl _)).path []
  rwa [hσ] at this

theorem cev_ns {fn : C → E → E} {σ : RMem E M} {hst : HSSt E M} {st : SSt E M} {g g' : CFeet} (h : RepCG e σ hst st g) (hp : σ.path = [])
    (ev : CEv E (RazMeta.Index E M) C) (p : NsPath) (hg : g.step st p ev = some g') :
    Sim (inNs p (HSSt.cev e fn hst ev)) σ (st.cev fn ev) (fun b a σ' => RepCG e σ' a.1 b.1 g' ∧ a.2 = b.2 ∧ σ'.path = []) := by
  have go : ∀ {x : P (SSt E M × Out E)} {m : HR E M (HSSt E M × Out E)},
      Sim m (σ.at p) x (fun b a σ' => σ'.path = p ∧ RepCG e (σ'.at []) a.1 b.1 g' ∧ a.2 = b.2 ∧ (σ'.at []).path = []) →
      Sim (inNs p m) σ x (fun b a σ' => RepCG e σ' a.1 b.1 g' ∧ a.2 = b.2 ∧ σ'.path = []) := by
    intro x m hm
    refine inNs_sim p ?_
    rw [hp, List.append_nil]
    exact hm
  have nop : g' = g → Sim (inNs p (pure (hst, Out.unit) : HR E M (HSSt E M × Out E))) σ (.ok (st, Out.unit))
      (fun b a σ' => RepCG e σ' a.1 b.1 g' ∧ a.2 = b.2 ∧ σ'.path = []) := by
    rintro rfl
    exact go (Sim.pure ⟨rfl, ⟨(h.vars.path p).path [], (h.stacks.path p).path []⟩, rfl, rfl⟩)
  obtain ⟨hvs, hss⟩ := hst
  obtain ⟨vs, ss⟩ := st
  obtain ⟨gv, gs⟩ := g
  obtain ⟨hV, hS⟩ := h
  simp only at hV hS
  have rej : ∀ d, Sim (inNs p (pure (⟨hvs.set d none, hss⟩, Out.unit) : HR E M (HSSt E M × Out E))) σ (.ok ((⟨vs.set d none, ss⟩ : SSt E M), Out.unit))
      (fun b a σ' => RepCG e σ' a.1 b.1 ⟨gv.set d none, gs⟩ ∧ a.2 = b.2 ∧ σ'.path = []) := by
    intro d
    refine inNs_sim p ?_
    rw [hp, List.append_nil]
    exact Sim.pure ⟨rfl, ⟨((hV.path p).path []).set d trivial, (hS.path p).path []⟩, rfl, rfl⟩
  -- a tree made in the namespace
  have fresh : ∀ {σ' : RMem E M} {ht : HTree M} {t : RazTree E M} {f : Foot}, σ'.path = p → RepRT e σ' ht t → Sub (tN e t.tree) f.names →
      Standing e (σ'.at []) ⟨f.names, [p]⟩ (.tree ht) (.tree t) := by
    intro σ' ht t f hpath hr hN
    have hσ : σ'.at p = σ' := by rw [← hpath]; rfl
    refine ⟨⟨p, by simp, ?_⟩, hN⟩
    show @RepSt (inSpaces [p]) E M _ e (σ'.at p) _ _
    rw [hσ]
    obtain ⟨r1, r2⟩ := hr
    show @RepRT (inSpaces [p]) E M e σ' ht t
    refine @RepRT.mk (inSpaces [p]) E M e σ' ht t r1 (carry_T (F := noSpaces) (F' := inSpaces [p]) (N := tN e t.tree) (fun n l _ hl => ⟨?_, rfl⟩) r2 (List.Subset.refl _))
    cases e <;> cases n <;> first
      | exact hl
      | (obtain ⟨q, hq, rfl⟩ := hl
         rcases hq with rfl | hq
         · exact ⟨_, .inl rfl, rfl⟩
         · exact hq.elim)
  cases ev with
  | ev x =>
    cases x with
    | stmt c => exact stmt_ns (C := C) (g := ⟨gv, gs⟩) ⟨hV, hS⟩ hp c p hg
    | stack =>
      cases hg
      refine go (Sim.pure ⟨rfl, ⟨(hV.path p).path [], ((hS.path p).path []).append ?_⟩, rfl, rfl⟩)
      rintro f ⟨⟩
      refine ⟨⟨p, by simp, @RepA.new (inSpaces [p]) E e _ _⟩, fun x => ?_⟩
      simp [AStack.new, sN]
    | sclone j =>
      simp only [HSSt.cev, SSt.cev, HSSt.step, SSt.step, CFeet.step] at hg ⊢
      rcases hS.lookup j with ⟨h1, h2⟩ | ⟨h1, h2⟩ | ⟨hs, s, h1, h2, h3⟩ <;> simp only [h1, h2] at hg ⊢
      · cases hg; exact nop rfl
      · cases hg; exact nop rfl
      · cases hg
        refine go (Sim.pure ⟨rfl, ⟨(hV.path p).path [], ((hS.path p).path []).append (fun f hf => ?_)⟩, rfl, rfl⟩)
        exact ⟨(h3 f hf).rep, (h3 f hf).sub⟩
    | spush j y =>
      simp only [HSSt.cev, SSt.cev, HSSt.step, SSt.step, CFeet.step] at hg ⊢
      rcases hS.lookup j with ⟨h1, h2⟩ | ⟨h1, h2⟩ | ⟨hs, s, h1, h2, h3⟩ <;> simp only [h1, h2] at hg ⊢
      · cases hg; exact nop rfl
      · cases hg; exact nop rfl
      · cases hg
        refine go (Sim.pure ⟨rfl, ⟨(hV.path p).path [], ((hS.path p).path []).put (fun f hf => ?_)⟩, rfl, rfl⟩)
        obtain ⟨⟨q, hq, hr⟩, hn⟩ := h3 f hf
        exact ⟨⟨q, hq, @RepA.push (inSpaces f.spaces) E e _ _ _ _ hr y⟩, hn⟩
    | sarch j n lev =>
      simp only [HSSt.cev, SSt.cev, HSSt.step, SSt.step, CFeet.step] at hg ⊢
      rcases hS.lookup j with ⟨h1, h2⟩ | ⟨h1, h2⟩ | ⟨hs, s, h1, h2, h3⟩ <;> simp only [h1, h2] at hg ⊢
      · cases hg; exact nop rfl
      · cases hg; exact nop rfl
      · cases hf : gs[j]?.join with
        | none => rw [hf] at hg; cases hg
        | some f =>
          rw [hf] at hg
          simp only at hg
          split at hg
          · rename_i hnd
            cases hg
            have hst := h3 f hf
            have hcn := nodup_count hnd
            have hnm : Sub (nm e n) n.toList := fun x => by cases e <;> simp [nm]
            obtain ⟨hs', σ', a1, a2, a3⟩ := @archive_run (inSpaces f.spaces) _ _ e _ hs s (hst.move p) n lev (dis_count fun x => by
              have := hcn x; have := hst.sub x; have := hnm x; simp only [List.count_append] at *; omega)
            have hσ : σ'.at p = σ' := by rw [← (show σ'.path = p from a3.path)]; rfl
            refine go (Sim.step a1 (Sim.pure ⟨a3.path, ⟨(hV.write a3 hnm.subset).path [], ((hS.write a3 hnm.subset).path []).set j ?_⟩, rfl, rfl⟩))
            rintro f' ⟨⟩
            refine StandA.of (σ := σ'.at []) (S := f.spaces) (p := p) (by show @RepA (inSpaces _) _ E e (σ'.at p) _ _; rw [hσ]; exact a2) (by simp)
              (List.subset_cons_self _ _) (fun x => ?_)
            have q1 := archive_names (e := e) s n lev x
            have := hst.sub x; have := hnm x
            simp only [skN, List.count_append] at *; omega
          · cases hg
    | conv w j =>
      simp only [HSSt.cev, SSt.cev, HSSt.step, SSt.step, CFeet.step] at hg ⊢
      rcases hS.lookup j with ⟨h1, h2⟩ | ⟨h1, h2⟩ | ⟨hs, s, h1, h2, h3⟩ <;> simp only [h1, h2] at hg ⊢
      · cases hg; exact nop rfl
      · cases hg; exact nop rfl
      · cases hf : gs[j]?.join with
        | none => rw [hf] at hg; cases hg
        | some f =>
          rw [hf] at hg
          simp only at hg
          split at hg
          · rename_i hnd
            cases hg
            have hst := h3 f hf
            refine go ((conv_sim (Q := (· ∈ f.spaces)) (hst.move p) (count_nodup fun x => Nat.le_trans (hst.sub x) (nodup_count hnd x)) w).bind ?_)
            rintro t ht σ' - ⟨k1, k2, k3⟩
            refine Sim.pure ⟨k3.path, ⟨((hV.write k3 hst.sub.subset).path []).append ⟨trivial, ?_⟩,
              ((hS.write k3 hst.sub.subset).path []).set j (fo := none) (ho := none) (o := none) trivial⟩, rfl, rfl⟩
            rintro f' ⟨⟩
            exact fresh k3.path k1 (k2.trans hst.sub)
          · cases hg
  | map c i d =>
    simp only [HSSt.cev, SSt.cev, CFeet.step] at hg ⊢
    rcases hV.lookup i with ⟨h1, h2⟩ | ⟨h1, h2⟩ | ⟨hs, s, h1, h2, h3, h4⟩ <;> simp only [h1, h2] at hg ⊢
    · cases hg; exact rej d
    · cases hg; exact rej d
    · cases hs with
      | cursor hz =>
        cases s with
        | cursor z => cases hg; exact rej d
        | tree t => exact h3.elim
      | tree ht =>
        cases s with
        | cursor z => exact h3.elim
        | tree t =>
          simp only at hg ⊢
          cases hf : gv[i]?.join with
          | none => rw [hf] at hg; cases hg
          | some f =>
            rw [hf] at hg
            simp only at hg
            split at hg
            · rename_i hnd
              cases hg
              have hst := h4 f hf
              have hr : @RepRT (inSpaces f.spaces) E M e (σ.at p) ht t := hst.move (List.Subset.refl _) p
              refine go ((mapQ_sim (Q := (· ∈ f.spaces)) (@RepRT.tree (inSpaces f.spaces) E M e _ _ _ hr)
                (count_nodup fun x => Nat.le_trans (hst.sub x) (nodup_count hnd x)) (fn c)).bind ?_)
              rintro b a σ' - ⟨k1, k2, k3, -⟩
              refine Sim.pure ⟨k2.path, ⟨((hV.write k2 hst.sub.subset).path []).set d ⟨trivial, ?_⟩,
                (hS.write k2 hst.sub.subset).path []⟩, rfl, rfl⟩
              rintro f' ⟨⟩
              exact fresh k2.path k1 (by rw [k3]; exact hst.sub)
            · cases hg
  | conv w j d =>
    simp only [HSSt.cev, SSt.cev, CFeet.step] at hg ⊢
    rcases hS.lookup j with ⟨h1, h2⟩ | ⟨h1, h2⟩ | ⟨hs, s, h1, h2, h3⟩ <;> simp only [h1, h2] at hg ⊢
    · cases hg; exact rej d
    · cases hg; exact rej d
    · cases hf : gs[j]?.join with
      | none => rw [hf] at hg; cases hg
      | some f =>
        rw [hf] at hg
        simp only at hg
        split at hg
        · rename_i hnd
          cases hg
          have hst := h3 f hf
          refine go ((conv_sim (Q := (· ∈ f.spaces)) (hst.move p) (count_nodup fun x => Nat.le_trans (hst.sub x) (nodup_count hnd x)) w).bind ?_)
          rintro t ht σ' - ⟨k1, k2, k3⟩
          refine Sim.pure ⟨k3.path, ⟨((hV.write k3 hst.sub.subset).path []).set d ⟨trivial, ?_⟩,
            (hS.write k3 hst.sub.subset).path []⟩, rfl, rfl⟩
          rintro f' ⟨⟩
          exact fresh k3.path k1 (k2.trans hst.sub)
        · cases hg

theorem cevs_sim {fn : C → E → E} : ∀ (l : List (NsPath × CEv E (RazMeta.Index E M) C)) {σ : RMem E M} {hst : HSSt E M} {st : SSt E M} {g : CFeet},
    RepCG e σ hst st g → σ.path = [] → cowned fn st g l = true →
    Sim (HSSt.cevs e fn hst l) σ (st.cevs fn (l.map (·.2))) (fun b a _ => a.2 = b.2) := by
  intro l
  induction l with
  | nil => intro σ hst st g h _ _; exact Sim.pure rfl
  | cons ev l ih =>
    obtain ⟨p, ev⟩ := ev
    intro σ hst st g h hp ho
    unfold HSSt.cevs SSt.cevs
    simp only [List.map_cons]
    unfold cowned at ho
    cases hg : g.step st p ev with
    | none => rw [hg] at ho; cases ho
    | some g' =>
      rw [hg] at ho
      simp only at ho
      refine (cev_ns h hp ev p hg).bind ?_
      rintro ⟨st', o⟩ ⟨hst', o'⟩ σ' hx ⟨k1, k2, k3⟩
      simp only at k1 k2; subst k2
      rw [hx] at ho
      refine (ih k1 k3 ho).bind ?_
      rintro ⟨st'', os⟩ ⟨hst'', os'⟩ σ'' - q2
      simp only at q2; subst q2
      exact Sim.pure rfl

theorem cevAnswers_of_owned {fn : C → E → E} {l : List (NsPath × CEv E (RazMeta.Index E M) C)} (h : COwned M fn l) :
    CEvAnswers (M := M) e fn l (cevAnswers M fn (l.map (·.2))) := by
  have h1 := cevs_sim (e := e) (fn := fn) l (σ := (Store.empty : RMem E M)) (hst := ⟨[], []⟩) (st := ⟨[], []⟩) (g := ⟨[], []⟩)
    ⟨⟨rfl, rfl, fun _ => trivial⟩, ⟨rfl, rfl, fun _ => trivial⟩⟩ rfl h
  unfold cevAnswers
  unfold Sim at h1
  cases hx : SSt.cevs fn (⟨[], []⟩ : SSt E M) (l.map (·.2)) with
  | error p =>
    rw [hx] at h1
    obtain ⟨f0, hf⟩ := h1
    exact ⟨f0, fun f hle => by rw [hf f hle]; rfl⟩
  | ok b =>
    rw [hx] at h1
    obtain ⟨a, σ', ⟨f0, hf⟩, h3⟩ := h1
    exact ⟨f0, fun f hle => by rw [hf f hle]; exact congrArg Except.ok h3⟩

end Iodyn.Heap
