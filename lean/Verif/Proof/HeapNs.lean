import Verif.Proof.HeapVars
import Verif.Spec.HeapNs
/-
Programs with namespaces: the store simulates the values as long as no statement uses a variable with a replaced cell.
-/
namespace Iodyn.Heap
variable {D X E M : Type} {e : Engine}

/-- In another namespace. -/
def _root_.Iodyn.Store.at {V : Type} (σ : Store V) (p : NsPath) : Store V := { σ with path := p }

/-- Links that are good for `σ` and `F` are good for `σ'` and `F'`, and lead to the same cell. -/
def Carries (e : Engine) (F F' : Spaces) (σ σ' : Mem D X) (N : List Name) : Prop :=
  ∀ n l, nm e n ⊆ N → @LinkOK D X F e σ n l → @LinkOK D X F' e σ' n l ∧ σ'.cells l = σ.cells l

section
variable {F F' : Spaces} {σ σ' : Mem D X} {N : List Name}

theorem carry_T (h : Carries e F F' σ σ' N) : ∀ {t : Tree D} {o : Option Tr}, @RepT D X F e σ o t → tN e t ⊆ N → @RepT D X F' e σ' o t := by
  intro t
  induction t with
  | nil => intro o hr _; exact hr
  | node lv n d l r ihl ihr =>
    rintro o ⟨k, hl, hr, rfl, hlk, hc, h1, h2⟩ hN
    obtain ⟨a, b⟩ := h n k (fun x hx => hN (by simp [tN, hx])) hlk
    exact ⟨k, hl, hr, rfl, a, b.trans hc, ihl h1 (fun x hx => hN (by simp [tN, hx])), ihr h2 (fun x hx => hN (by simp [tN, hx]))⟩

theorem carry_S (h : Carries e F F' σ σ' N) : ∀ {s : Stack X} {o : Option Head}, @RepS F D X e σ o s → sN e s ⊆ N → @RepS F' D X e σ' o s := by
  intro s
  induction s with
  | nil => intro o hr _; exact hr
  | cons p s ih =>
    obtain ⟨n, x⟩ := p
    rintro o ⟨k, h', rfl, h1, h2, h3⟩ hN
    obtain ⟨a, b⟩ := h n k (fun x hx => hN (by simp [sN, hx])) h1
    exact ⟨k, h', rfl, a, b.trans h2, ih h3 (fun x hx => hN (by simp [sN, hx]))⟩

variable [TreeUpdate D]

theorem carry_LE (h : Carries e F F' σ σ' N) {a : Tr} {u : TNode D} (hr : @RepLE D X F _ e σ a u) (hN : tN e u.l ++ nm e u.name ⊆ N) :
    @RepLE D X F' _ e σ' a u := by
  obtain ⟨h1, h2, h3, d, hl, hrr, h4, h5, h6⟩ := hr
  obtain ⟨a, b⟩ := h _ _ (fun x hx => hN (by simp [hx])) h3
  exact ⟨h1, h2, a, d, hl, hrr, b.trans h4, h5, carry_T h h6 (fun x hx => hN (by simp [hx]))⟩

theorem carry_RE (h : Carries e F F' σ σ' N) {a : Tr} {u : TNode D} (hr : @RepRE D X F _ e σ a u) (hN : nm e u.name ++ tN e u.r ⊆ N) :
    @RepRE D X F' _ e σ' a u := by
  obtain ⟨h1, h2, h3, d, hl, hrr, h4, h5, h6⟩ := hr
  obtain ⟨a, b⟩ := h _ _ (fun x hx => hN (by simp [hx])) h3
  exact ⟨h1, h2, a, d, hl, hrr, b.trans h4, h5, carry_T h h6 (fun x hx => hN (by simp [hx]))⟩

theorem carry_L (h : Carries e F F' σ σ' N) : ∀ {us : List (Bool × TNode D)} {hs : List (Bool × Tr)}, @RepL D X F _ e σ hs us → lN e us ⊆ N →
    @RepL D X F' _ e σ' hs us := by
  intro us
  induction us with
  | nil => intro hs hr _; exact hr
  | cons p us ih =>
    obtain ⟨d, u⟩ := p
    rintro hs ⟨a, hs', rfl, h1, h2⟩ hN
    exact ⟨a, hs', rfl, carry_LE h h1 (fun x hx => hN (by simp [lN] at hx ⊢; tauto)), ih h2 (fun x hx => hN (by simp [lN, hx]))⟩

theorem carry_R (h : Carries e F F' σ σ' N) : ∀ {us : List (Bool × TNode D)} {hs : List (Bool × Tr)}, @RepR D X F _ e σ hs us → rN e us ⊆ N →
    @RepR D X F' _ e σ' hs us := by
  intro us
  induction us with
  | nil => intro hs hr _; exact hr
  | cons p us ih =>
    obtain ⟨d, u⟩ := p
    rintro hs ⟨a, hs', rfl, h1, h2⟩ hN
    exact ⟨a, hs', rfl, carry_RE h h1 (fun x hx => hN (by simp [rN] at hx ⊢; tauto)), ih h2 (fun x hx => hN (by simp [rN, hx]))⟩

theorem carry_LinkL (h : Carries e F F' σ σ' N) : ∀ {us : List (Bool × TNode D)} {hs : List (Bool × Tr)} {b T d}, @RepL D X F _ e σ hs us →
    LinkL σ b T d hs us → lN e us ⊆ N → LinkL σ' b T d hs us := by
  intro us
  induction us with
  | nil => rintro hs b T d rfl _ _; cases d <;> exact trivial
  | cons p us ih =>
    obtain ⟨d', u⟩ := p
    rintro hs b T d ⟨a, hs', rfl, h1, h2⟩ hl hN
    cases d with
    | true => exact trivial
    | false =>
      obtain ⟨⟨hl', hc⟩, hT, hrest⟩ := hl
      exact ⟨⟨hl', (h _ _ (fun x hx => hN (by simp [lN, hx])) h1.2.2.1).2.trans hc⟩, hT, ih h2 hrest (fun x hx => hN (by simp [lN, hx]))⟩

theorem carry_LinkR (h : Carries e F F' σ σ' N) : ∀ {us : List (Bool × TNode D)} {hs : List (Bool × Tr)} {b T d}, @RepR D X F _ e σ hs us →
    LinkR σ b T d hs us → rN e us ⊆ N → LinkR σ' b T d hs us := by
  intro us
  induction us with
  | nil => rintro hs b T d rfl _ _; cases d <;> exact trivial
  | cons p us ih =>
    obtain ⟨d', u⟩ := p
    rintro hs b T d ⟨a, hs', rfl, h1, h2⟩ hl hN
    cases d with
    | true => exact trivial
    | false =>
      obtain ⟨⟨hl', hc⟩, hT, hrest⟩ := hl
      exact ⟨⟨hl', (h _ _ (fun x hx => hN (by simp [rN, hx])) h1.2.2.1).2.trans hc⟩, hT, ih h2 hrest (fun x hx => hN (by simp [rN, hx]))⟩

theorem carry_C (h : Carries e F F' σ σ' N) {hc : Cur} {c : Cursor D} (hr : @RepC D X F _ e σ hc c) (hN : cN e c ⊆ N) :
    @RepC D X F' _ e σ' hc c := by
  have dl : lN e c.lForest ⊆ N := fun x hx => hN (by simp [cN, hx])
  have dt : tN e c.tree ⊆ N := fun x hx => hN (by simp [cN, hx])
  have dr : rN e c.rForest ⊆ N := fun x hx => hN (by simp [cN, hx])
  obtain ⟨r1, r2, r3, r4, r5⟩ := hr
  refine ⟨r1, carry_L h r2 dl, carry_T h r3 dt, carry_R h r4 dr, ?_⟩
  rcases r5 with h1 | ⟨h1, h2⟩ | ⟨h1, h2⟩
  · exact .inl h1
  · exact .inr (.inl ⟨h1, carry_LinkL h r2 h2 dl⟩)
  · exact .inr (.inr ⟨h1, carry_LinkR h r4 h2 dr⟩)

end

section
variable [RazMeta E M] {F F' : Spaces} {σ σ' : RMem E M} {N : List Name}

theorem carry_Z (h : Carries e F F' σ σ' N) {hz : HRaz E} {z : Raz E M} (hr : @RepZ F E M _ e σ hz z) (hN : zN e z ⊆ N) :
    @RepZ F' E M _ e σ' hz z := by
  obtain ⟨r1, ⟨r2, r3⟩, ⟨r4, r5⟩, r6, r7, r8⟩ := hr
  exact ⟨carry_C h r1 (fun x hx => hN (by simp [zN, hx])), ⟨r2, carry_S h r3 (fun x hx => hN (by simp [zN, aN, hx]))⟩,
    ⟨r4, carry_S h r5 (fun x hx => hN (by simp [zN, aN, hx]))⟩, carry_C h r6 (fun x hx => hN (by simp [zN, hx])), r7, r8⟩

theorem carry_St (h : Carries e F F' σ σ' N) {hs : HSt E M} {s : St E M} (hr : @RepSt F E M _ e σ hs s) (hN : stN e s ⊆ N) :
    @RepSt F' E M _ e σ' hs s := by
  cases hs <;> cases s
  · exact carry_Z h hr hN
  · exact hr
  · exact hr
  · obtain ⟨r1, r2⟩ := hr
    exact ⟨r1, carry_T h r2 hN⟩

end

/-! ### Variables -/
section
variable [RazMeta E M]

/-- Cells in these namespaces. -/
abbrev inSpaces (S : List NsPath) : Spaces := ⟨(· ∈ S)⟩

/-- The handle stands for the value, with cells as stated. -/
structure Standing (e : Engine) (σ : RMem E M) (f : Foot) (hs : HSt E M) (s : St E M) : Prop where
  rep : ∃ p, p ∈ f.spaces ∧ @RepSt (inSpaces f.spaces) E M _ e (σ.at p) hs s
  sub : Sub (stN e s) f.names

/-- Both cursors or both trees. -/
def Kind : HSt E M → St E M → Prop
  | .cursor _, .cursor _ => True
  | .tree _, .tree _ => True
  | _, _ => False

omit [RazMeta E M] in
theorem link_moves {S S' : List NsPath} {σ : RMem E M} {p p' : NsPath} {N : List Name} (hp : p ∈ S ∨ p = p') (hS : S ⊆ p' :: S') :
    Carries e (inSpaces S) (inSpaces S') (σ.at p) (σ.at p') N := by
  intro n l _ hl
  refine ⟨?_, rfl⟩
  cases e <;> cases n <;> first
    | exact hl
    | (obtain ⟨q, hq, rfl⟩ := hl
       refine ⟨q, ?_, rfl⟩
       rcases hq with rfl | hq
       · rcases hp with hp | hp
         · rcases List.mem_cons.1 (hS hp) with h | h
           · exact .inl h
           · exact .inr h
         · exact .inl hp
       · rcases List.mem_cons.1 (hS hq) with h | h
         · exact .inl h
         · exact .inr h)

theorem Standing.kind {σ : RMem E M} {f : Foot} {hs : HSt E M} {s : St E M} (h : Standing e σ f hs s) : Kind hs s := by
  obtain ⟨⟨p, -, h⟩, -⟩ := h
  cases hs <;> cases s
  · exact trivial
  · exact h
  · exact h
  · exact trivial

/-- Seen from another namespace. -/
theorem Standing.move {σ : RMem E M} {f : Foot} {hs : HSt E M} {s : St E M} (h : Standing e σ f hs s) {S : List NsPath} (hS : f.spaces ⊆ S)
    (p : NsPath) : @RepSt (inSpaces S) E M _ e (σ.at p) hs s := by
  obtain ⟨⟨q, hq, h⟩, -⟩ := h
  exact carry_St (link_moves (.inl hq) (fun x hx => List.mem_cons_of_mem _ (hS hx))) h (List.Subset.refl _)

theorem Standing.of {σ : RMem E M} {S S' : List NsPath} {N : List Name} {p : NsPath} {hs : HSt E M} {s : St E M} (h : @RepSt (inSpaces S) E M _ e (σ.at p) hs s)
    (hp : p ∈ S') (hS : S ⊆ S') (hN : Sub (stN e s) N) : Standing e σ ⟨N, S'⟩ hs s :=
  ⟨⟨p, hp, carry_St (link_moves (.inr rfl) (fun x hx => List.mem_cons_of_mem _ (hS hx))) h (List.Subset.refl _)⟩, hN⟩

/-- A statement in the namespace `p` that writes other cells. -/
theorem Standing.frame {σ σ' : RMem E M} {f : Foot} {hs : HSt E M} {s : St E M} (h : Standing e σ f hs s) {p : NsPath} {W W' : List Name}
    (hk : Keeps W (σ.at p) σ') (hW : W ⊆ W') (hh : f.hit p W' = false) : Standing e σ' f hs s := by
  obtain ⟨⟨q, hq, h⟩, hs⟩ := h
  refine ⟨⟨q, hq, carry_St (N := stN e s) ?_ h (List.Subset.refl _)⟩, hs⟩
  intro n l hn hl
  have key : ∀ x, x ∈ stN e s → ∀ q', (q' = q ∨ q' ∈ f.spaces) → σ'.cells (.named x q') = σ.cells (.named x q') := by
    intro x hx q' hq'
    have hq' : q' ∈ f.spaces := by
      rcases hq' with rfl | hq'
      · exact hq
      · exact hq'
    by_cases hpq : q' = p
    · subst hpq
      refine hk.named x (fun hxW => ?_)
      have : f.hit q' W' = true := by
        simp only [Foot.hit, Bool.and_eq_true, decide_eq_true_eq, List.any_eq_true]
        exact ⟨hq', x, hW hxW, hs.subset hx⟩
      rw [hh] at this; cases this
    · exact hk.other x q' hpq
  cases e <;> cases n <;> first
    | (obtain ⟨k, rfl, hl⟩ := hl; exact ⟨⟨k, rfl, Nat.lt_of_lt_of_le hl hk.next⟩, hk.anon k hl⟩)
    | (obtain ⟨q', hq', rfl⟩ := hl
       exact ⟨⟨q', hq', rfl⟩, key _ (hn (by simp [nm])) q' hq'⟩)

/-- One variable. -/
def SameVar (e : Engine) (σ : RMem E M) (fo : Option Foot) : Option (HSt E M) → Option (St E M) → Prop
  | none, none => True
  | some hs, some s => Kind hs s ∧ ∀ f, fo = some f → Standing e σ f hs s
  | _, _ => False

/-- All variables. -/
structure RepG (e : Engine) (σ : RMem E M) (hvs : HVars E M) (vs : Vars E M) (g : Feet) : Prop where
  len : hvs.length = vs.length
  glen : g.length = vs.length
  get : ∀ i : Nat, SameVar e σ (g[i]?.join) (hvs[i]?.join) (vs[i]?.join)

theorem join_set {A : Type} (l : List (Option A)) (i : Nat) (a : Option A) (j : Nat) :
    (l.set i a)[j]?.join = if i = j ∧ i < l.length then a else l[j]?.join := by
  rw [List.getElem?_set]
  by_cases h : i = j
  · subst h
    by_cases hl : i < l.length
    · simp [hl]
    · simp [hl]
  · simp [h]

theorem join_append {A : Type} (l : List (Option A)) (a : Option A) (j : Nat) :
    (l ++ [a])[j]?.join = if j < l.length then l[j]?.join else if j = l.length then a else none := by
  by_cases h : j < l.length
  · rw [List.getElem?_append_left h, if_pos h]
  · rw [List.getElem?_append_right (by omega), if_neg h]
    by_cases hj : j = l.length
    · subst hj; simp
    · rw [if_neg hj, List.getElem?_eq_none (by simp; omega)]; rfl

theorem RepG.lookup {σ : RMem E M} {hvs : HVars E M} {vs : Vars E M} {g : Feet} (h : RepG e σ hvs vs g) (i : Nat) :
    (hvs[i]? = none ∧ vs[i]? = none) ∨ (hvs[i]? = some none ∧ vs[i]? = some none) ∨
      ∃ hs s, hvs[i]? = some (some hs) ∧ vs[i]? = some (some s) ∧ Kind hs s ∧ ∀ f, g[i]?.join = some f → Standing e σ f hs s := by
  have hg := h.get i
  by_cases hi : i < vs.length
  · have hi' : i < hvs.length := by rw [h.len]; exact hi
    rw [List.getElem?_eq_getElem hi', List.getElem?_eq_getElem hi] at hg ⊢
    cases h1 : hvs[i] <;> cases h2 : vs[i] <;> rw [h1, h2] at hg
    · exact .inr (.inl ⟨rfl, rfl⟩)
    · exact hg.elim
    · exact hg.elim
    · exact .inr (.inr ⟨_, _, rfl, rfl, hg⟩)
  · exact .inl ⟨by rw [List.getElem?_eq_none]; rw [h.len]; omega, by rw [List.getElem?_eq_none]; omega⟩

theorem RepG.append {σ : RMem E M} {hvs : HVars E M} {vs : Vars E M} {g : Feet} (h : RepG e σ hvs vs g) {fo : Option Foot} {ho : Option (HSt E M)}
    {o : Option (St E M)} (hr : SameVar e σ fo ho o) : RepG e σ (hvs ++ [ho]) (vs ++ [o]) (g ++ [fo]) := by
  refine ⟨by simp [h.len], by simp [h.glen], fun i => ?_⟩
  rw [join_append, join_append, join_append, h.len, h.glen]
  split
  · exact h.get i
  · split
    · exact hr
    · exact trivial

theorem RepG.set {σ : RMem E M} {hvs : HVars E M} {vs : Vars E M} {g : Feet} (h : RepG e σ hvs vs g) (i : Nat) {fo : Option Foot} {ho : Option (HSt E M)}
    {o : Option (St E M)} (hr : SameVar e σ fo ho o) : RepG e σ (hvs.set i ho) (vs.set i o) (g.set i fo) := by
  refine ⟨by simp [h.len], by simp [h.glen], fun j => ?_⟩
  rw [join_set, join_set, join_set, h.len, h.glen]
  split
  · exact hr
  · exact h.get j

/-- A statement in the namespace `p`, seen from all variables. -/
theorem RepG.write {σ σ' : RMem E M} {hvs : HVars E M} {vs : Vars E M} {g : Feet} (h : RepG e σ hvs vs g) {p : NsPath} {W W' : List Name}
    (hk : Keeps W (σ.at p) σ') (hW : W ⊆ W') : RepG e σ' hvs vs (g.write p W') := by
  refine ⟨h.len, by simp [Feet.write, h.glen], fun i => ?_⟩
  have hg := h.get i
  have hw : (g.write p W')[i]?.join = g[i]?.join.filter (fun f => !f.hit p W') := by
    simp only [Feet.write, List.getElem?_map]
    rcases g[i]? with _ | (_ | f) <;> rfl
  rw [hw]
  cases h1 : hvs[i]?.join <;> cases h2 : vs[i]?.join <;> rw [h1, h2] at hg
  · exact trivial
  · exact hg
  · exact hg
  · refine ⟨hg.1, fun f hf => ?_⟩
    rw [Option.filter_eq_some_iff] at hf
    exact (hg.2 f hf.1).frame hk hW (by simpa using hf.2)

theorem RepG.keep {σ σ' : RMem E M} {hvs : HVars E M} {vs : Vars E M} {g : Feet} (h : RepG e σ hvs vs g) {p : NsPath}
    (hk : Keeps [] (σ.at p) σ') : RepG e σ' hvs vs g := by
  refine ⟨h.len, h.glen, fun i => ?_⟩
  have hg := h.get i
  cases h1 : hvs[i]?.join <;> cases h2 : vs[i]?.join <;> rw [h1, h2] at hg
  · exact trivial
  · exact hg
  · exact hg
  · exact ⟨hg.1, fun f hf => (hg.2 f hf).frame (W' := []) hk (List.Subset.refl _) (by simp [Foot.hit])⟩

theorem RepG.path {σ : RMem E M} {hvs : HVars E M} {vs : Vars E M} {g : Feet} (h : RepG e σ hvs vs g) (p : NsPath) : RepG e (σ.at p) hvs vs g := by
  refine ⟨h.len, h.glen, fun i => ?_⟩
  have hg := h.get i
  cases h1 : hvs[i]?.join <;> cases h2 : vs[i]?.join <;> rw [h1, h2] at hg
  · exact trivial
  · exact hg
  · exact hg
  · exact ⟨hg.1, fun f hf => ⟨(hg.2 f hf).rep, (hg.2 f hf).sub⟩⟩

/-! ### Statements -/

omit [RazMeta E M] in
theorem inNs_sim {A B : Type} {x : P B} {R : B → A → Mem D X → Prop} : ∀ (p : NsPath) {m : H D X A} {σ : Mem D X},
    Sim m (σ.at (p ++ σ.path)) x (fun b a σ' => σ'.path = p ++ σ.path ∧ R b a (σ'.at σ.path)) → Sim (inNs p m) σ x R := by
  intro p
  induction p with
  | nil =>
    intro m σ h
    refine Sim.mono h (fun b a σ' _ h => ?_)
    have : σ'.at σ.path = σ' := by rw [← (show σ'.path = σ.path from h.1)]; rfl
    rw [this] at h
    exact h.2
  | cons n p ih =>
    intro m σ h
    refine ih (m := ns n m) ?_
    have hσ : ({ σ.at (p ++ σ.path) with path := n :: (σ.at (p ++ σ.path)).path } : Mem D X) = σ.at (n :: p ++ σ.path) := rfl
    cases x with
    | error q =>
      obtain ⟨f0, hf⟩ := h
      exact ⟨f0, fun f hle => by simp only [ns]; rw [hσ, hf f hle]⟩
    | ok b =>
      obtain ⟨a, σ', ⟨f0, hf⟩, hr⟩ := h
      refine ⟨a, σ'.at (p ++ σ.path), ⟨f0, fun f hle => ?_⟩, rfl, hr.2⟩
      simp only [ns]
      rw [hσ, hf f hle]
      rfl

omit [RazMeta E M] in
theorem opN_cells {I : Type} (i : Nat) (o : ApiOp E I) : Sub (opN e o) (Cmd.op i o).cells := by
  intro x
  cases e <;> cases o <;> first
    | (rename_i lev n; cases n <;> simp [opN, archN, nm, tnm, Cmd.cells] <;> done)
    | (simp [opN, Cmd.cells]; done)

omit [RazMeta E M] in
theorem joinN_cells {I : Type} (i lev : Nat) (n : Option Name) (j : Nat) : Sub (nm e n) (Cmd.join (E := E) (I := I) i lev n j).cells := by
  intro x
  cases e <;> cases n <;> simp [nm, Cmd.cells]

theorem step_ns {σ : RMem E M} {hvs : HVars E M} {vs : Vars E M} {g g' : Feet} (h : RepG e σ hvs vs g) (hp : σ.path = [])
    (c : Cmd E (RazMeta.Index E M)) (p : NsPath) (hg : g.step vs p c = some g') :
    Sim (inNs p (HVars.step e hvs c)) σ (vs.step c) (fun b a σ' => RepG e σ' a.1 b.1 g' ∧ a.2 = b.2 ∧ σ'.path = [] ∧
      Keeps (g.writes c) (σ.at p) (σ'.at p)) := by
  refine inNs_sim p ?_
  rw [hp, List.append_nil]
  have hpt : (σ.at p).path = p := rfl
  have nop : g' = g → Sim (pure (hvs, Out.unit) : HR E M (HVars E M × Out E)) (σ.at p) (.ok (vs, Out.unit))
      (fun b a σ' => σ'.path = p ∧ RepG e (σ'.at []) a.1 b.1 g' ∧ a.2 = b.2 ∧ (σ'.at []).path = [] ∧ Keeps (g.writes c) (σ.at p) ((σ'.at []).at p)) := by
    rintro rfl
    exact Sim.pure ⟨rfl, (h.path p).path [], rfl, rfl, Keeps.refl _ _⟩
  have kp : ∀ {σ' : RMem E M} {W : List Name}, Keeps W (σ.at p) σ' → W ⊆ g.writes c → Keeps (g.writes c) (σ.at p) ((σ'.at []).at p) := by
    intro σ' W hk hW
    have hσ : (σ'.at []).at p = σ' := by rw [← (show σ'.path = p from hk.path)]; rfl
    rw [hσ]
    exact hk.mono hW
  cases c with
  | new =>
    cases hg
    refine Sim.pure ⟨rfl, ?_, rfl, rfl, Keeps.refl _ _⟩
    refine ((h.path p).path []).append ⟨trivial, fun f hf => ?_⟩
    cases hf
    refine ⟨⟨p, by simp, @RepZ.empty (inSpaces [p]) E M _ e (σ.at p)⟩, fun x => ?_⟩
    cases e <;> simp [stN, zN, Raz.new, RazTree.emptyRaz, cN, Cursor.new, lN, rN, tN, aN, AStack.new, sN, pN]
  | fromVec v =>
    unfold HVars.step Vars.step
    have hb : ∀ b, (RazTree.fromVec v : P (Option (RazTree E M))) = .ok b → (b = none ↔ v = []) := by
      intro b hb
      unfold RazTree.fromVec at hb
      cases v with
      | nil => simp at hb; simp [← hb]
      | cons x v =>
        simp only [reduceCtorEq, if_false, bind, Except.bind] at hb
        split at hb
        · cases hb
        · cases hb; simp
    refine (@fromVec_sim (inSpaces [p]) E M _ e (σ.at p) v).bind ?_
    rintro b a σ' hx ⟨hcase, hk⟩
    have hb := hb b hx
    rcases hcase with ⟨rfl, rfl⟩ | ⟨t, ht, rfl, rfl, h1, h2⟩
    · have hv : v = [] := hb.1 rfl
      subst hv; cases hg
      exact Sim.pure ⟨hk.path, (h.keep hk).path [], rfl, rfl, kp hk (by simp)⟩
    · have hv : v.isEmpty = false := by
        cases v with
        | nil => cases hb.2 rfl
        | cons => rfl
      simp only [Feet.step, hv, Bool.false_eq_true, if_false, Option.some.injEq] at hg
      subst hg
      refine Sim.pure ⟨hk.path, ((h.keep hk).path []).append ⟨trivial, fun f hf => ?_⟩, rfl, rfl, kp hk (by simp)⟩
      cases hf
      have hσ : σ'.at p = σ' := by rw [← (show σ'.path = p from hk.path)]; rfl
      exact Standing.of (σ := σ'.at []) (S := [p]) (p := p) (by show @RepSt (inSpaces _) E M _ e (σ'.at p) (.tree ht) (.tree t); rw [hσ]; exact h1) (by simp) (List.Subset.refl _)
        (fun x => by rw [stN, h2]; simp)
  | clone i =>
    unfold HVars.step Vars.step
    simp only [Feet.step] at hg
    rcases h.lookup i with ⟨h1, h2⟩ | ⟨h1, h2⟩ | ⟨hs, s, h1, h2, h3, h4⟩
    · simp only [h1, h2] at hg ⊢; cases hg; exact nop rfl
    · simp only [h1, h2] at hg ⊢; cases hg; exact nop rfl
    · simp only [h1, h2] at hg ⊢
      cases hg
      refine Sim.pure ⟨rfl, ((h.path p).path []).append ⟨h3, fun f hf => ?_⟩, rfl, rfl, Keeps.refl _ _⟩
      exact ⟨(h4 f hf).rep, (h4 f hf).sub⟩
  | op i o =>
    unfold HVars.step Vars.step
    simp only [Feet.step] at hg
    rcases h.lookup i with ⟨h1, h2⟩ | ⟨h1, h2⟩ | ⟨hs, s, h1, h2, h3, h4⟩
    · simp only [h1, h2] at hg ⊢; cases hg; exact nop rfl
    · simp only [h1, h2] at hg ⊢; cases hg; exact nop rfl
    · simp only [h1, h2] at hg ⊢
      cases hf : g[i]?.join with
      | none => rw [hf] at hg; cases hg
      | some f =>
        rw [hf] at hg
        simp only at hg
        split at hg
        · rename_i hn
          cases hg
          have hst := h4 f hf
          have hsub : Sub (stN e s ++ opN e o) (f.names ++ (Cmd.op i o).cells) := fun x => by
            have := hst.sub x; have := opN_cells (e := e) i o x
            simp only [List.count_append]; omega
          refine (@step_sim (inSpaces f.spaces) E M _ e _ hs s (hst.move (List.Subset.refl _) p) o
            (count_nodup fun x => Nat.le_trans (hsub x) (nodup_count hn x))).bind ?_
          rintro ⟨s', out⟩ ⟨hs', out'⟩ σ' - ⟨k1, k2, k3, k4⟩
          simp only at k1 k2 k3; subst k2
          have hσ : σ'.at p = σ' := by rw [← (show σ'.path = p from k4.path)]; rfl
          have hnew : Standing e (σ'.at []) ⟨f.names ++ (Cmd.op i o).cells, p :: f.spaces⟩ hs' s' :=
            Standing.of (σ := σ'.at []) (S := f.spaces) (p := p) (by show @RepSt (inSpaces _) E M _ e (σ'.at p) _ _; rw [hσ]; exact k1) (by simp)
              (List.subset_cons_self _ _) (fun x => Nat.le_trans (k3 x) (hsub x))
          refine Sim.pure ⟨k4.path, ((h.write k4 hsub.subset).path []).set i ⟨hnew.kind, fun f' hf' => ?_⟩, rfl, rfl,
            kp k4 (by simpa only [Feet.writes, hf, Option.elim] using hsub.subset)⟩
          cases hf'
          exact hnew
        · cases hg
  | join i lev name j =>
    unfold HVars.step Vars.step
    simp only [Feet.step] at hg
    rcases h.lookup i with ⟨h1, h2⟩ | ⟨h1, h2⟩ | ⟨hs, s, h1, h2, h3, h4⟩
    · simp only [h1, h2] at hg ⊢; cases hg; exact nop rfl
    · simp only [h1, h2] at hg ⊢; cases hg; exact nop rfl
    · rcases h.lookup j with ⟨g1, g2⟩ | ⟨g1, g2⟩ | ⟨hs', s', g1, g2, g3, g4⟩
      · simp only [h1, h2, g1, g2] at hg ⊢
        cases hs <;> cases s <;> cases hg <;> exact nop rfl
      · simp only [h1, h2, g1, g2] at hg ⊢
        cases hs <;> cases s <;> cases hg <;> exact nop rfl
      · simp only [h1, h2, g1, g2] at hg ⊢
        cases hs with
        | cursor hz =>
          cases s with
          | cursor z => cases hg; exact nop rfl
          | tree t => exact h3.elim
        | tree ht =>
          cases s with
          | cursor z => exact h3.elim
          | tree t =>
            cases hs' with
            | cursor hz =>
              cases s' with
              | cursor z => cases hg; exact nop rfl
              | tree t => exact g3.elim
            | tree ht' =>
              cases s' with
              | cursor z => exact g3.elim
              | tree t' =>
                simp only at hg ⊢
                split
                · rename_i hij; rw [if_pos hij] at hg; cases hg; exact nop rfl
                · rename_i hij
                  rw [if_neg hij] at hg
                  cases ha : g[i]?.join with
                  | none => rw [ha] at hg; cases hg
                  | some a =>
                    cases hb : g[j]?.join with
                    | none => rw [ha, hb] at hg; cases hg
                    | some b =>
                      rw [ha, hb] at hg
                      simp only at hg
                      split at hg
                      · rename_i hn
                        cases hg
                        have sa := h4 a ha
                        have sb := g4 b hb
                        have hw := joinN_cells (e := e) (E := E) (I := RazMeta.Index E M) i lev name j
                        have hcn := nodup_count hn
                        have ra : @RepRT (inSpaces (a.spaces ++ b.spaces)) E M e (σ.at p) ht t := sa.move (List.subset_append_left _ _) p
                        have rb : @RepRT (inSpaces (a.spaces ++ b.spaces)) E M e (σ.at p) ht' t' := sb.move (List.subset_append_right _ _) p
                        refine (@join_tree_sim (inSpaces (a.spaces ++ b.spaces)) E M _ e _ ht ht' t t' ra rb lev name (dis_count fun x => by
                          have := hcn x; have := sa.sub x; have := sb.sub x; have := hw x
                          simp only [stN, List.count_append] at *; omega)).bind ?_
                        rintro b' a' σ' - ⟨hcase, hk⟩
                        have hσ : σ'.at p = σ' := by rw [← (show σ'.path = p from hk.path)]; rfl
                        have hG := (((h.write hk hw.subset).path []).set i (fo := none) (ho := none) (o := none) trivial)
                        rcases hcase with ⟨rfl, rfl⟩ | ⟨t2, ht2, rfl, rfl, q1, q2⟩
                        · exact Sim.pure ⟨hk.path, hG.set j trivial, rfl, rfl, kp hk hw.subset⟩
                        · refine Sim.pure ⟨hk.path, hG.set j ⟨trivial, fun f hf => ?_⟩, rfl, rfl, kp hk hw.subset⟩
                          cases hf
                          refine Standing.of (σ := σ'.at []) (S := a.spaces ++ b.spaces) (p := p)
                            (by show @RepSt (inSpaces _) E M _ e (σ'.at p) (.tree ht2) (.tree t2); rw [hσ]; exact q1) (by simp)
                            (List.subset_cons_self _ _) (fun x => ?_)
                          have := sa.sub x; have := sb.sub x; have := hw x
                          simp only [stN, q2, List.count_append] at *; omega
                      · cases hg

theorem runNs_sim : ∀ (cs : List (NsPath × Cmd E (RazMeta.Index E M))) {σ : RMem E M} {hvs : HVars E M} {vs : Vars E M} {g : Feet},
    RepG e σ hvs vs g → σ.path = [] → owned vs g cs = true →
    Sim (HVars.runNs e hvs cs) σ (vs.run (cs.map (·.2))) (fun b a _ => a.2 = b.2) := by
  intro cs
  induction cs with
  | nil => intro σ hvs vs g h _ _; exact Sim.pure rfl
  | cons c cs ih =>
    obtain ⟨p, c⟩ := c
    intro σ hvs vs g h hp ho
    unfold HVars.runNs Vars.run
    simp only [List.map_cons]
    unfold owned at ho
    cases hg : g.step vs p c with
    | none => rw [hg] at ho; cases ho
    | some g' =>
      rw [hg] at ho
      simp only at ho
      refine (step_ns h hp c p hg).bind ?_
      rintro ⟨vs', o⟩ ⟨hvs', o'⟩ σ' hx ⟨k1, k2, k3, -⟩
      simp only at k1 k2; subst k2
      rw [hx] at ho
      refine (ih k1 k3 ho).bind ?_
      rintro ⟨vs'', os⟩ ⟨hvs'', os'⟩ σ'' - q2
      simp only at q2; subst q2
      exact Sim.pure rfl

theorem answersNs_of_sim {cs : List (NsPath × Cmd E (RazMeta.Index E M))}
    (h1 : Sim (HVars.runNs (M := M) e [] cs) Store.empty (Vars.run (M := M) [] (cs.map (·.2))) (fun b a _ => a.2 = b.2)) :
    AnswersNs (M := M) e cs (answers M (cs.map (·.2))) := by
  unfold answers
  unfold Sim at h1
  cases hx : Vars.run (M := M) [] (cs.map (·.2)) with
  | error p =>
    rw [hx] at h1
    obtain ⟨f0, hf⟩ := h1
    exact ⟨f0, fun f hle => by rw [hf f hle]; rfl⟩
  | ok b =>
    rw [hx] at h1
    obtain ⟨a, σ', ⟨f0, hf⟩, h3⟩ := h1
    exact ⟨f0, fun f hle => by rw [hf f hle]; exact congrArg Except.ok h3⟩

theorem answersNs_of_owned {cs : List (NsPath × Cmd E (RazMeta.Index E M))} (h : Owned M cs) :
    AnswersNs (M := M) e cs (answers M (cs.map (·.2))) :=
  answersNs_of_sim (runNs_sim cs (g := []) ⟨rfl, rfl, fun _ => trivial⟩ rfl h)

end
end Iodyn.Heap
