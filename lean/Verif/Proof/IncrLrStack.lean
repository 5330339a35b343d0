import Verif.Proof.IncrLr
/-
Left folds into archive stacks: `to_list` and the two folds of the adder.
-/
namespace Iodyn.Incr.Lr
open Iodyn.Heap (Tr Head Cell Mem HTree ASt Keeps Dis)
variable {V W K R S A B D X D' X' E M N T : Type}

/-! ### Handles -/

/-- Behind the handle are these names and elements; the cells and the names are among those given, and the names are different. -/
inductive SRel (τ : Mem D X) (ns : Name → Prop) : Option Head → Stack X → Prop
  | nil : SRel τ ns none []
  | cons {h : Head} {x : X} {t : Option Head} {l : Stack X} (hc : τ.cells h.main = some (.body x t)) (hn : ∀ m, h.name = some m → ns m)
    (hm : ∀ m q, h.main = .named m q → ns m) (hd : ∀ m, h.name = some m → m ∉ l.filterMap (·.1)) (ht : SRel τ ns t l) :
    SRel τ ns (some h) ((h.name, x) :: l)

theorem SRel.mono {τ : Mem D X} {ns ns' : Name → Prop} {h : Option Head} {l : Stack X} (hs : ∀ m, ns m → ns' m) (hr : SRel τ ns h l) : SRel τ ns' h l := by
  induction hr with
  | nil => exact .nil
  | cons hc hn hm hd _ ih => exact .cons hc (fun m h => hs m (hn m h)) (fun m q h => hs m (hm m q h)) hd ih

theorem SRel.frame {τ τ' : Mem D X} {ns : Name → Prop} {N : List Name} {h : Option Head} {l : Stack X} (hf : Fresh τ) (hk : Keeps N τ τ')
    (hd : ∀ m ∈ N, ¬ ns m) (hr : SRel τ ns h l) : SRel τ' ns h l := by
  induction hr with
  | nil => exact .nil
  | @cons h x t l hc hn hm hd' _ ih =>
    refine .cons ?_ hn hm hd' ih
    cases hl : h.main with
    | anon k => rw [hl] at hc; rw [hk.anon k (hf.lt hc)]; exact hc
    | named m q =>
      rw [hl] at hc
      by_cases hq : q = τ.path
      · subst hq; rw [hk.named m (fun hx => hd m hx (hm m _ hl))]; exact hc
      · rw [hk.other m q hq]; exact hc

theorem SRel.view {τ : Mem D X} {ns : Name → Prop} {h : Option Head} {l : Stack X} (hr : SRel τ ns h l) :
    StackView τ h l ∧ (l.filterMap (·.1)).Nodup ∧ ∀ m ∈ l.filterMap (·.1), ns m := by
  induction hr with
  | nil => exact ⟨.nil, List.nodup_nil, fun m h => by cases h⟩
  | @cons h x t l hc hn hm hd _ ih =>
    refine ⟨.cons hc ih.1, ?_, ?_⟩
    · cases hh : h.name with
      | none => simpa [hh] using ih.2.1
      | some m => simpa [hh] using And.intro (by simpa using hd m hh) ih.2.1
    · intro m hmem
      cases hh : h.name with
      | none => exact ih.2.2 m (by simpa [hh] using hmem)
      | some m' =>
        simp only [List.filterMap_cons, hh, List.mem_cons] at hmem
        rcases hmem with rfl | hmem
        · exact hn _ hh
        · exact ih.2.2 m hmem

/-- Behind the handle is this archive stack. -/
def ARel (τ : Mem D (Nat × List T)) (ns : Name → Prop) (hs : ASt T) (s : AStack T Nat) : Prop :=
  hs.current = s.current ∧ SRel τ ns hs.archived s.archived

theorem ARel.mono {τ : Mem D (Nat × List T)} {ns ns' : Name → Prop} {hs : ASt T} {s : AStack T Nat} (h : ∀ m, ns m → ns' m) (hr : ARel τ ns hs s) :
    ARel τ ns' hs s := ⟨hr.1, hr.2.mono h⟩

theorem ARel.frame {τ τ' : Mem D (Nat × List T)} {ns : Name → Prop} {N : List Name} {hs : ASt T} {s : AStack T Nat} (hf : Fresh τ)
    (hk : Keeps N τ τ') (hd : ∀ m ∈ N, ¬ ns m) (hr : ARel τ ns hs s) : ARel τ' ns hs s := ⟨hr.1, hr.2.frame hf hk hd⟩

theorem ARel.view {τ : Mem D (Nat × List T)} {ns : Name → Prop} {hs : ASt T} {s : AStack T Nat} (hr : ARel τ ns hs s) :
    AView τ hs s ∧ (stackNames s).Nodup ∧ ∀ m ∈ stackNames s, ns m :=
  ⟨⟨hr.1, hr.2.view.1⟩, hr.2.view.2⟩

theorem ARel.push {τ : Mem D (Nat × List T)} {ns : Name → Prop} {hs : ASt T} {s : AStack T Nat} (hr : ARel τ ns hs s) (x : T) :
    ARel τ ns (hs.push x) (s.push x) := ⟨by simp [ASt.push, AStack.push, hr.1], hr.2⟩

theorem ARel.new (τ : Mem D (Nat × List T)) (ns : Name → Prop) : ARel τ ns (ASt.new : ASt T) (AStack.new : AStack T Nat) := ⟨rfl, .nil⟩

/-! ### Steps -/

section
variable [DecidableEq D] [DecidableEq X] [DecidableEq D'] [DecidableEq X'] [DecidableEq T] [DecidableEq A]

/-- A part of a node function does what it should. -/
def StepOK (g : Sem A S D D' X') (prog : A → (A → AProg (Cell D X) (Cell D' X') (LrKey A) A A) → AProg (Cell D X) (Cell D' X') (LrKey A) A A)
    (F : S → P S) (N : List Name) : Prop :=
  ∀ (callee : LrKey A → LS D X D' X' A → Option (P (AOut (Cell D X) (Cell D' X') (LrKey A) A A))) (σ : Mem D X) (s : LS D X D' X' A)
    (ns : Name → Prop) (a : A) (x : S) (k : A → AProg (Cell D X) (Cell D' X') (LrKey A) A A),
    Fresh s.mem → g.Rel s.mem ns a x → (∀ m ∈ N, ¬ ns m) →
    match F x with
    | .error q => amexec callee σ (prog a k) s = some (.error q)
    | .ok _ => ∃ a' fs s', amexec callee σ (prog a k) s = after [] fs 0 (amexec callee σ (k a') s') ∧ s'.table = s.table ∧
        Fresh s'.mem ∧ Keeps N s.mem s'.mem ∧ Agrees fs s'.mem ∧ StepsTo g fs a a' F N

/-- What the node function of a fold over a sequence computes. -/
def nodeVal (st : S → E → P S) (mt : S → Nat → Option Name → S) (x : S) (d : TreeData E M) (lv : Nat) (n : Option Name) : P S :=
  match d with
  | .leaf v => v.foldlM st x
  | _ => .ok (mt x lv n)

/-- The names it uses. -/
def nodeUses (d : TreeData E M) (n : Option Name) : List Name :=
  match d with
  | .leaf _ => []
  | _ => n.toList

theorem foldVec_ok {g : Sem A S D D' X'} (hm : ∀ (τ : Mem D' X') (ns ns' : Name → Prop) (a : A) (x : S), (∀ m, ns m → ns' m) → g.Rel τ ns a x → g.Rel τ ns' a x)
    (hframe : ∀ (τ τ' : Mem D' X') (ns : Name → Prop) (N : List Name) (a : A) (x : S), Fresh τ → Keeps N τ τ' → (∀ m ∈ N, ¬ ns m) →
      g.Rel τ ns a x → g.Rel τ' ns a x)
    {bin : A → E → (A → AProg (Cell D X) (Cell D' X') (LrKey A) A A) → AProg (Cell D X) (Cell D' X') (LrKey A) A A}
    {st : S → E → P S} (hb : ∀ e, StepOK g (fun a k => bin a e k) (fun x => st x e) []) :
    ∀ v : List E, StepOK g (fun a k => foldVec bin v a k) (fun x => v.foldlM st x) [] := by
  intro v
  induction v with
  | nil =>
    intro callee σ s ns a x k hf hr _
    refine ⟨a, [], s, ?_, rfl, hf, Keeps.refl _ _, Agrees.nil _, stepsTo_refl hm a⟩
    simp only [foldVec, after_zero]
  | cons e v ih =>
    intro callee σ s ns a x k hf hr hd
    have h1 := hb e callee σ s ns a x (fun a => foldVec bin v a k) hf hr hd
    beta_reduce at h1
    simp only [List.foldlM_cons, foldVec]
    cases hx : st x e with
    | error q =>
      rw [hx] at h1
      exact h1
    | ok y =>
      rw [hx] at h1
      obtain ⟨a1, fs1, s1, e1, t1, f1, k1, g1, st1⟩ := h1
      have hr1 : g.Rel s1.mem ns a x := hframe _ _ _ _ _ _ hf k1 hd hr
      obtain ⟨y', b1, b2, b3⟩ := st1 s1.mem ns x f1 g1 hr1 hd
      simp only [hx] at b1
      cases b1
      have h2 := ih callee σ s1 _ a1 y k f1 b2 (by intro m hm; cases hm)
      beta_reduce at h2
      simp only [bind, Except.bind] at h2 ⊢
      cases hy : v.foldlM st y with
      | error q =>
        rw [hy] at h2
        simp only at h2 ⊢
        simp only [e1, h2]
        rfl
      | ok z =>
        rw [hy] at h2
        obtain ⟨a2, fs2, s2, e2, t2, f2, k2, g2, st2⟩ := h2
        refine ⟨a2, fs1 ++ fs2, s2, ?_, t2.trans t1, f2, k1.trans k2, ?_, ?_⟩
        · simp only [e1, e2, after_after, List.nil_append, Nat.add_zero]
        · refine agrees_append.2 ⟨?_, g2⟩
          exact agrees_keep g1 f1.unused k2 (fun m q x _ hx => by cases hx)
        · have := st1.comp st2 (fun x hx => by cases hx) hm
          exact this

/-- The usual accumulators are not considered for these folds. -/
def Plain (g : Sem A S D D' X') : Prop := (∀ d, ¬ g.okLeaf d) ∧ ∀ d m, ¬ g.okNode d m

theorem accNode_ok [DecidableEq E] [DecidableEq M] {g : Sem A S (TreeData E M) D' X'} (hm : ∀ (τ : Mem D' X') (ns ns' : Name → Prop) (a : A) (x : S), (∀ m, ns m → ns' m) → g.Rel τ ns a x → g.Rel τ ns' a x)
    (hframe : ∀ (τ τ' : Mem D' X') (ns : Name → Prop) (N : List Name) (a : A) (x : S), Fresh τ → Keeps N τ τ' → (∀ m ∈ N, ¬ ns m) →
      g.Rel τ ns a x → g.Rel τ' ns a x)
    {bin : A → E → (A → AProg (Cell (TreeData E M) X) (Cell D' X') (LrKey A) A A) → AProg (Cell (TreeData E M) X) (Cell D' X') (LrKey A) A A}
    {mt : A → Nat → Option Name → (A → AProg (Cell (TreeData E M) X) (Cell D' X') (LrKey A) A A) → AProg (Cell (TreeData E M) X) (Cell D' X') (LrKey A) A A}
    {st : S → E → P S} {mv : S → Nat → Option Name → S} (hf : g.f = nodeVal st mv) (hu : g.uses = nodeUses)
    (hb : ∀ e, StepOK g (fun a k => bin a e k) (fun x => st x e) []) (hmt : ∀ l n, StepOK g (fun a k => mt a l n k) (fun x => .ok (mv x l n)) n.toList)
    (hp : Plain g) : NodeOK (accNode bin mt) g := by
  refine ⟨hframe, hm, ?_⟩
  intro callee σ s ns a x d lv n k fr hr hd
  have hf' : ∀ x, g.f x d lv n = nodeVal st mv x d lv n := by intro x; rw [hf]
  have hu' : g.uses d n = nodeUses d n := by rw [hu]
  simp only [hf', hu'] at hd ⊢
  have key : StepOK g (fun a k => accNode bin mt a d lv n k) (fun x => nodeVal st mv x d lv n) (nodeUses d n) := by
    cases d with
    | leaf v => exact foldVec_ok hm hframe hb v
    | dummy => exact hmt lv n
    | branch l r => exact hmt lv n
  have h1 := key callee σ s ns a x k fr hr hd
  beta_reduce at h1
  cases hx : nodeVal st mv x d lv n with
  | error q => rw [hx] at h1; exact h1
  | ok y =>
    rw [hx] at h1
    obtain ⟨a1, fs1, s1, e1, t1, f1, k1, g1, st1⟩ := h1
    exact ⟨a1, fs1, s1, e1, t1, f1, k1, g1, st1, fun h => absurd h (hp.1 d), fun m h => absurd h (hp.2 d m)⟩

/-! ### Archive stacks -/

theorem archive_run {K R B : Type} [DecidableEq K] {V : Type} [DecidableEq V] (callee : K → Space V (Cell D' (Nat × List T)) K R → Option (P (AOut V (Cell D' (Nat × List T)) K R R)))
    (σ : Store V) (s : Space V (Cell D' (Nat × List T)) K R) (hf : Fresh s.mem) (a : ASt T) (n : Option Name) (lv : Nat)
    (k : ASt T → AProg V (Cell D' (Nat × List T)) K R B) :
    ∃ a' fs s', amexec callee σ (archiveProg a n lv k) s = after [] fs 0 (amexec callee σ (k a') s') ∧ s'.table = s.table ∧ Fresh s'.mem ∧
      Keeps n.toList s.mem s'.mem ∧ Agrees fs s'.mem ∧ Within fs n.toList ∧
      (a.current ≠ [] → ∀ m, n = some m → a' = ⟨[], some ⟨n, .named m []⟩⟩) ∧
      ∀ (τ : Mem D' (Nat × List T)) (ns : Name → Prop) (x : AStack T Nat), Agrees fs τ → ARel τ ns a x → (∀ m ∈ n.toList, ¬ ns m) →
        ARel τ (fun m => ns m ∨ m ∈ n.toList) a' (x.archive n lv).1 := by
  by_cases hc : a.current.length = 0
  · refine ⟨a, [], s, ?_, rfl, hf, Keeps.refl _ _, Agrees.nil _, Within.nil _, ?_, ?_⟩
    · simp only [archiveProg, if_pos hc, after_zero]
    · intro h
      exact absurd (List.length_eq_zero_iff.1 hc) h
    · intro τ ns x _ hr _
      have : x.current.length = 0 := by rw [← hr.1]; exact hc
      simp only [AStack.archive, if_pos this]
      exact hr.mono (fun _ h => .inl h)
  · obtain ⟨h1, h2, h3, h4, h5⟩ := alloc_spec (s := s) hf.unused n (.body (lv, a.current) a.archived)
    refine ⟨⟨[], some ⟨n, (s.alloc n (.body (lv, a.current) a.archived)).2⟩⟩, [((s.alloc n (.body (lv, a.current) a.archived)).2, .body (lv, a.current) a.archived)],
      (s.alloc n (.body (lv, a.current) a.archived)).1, ?_, h1, ⟨?_, h2⟩, h3, ?_, ?_, ?_, ?_⟩
    · simp only [archiveProg, if_neg hc, amexec]
    · rw [h3.path, hf.path]
    · exact agrees_cons.2 ⟨h4, Agrees.nil _⟩
    · intro m q x hm
      simp only [List.mem_singleton, Prod.mk.injEq] at hm
      rw [h5 m q hm.1.symm]; simp
    · rintro - m rfl
      have : (s.alloc (some m) (.body (lv, a.current) a.archived)).2 = .named m s.mem.path := rfl
      rw [this, hf.path]
    · intro τ ns x hag hr hd
      have hx : ¬ x.current.length = 0 := by rw [← hr.1]; exact hc
      have hcell := (agrees_cons.1 hag).1
      simp only [AStack.archive, if_neg hx, Stack.push]
      refine ⟨rfl, ?_⟩
      rw [← hr.1]
      refine .cons hcell (fun m hm => .inr (by simp only at hm; simp [hm])) (fun m q hm => .inr (by simp [h5 m q hm])) ?_ (hr.2.mono (fun _ h => .inl h))
      intro m hm hin
      exact hd m (by simp only at hm; simp [hm]) (hr.2.view.2.2 m hin)

/-- `pop` does what it should; the accumulator may be part of something bigger. -/
theorem pop_run {K R B : Type} [DecidableEq K] {V : Type} [DecidableEq V] (callee : K → Space V (Cell D' (Nat × List T)) K R → Option (P (AOut V (Cell D' (Nat × List T)) K R R)))
    (σ : Store V) (s : Space V (Cell D' (Nat × List T)) K R) {ns : Name → Prop} {a : ASt T} {x : AStack T Nat} (hr : ARel s.mem ns a x)
    (k : Option T → ASt T → AProg V (Cell D' (Nat × List T)) K R B) :
    ∃ o a' fs, amexec callee σ (popProg a k) s = after [] fs 0 (amexec callee σ (k o a') s) ∧ Agrees fs s.mem ∧
      ∀ (τ : Mem D' (Nat × List T)) (ns : Name → Prop) (x : AStack T Nat), Agrees fs τ → ARel τ ns a x →
        ∃ x', x.pop = .ok (x', o) ∧ ARel τ ns a' x' ∧ ∀ m q c, (Loc.named m q, c) ∈ fs → ns m := by
  obtain ⟨cur, arch⟩ := a
  have isE : ∀ {τ : Mem D' (Nat × List T)} {ns : Name → Prop} {x : AStack T Nat}, ARel τ ns ⟨cur, arch⟩ x → x.isEmpty = (⟨cur, arch⟩ : ASt T).isEmpty :=
    fun h => h.view.1.isEmpty.symm
  by_cases he : (⟨cur, arch⟩ : ASt T).isEmpty = true
  · refine ⟨none, ⟨cur, arch⟩, [], ?_, Agrees.nil _, ?_⟩
    · simp only [popProg, he, if_true, after_zero]
    · intro τ ns x _ hr
      refine ⟨x, ?_, hr, fun m q c h => by cases h⟩
      simp only [AStack.pop, isE hr, he, if_true]
  · by_cases hc : cur.length = 0
    · have hcur : cur = [] := List.length_eq_zero_iff.1 hc
      subst hcur
      obtain ⟨xc, xa⟩ := x
      obtain ⟨h1, h2⟩ := hr
      simp only at h1 h2
      cases h2 with
      | nil => simp [ASt.isEmpty] at he
      | @cons h z t l hcell hn hm hd ht =>
        obtain ⟨lv, v⟩ := z
        refine ⟨v.getLast?, ⟨v.dropLast, t⟩, [(h.main, .body (lv, v) t), (h.main, .body (lv, v) t)], ?_, ?_, ?_⟩
        · simp only [popProg, he, Bool.false_eq_true, if_false, List.length_nil, if_true, amexec, hcell, after_after]
          rfl
        · exact agrees_cons.2 ⟨hcell, agrees_cons.2 ⟨hcell, Agrees.nil _⟩⟩
        · intro τ ns x hag hr
          have hE := isE hr
          have hcell' := (agrees_cons.1 hag).1
          obtain ⟨xc, xa⟩ := x
          obtain ⟨h1', h2'⟩ := hr
          simp only at h1' h2'
          subst h1'
          cases h2' with
          | @cons _ z' t' l' hcell2 hn' hm' hd' ht' =>
            rw [hcell'] at hcell2
            cases hcell2
            refine ⟨⟨v.dropLast, l'⟩, ?_, ⟨rfl, ht'⟩, ?_⟩
            · unfold AStack.pop
              rw [if_neg (by rw [hE]; exact he)]
              simp [AStack.retrieve, Stack.peek, Stack.pull, unwrap, AStack.popCurrent, bind, Except.bind, pure, Except.pure]
            · intro m q c hmem
              simp only [List.mem_cons, Prod.mk.injEq, List.not_mem_nil, or_false] at hmem
              rcases hmem with hmem | hmem <;> exact hm' m q hmem.1.symm
    · refine ⟨cur.getLast?, ⟨cur.dropLast, arch⟩, [], ?_, Agrees.nil _, ?_⟩
      · simp only [popProg, he, Bool.false_eq_true, if_false, if_neg hc, after_zero]
      · intro τ ns x _ hr
        have hE := isE hr
        obtain ⟨h1, h2⟩ := hr
        simp only at h1 h2
        refine ⟨⟨cur.dropLast, x.archived⟩, ?_, ⟨rfl, h2⟩, fun m q c h => by cases h⟩
        have hx : ¬ x.current.length = 0 := by rw [← h1]; exact hc
        unfold AStack.pop
        rw [if_neg (by rw [hE]; exact he)]
        simp [AStack.retrieve, hx, AStack.popCurrent, bind, Except.bind, pure, Except.pure, ← h1, hc]

/-! ### The programs -/

open Eval.Adder (Token stackAccum tokenizeStep tokenizeMeta parseStep parseMeta)

/-- `to_list`. The usual accumulator after a node is the link of the cell with its name. -/
def listSem : Sem (ASt E) (AStack E Nat) (TreeData E M) D' (Nat × List E) where
  f := nodeVal (fun s x => .ok (s.push x)) (fun s l n => (s.archive n l).1)
  uses := nodeUses
  Rel := ARel
  home n := match n with
    | none => ASt.new
    | some m => if m = .str "start" then ASt.new else ⟨[], some ⟨some m, .named m []⟩⟩
  Mid a := a.current ≠ []
  okLeaf d := ∃ v, d = .leaf v ∧ v ≠ []
  okNode d m := (∀ v, d ≠ .leaf v) ∧ m ≠ .str "start"

theorem foldVec_push {V W K R B : Type} (k : ASt E → AProg V W K R B) : ∀ (v : List E) (a : ASt E),
    foldVec (fun a x k => k (a.push x)) v a k = k ⟨a.current ++ v, a.archived⟩ := by
  intro v
  induction v with
  | nil => intro a; simp [foldVec]
  | cons x v ih => intro a; rw [foldVec]; beta_reduce; rw [ih]; simp only [ASt.push, List.append_assoc, List.singleton_append]

theorem foldlM_push : ∀ (v : List E) (x : AStack E Nat), v.foldlM (fun s x => (.ok (s.push x) : P (AStack E Nat))) x = .ok ⟨x.current ++ v, x.archived⟩ := by
  intro v
  induction v with
  | nil => intro x; simp [pure, Except.pure]
  | cons e v ih =>
    intro x
    simp only [List.foldlM_cons, bind, Except.bind]
    rw [ih]
    simp [AStack.push]

theorem list_ok [DecidableEq E] [DecidableEq M] : NodeOK (X := X) (toListNode : AccNode _ _ _ _) (listSem (E := E) (M := M) (D' := D')) := by
  refine ⟨fun τ τ' ns N a x hf hk hd hr => ARel.frame hf hk hd hr, fun τ ns ns' a x h hr => ARel.mono h hr, ?_⟩
  intro callee σ s ns a x d lv n k fr hr hd
  have node : ∀ d : TreeData E M, (∀ v, d ≠ .leaf v) → (∀ m ∈ (listSem (D' := D')).uses d n, ¬ ns m) →
      ∃ a' fs s', amexec callee σ (archiveProg a n lv k) s = after [] fs 0 (amexec callee σ (k a') s') ∧ s'.table = s.table ∧
        Fresh s'.mem ∧ Keeps n.toList s.mem s'.mem ∧ Agrees fs s'.mem ∧ StepsTo (listSem (M := M)) fs a a' (fun x => .ok (x.archive n lv).1) n.toList ∧
        ((listSem (D' := D')).okLeaf d → a = (listSem (M := M) (D' := D')).home n → (listSem (M := M) (D' := D')).Mid a' ∧ Within fs n.toList) ∧
        (∀ m, (listSem (D' := D')).okNode d m → n = some m → (listSem (M := M) (D' := D')).Mid a → a' = (listSem (M := M) (D' := D')).home n ∧ Within fs n.toList) := by
    intro d hl hd
    obtain ⟨a', fs, s', e1, t1, f1, k1, g1, w1, c1, r1⟩ := archive_run callee σ s fr a n lv k
    refine ⟨a', fs, s', e1, t1, f1, k1, g1, ?_, ?_, ?_⟩
    · intro τ ns x _ hag hr hd
      exact ⟨_, rfl, r1 τ ns x hag hr hd, fun m q c hm => .inr (w1 m q c hm)⟩
    · rintro ⟨v, rfl, -⟩
      exact absurd rfl (hl v)
    · rintro m ⟨-, hne⟩ rfl hmid
      refine ⟨?_, w1⟩
      rw [c1 hmid m rfl]
      simp only [listSem, if_neg hne]
  cases d with
  | leaf v =>
    have hv : (listSem (M := M) (D' := D')).f x (.leaf v) lv n = .ok ⟨x.current ++ v, x.archived⟩ := foldlM_push v x
    rw [hv]
    refine ⟨⟨a.current ++ v, a.archived⟩, [], s, ?_, rfl, fr, Keeps.refl _ _, Agrees.nil _, ?_, ?_, ?_⟩
    · simp only [toListNode, accNode, foldVec_push, after_zero]
    · intro τ ns x _ _ hr _
      refine ⟨_, foldlM_push v x, ?_, fun m q c h => by cases h⟩
      exact ⟨by simp only [hr.1], hr.2.mono (fun _ h => .inl h)⟩
    · rintro ⟨v', hv', hne⟩ -
      cases hv'
      exact ⟨by simp [listSem, hne], Within.nil _⟩
    · rintro m ⟨h, -⟩
      exact absurd rfl (h v)
  | dummy => exact node .dummy (fun v h => by cases h) hd
  | branch l r => exact node (.branch l r) (fun v h => by cases h) hd

/-- The tokens. -/
def tokSem : Sem (ASt Token × Option Nat) (AStack Token Nat × Option Nat) (TreeData Char M) D' (Nat × List Token) where
  f := nodeVal (tokenizeStep (stackAccum Token)) (fun st l n => tokenizeMeta (stackAccum Token) st (l, n))
  uses := nodeUses
  Rel τ ns a x := ARel τ ns a.1 x.1 ∧ a.2 = x.2
  home _ := (ASt.new, none)
  Mid _ := False
  okLeaf _ := False
  okNode _ _ := False

theorem tok_ok [DecidableEq M] : NodeOK (X := X) (tokNode : AccNode _ _ _ _) (tokSem (M := M) (D' := D')) := by
  have hm : ∀ (τ : Mem D' (Nat × List Token)) (ns ns' : Name → Prop) (a : ASt Token × Option Nat) (x : AStack Token Nat × Option Nat), (∀ m, ns m → ns' m) →
      (tokSem (M := M)).Rel τ ns a x → (tokSem (M := M)).Rel τ ns' a x := fun τ ns ns' a x h hr => ⟨hr.1.mono h, hr.2⟩
  refine accNode_ok hm (fun τ τ' ns N a x hf hk hd hr => ⟨hr.1.frame hf hk hd, hr.2⟩) rfl rfl ?_ ?_ ⟨fun _ h => h, fun _ _ h => h⟩
  · intro c callee σ s ns a x k fr hr _
    -- a step that only computes
    have pure : ∀ (F : AStack Token Nat × Option Nat → P (AStack Token Nat × Option Nat)) (a' : ASt Token × Option Nat) (p : AProg (Cell (TreeData Char M) X) (Cell D' (Nat × List Token)) (LrKey (ASt Token × Option Nat)) _ _),
        p = k a' → (∀ (τ : Mem D' (Nat × List Token)) (ns : Name → Prop) (x : AStack Token Nat × Option Nat), ARel τ ns a.1 x.1 ∧ a.2 = x.2 → ∃ y, F x = .ok y ∧ (ARel τ ns a'.1 y.1 ∧ a'.2 = y.2)) →
        ∃ a' fs s', amexec callee σ p s = after [] fs 0 (amexec callee σ (k a') s') ∧ s'.table = s.table ∧
          Fresh s'.mem ∧ Keeps [] s.mem s'.mem ∧ Agrees fs s'.mem ∧ StepsTo (tokSem (M := M)) fs a a' F [] := by
      intro F a' p hp hF
      refine ⟨a', [], s, by rw [hp, after_zero], rfl, fr, Keeps.refl _ _, Agrees.nil _, ?_⟩
      intro τ ns x _ _ hr _
      obtain ⟨y, h1, h2⟩ := hF τ ns x hr
      exact ⟨y, h1, hm _ _ _ _ _ (fun _ h => .inl h) h2, fun m q c h => by cases h⟩
    have h2 : a.2 = x.2 := hr.2
    simp only [tokenizeStep, tokStepProg]
    cases hc : Eval.Adder.toDigit c with
    | some num =>
      simp only [← h2]
      cases hg : Eval.Adder.growOpt a.2 num with
      | error q => simp only [bind, Except.bind, amexec]
      | ok bigger =>
        simp only [bind, Except.bind]
        by_cases hb : bigger > 99999
        · simp only [if_pos hb]
          refine pure _ (a.1.push (.num bigger), some num) _ rfl ?_
          intro τ ns x hr
          refine ⟨(x.1.push (.num bigger), some num), ?_, hr.1.push _, rfl⟩
          simp only [← hr.2, hg, if_pos hb]
          rfl
        · simp only [if_neg hb]
          refine pure _ (a.1, some bigger) _ rfl ?_
          intro τ ns x hr
          refine ⟨(x.1, some bigger), ?_, hr.1, rfl⟩
          simp only [← hr.2, hg, if_neg hb]
          rfl
    | none =>
      simp only
      have hts : ∀ {τ : Mem D' (Nat × List Token)} {ns : Name → Prop} {x : AStack Token Nat × Option Nat}, ARel τ ns a.1 x.1 ∧ a.2 = x.2 →
          ARel τ ns (match a.2 with | some num => a.1.push (.num num) | none => a.1)
            (match x.2 with | some num => (stackAccum Token).push x.1 (.num num) | none => x.1) := by
        intro τ ns x hr
        rw [← hr.2]
        cases a.2 with
        | none => exact hr.1
        | some num => exact hr.1.push _
      by_cases hp : c = '+'
      · simp only [if_pos hp]
        refine pure _ ((match a.2 with | some num => a.1.push (.num num) | none => a.1).push .opPlus, none) _ rfl ?_
        intro τ ns x hr
        exact ⟨_, rfl, (hts hr).push _, rfl⟩
      · by_cases hq : c = ','
        · simp only [if_neg hp, if_pos hq]
          refine pure _ (match a.2 with | some num => a.1.push (.num num) | none => a.1, none) _ rfl ?_
          intro τ ns x hr
          exact ⟨_, rfl, hts hr, rfl⟩
        · simp only [if_neg hp, if_neg hq, amexec]
  · intro l n callee σ s ns a x k fr hr hd
    obtain ⟨a', fs, s', e1, t1, f1, k1, g1, w1, c1, r1⟩ := archive_run callee σ s fr a.1 n l (fun ts => k (ts, a.2))
    refine ⟨(a', a.2), fs, s', e1, t1, f1, k1, g1, ?_⟩
    intro τ ns x _ hag hr hd
    exact ⟨_, rfl, ⟨r1 τ ns x.1 hag hr.1 hd, hr.2⟩, fun m q c hm => .inr (w1 m q c hm)⟩

/-- The sums. -/
def parseSem : Sem (ASt Nat) (AStack Nat Nat) (TreeData Token M) D' (Nat × List Nat) where
  f := nodeVal (parseStep (stackAccum Nat)) (fun st l n => parseMeta (stackAccum Nat) st (l, n))
  uses := nodeUses
  Rel := ARel
  home _ := ASt.new
  Mid _ := False
  okLeaf _ := False
  okNode _ _ := False

theorem parse_ok [DecidableEq M] : NodeOK (X := X) (parseNode : AccNode _ _ _ _) (parseSem (M := M) (D' := D')) := by
  have hm : ∀ (τ : Mem D' (Nat × List Nat)) (ns ns' : Name → Prop) (a : ASt Nat) (x : AStack Nat Nat), (∀ m, ns m → ns' m) →
      (parseSem (M := M)).Rel τ ns a x → (parseSem (M := M)).Rel τ ns' a x := fun τ ns ns' a x h hr => hr.mono h
  refine accNode_ok hm (fun τ τ' ns N a x hf hk hd hr => hr.frame hf hk hd) rfl rfl ?_ ?_ ⟨fun _ h => h, fun _ _ h => h⟩
  · intro t callee σ s ns a x k fr hr _
    cases t with
    | num n =>
      refine ⟨a.push n, [], s, by simp only [parseStepProg, after_zero], rfl, fr, Keeps.refl _ _, Agrees.nil _, ?_⟩
      intro τ ns x _ _ hr _
      exact ⟨_, rfl, (ARel.push hr n).mono (fun _ h => .inl h), fun m q c h => by cases h⟩
    | opPlus =>
      have hval : ∀ x : AStack Nat Nat, parseStep (stackAccum Nat) x .opPlus = (do
          let (x, o) ← x.pop
          match o with
          | none => .ok x
          | some b => do
            let (x, o) ← x.pop
            match o with
            | none => .ok (x.push b)
            | some a => do
              let c ← Eval.Adder.addU32 a b
              .ok (x.push c)) := by
        intro x
        simp only [parseStep, stackAccum, bind, Except.bind]
        cases x.pop with
        | error q => rfl
        | ok p =>
          obtain ⟨x1, o1⟩ := p
          simp only [pure, Except.pure]
          cases o1 with
          | none => rfl
          | some b =>
            simp only
            cases x1.pop with
            | error q => rfl
            | ok p =>
              obtain ⟨x2, o2⟩ := p
              simp only
              cases o2 <;> rfl
      simp only [hval]
      obtain ⟨o1, a1, fs1, e1, g1, r1⟩ := pop_run callee σ s hr (fun b n =>
        match b with
        | none => k n
        | some b =>
          popProg n fun a n =>
            match a with
            | none => k (n.push b)
            | some a =>
              match Eval.Adder.addU32 a b with
              | .error q => .fail q
              | .ok c => k (n.push c))
      obtain ⟨x1, p1, rel1, -⟩ := r1 s.mem ns x g1 hr
      have e1' : amexec callee σ (parseStepProg a .opPlus k) s = _ := e1
      rw [e1', p1]
      cases o1 with
      | none =>
        simp only [bind, Except.bind]
        refine ⟨a1, fs1, s, rfl, rfl, fr, Keeps.refl _ _, g1, ?_⟩
        intro τ ns x _ hag hr _
        obtain ⟨x', q1, q2, q3⟩ := r1 τ ns x hag hr
        refine ⟨x', ?_, q2.mono (fun _ h => .inl h), fun m q c h => .inl (q3 m q c h)⟩
        beta_reduce
        rw [q1]
      | some b =>
        simp only [bind, Except.bind]
        obtain ⟨o2, a2, fs2, e2, g2, r2⟩ := pop_run callee σ s rel1 (fun a n =>
            match a with
            | none => k (n.push b)
            | some a =>
              match Eval.Adder.addU32 a b with
              | .error q => .fail q
              | .ok c => k (n.push c))
        obtain ⟨x2, p2, rel2, -⟩ := r2 s.mem ns x1 g2 rel1
        rw [e2, p2]
        simp only [after_after, List.append_nil, Nat.add_zero]
        cases o2 with
        | none =>
          refine ⟨a2.push b, fs1 ++ fs2, s, rfl, rfl, fr, Keeps.refl _ _, agrees_append.2 ⟨g1, g2⟩, ?_⟩
          intro τ ns x _ hag hr _
          have hag := agrees_append.1 hag
          obtain ⟨x', q1, q2, q3⟩ := r1 τ ns x hag.1 hr
          obtain ⟨x'', q4, q5, q6⟩ := r2 τ ns x' hag.2 q2
          refine ⟨x''.push b, ?_, (q5.push b).mono (fun _ h => .inl h), fun m q c h => ?_⟩
          · beta_reduce; rw [q1]
            simp only [q4]
          · rcases List.mem_append.1 h with h | h
            · exact .inl (q3 m q c h)
            · exact .inl (q6 m q c h)
        | some a' =>
          cases hadd : Eval.Adder.addU32 a' b with
          | error q => simp only [hadd, amexec]; rfl
          | ok z =>
            simp only [hadd]
            refine ⟨a2.push z, fs1 ++ fs2, s, rfl, rfl, fr, Keeps.refl _ _, agrees_append.2 ⟨g1, g2⟩, ?_⟩
            intro τ ns x _ hag hr _
            have hag := agrees_append.1 hag
            obtain ⟨x', q1, q2, q3⟩ := r1 τ ns x hag.1 hr
            obtain ⟨x'', q4, q5, q6⟩ := r2 τ ns x' hag.2 q2
            refine ⟨x''.push z, ?_, (q5.push z).mono (fun _ h => .inl h), fun m q c h => ?_⟩
            · beta_reduce; rw [q1]
              simp only [q4, hadd]
            · rcases List.mem_append.1 h with h | h
              · exact .inl (q3 m q c h)
              · exact .inl (q6 m q c h)
  · intro l n callee σ s ns a x k fr hr hd
    obtain ⟨a', fs, s', e1, t1, f1, k1, g1, w1, c1, r1⟩ := archive_run callee σ s fr a n l k
    refine ⟨a', fs, s', e1, t1, f1, k1, g1, ?_⟩
    intro τ ns x _ hag hr hd
    exact ⟨_, rfl, r1 τ ns x hag hr hd, fun m q c hm => .inr (w1 m q c hm)⟩

end
end Iodyn.Incr.Lr
