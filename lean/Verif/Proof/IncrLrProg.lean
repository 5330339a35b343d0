import Verif.Proof.IncrLrStack
import Verif.Props.IncrMap
import Verif.Props.HeapMemoFrom
/-
`to_list` and the adder in their namespaces.
-/
namespace Iodyn.Incr.Lr
open Iodyn.Heap (Tr Head Cell Mem HTree ASt Keeps Dis)
variable {V W K R S A B D X D' X' E M N T : Type}

/-! ### Names and ends -/

theorem not_isSome {l : Tree D} (h : l.isSome = false) : l = .nil := by cases l <;> first | rfl | cases h

theorem plain_nil {v : Tree (Tr × D)} : plain v = .nil ↔ v = .nil := by
  cases v with
  | nil => exact ⟨fun _ => rfl, fun _ => rfl⟩
  | node lv n d l r => exact ⟨fun h => by (cases d; cases h), fun h => by cases h⟩

theorem used_count : ∀ (v : Tree (Tr × TreeData E M)) (c : Option Name), EndsInLeaves (plain v) → ∀ x,
    (used nodeUses c v).count x ≤ (nodeNames v).count x := by
  intro v
  induction v with
  | nil => intro c _ x; exact Nat.zero_le _
  | node lv n d l r ihl ihr =>
    obtain ⟨h, d⟩ := d
    intro c he x
    have he : EndsInLeaves (.node lv n d (plain l) (plain r)) := he
    obtain ⟨h0, hl, hr⟩ := he
    have hu : (nodeUses d n).count x ≤ n.toList.count x := by
      cases d <;> simp [nodeUses]
    simp only [used]
    split
    · have := ihl c hl x
      have := ihr n hr x
      simp only [nodeNames, List.count_append]
      omega
    · next hs =>
      simp only [Bool.or_eq_true, not_or, Bool.not_eq_true] at hs
      obtain ⟨w, rfl⟩ := h0 (plain_nil.2 (not_isSome hs.1)) (plain_nil.2 (not_isSome hs.2))
      simp [nodeUses]

theorem used_nodup {v : Tree (Tr × TreeData E M)} (c : Option Name) (he : EndsInLeaves (plain v)) (hn : (nodeNames v).Nodup) :
    (used nodeUses c v).Nodup := by
  rw [List.nodup_iff_count_le_one] at hn ⊢
  exact fun x => Nat.le_trans (used_count v c he x) (hn x)

theorem _root_.Iodyn.Incr.Chunked.ends : ∀ {t : Tree (TreeData E M)}, Chunked t → EndsInLeaves t := by
  intro t
  induction t with
  | nil => intro h; exact h.elim
  | node lv n d l r ihl ihr =>
    rintro (⟨rfl, rfl, x, v, rfl⟩ | ⟨hl, hr, -, -⟩)
    · exact ⟨fun _ _ => ⟨_, rfl⟩, trivial, trivial⟩
    · refine ⟨fun h _ => ?_, ihl hl, ihr hr⟩
      subst h; exact hl.elim

theorem _root_.Iodyn.Incr.Chunked.full : ∀ {v : Tree (Tr × TreeData E M)}, Chunked (plain v) → Full (listSem (E := E) (M := M) (D' := D')) v := by
  intro v
  induction v with
  | nil => intro h; exact h.elim
  | node lv n d l r ihl ihr =>
    obtain ⟨h, d⟩ := d
    intro hc
    have hc : Chunked (.node lv n d (plain l) (plain r)) := hc
    rcases hc with ⟨h1, h2, x, v, rfl⟩ | ⟨hl, hr, hd, m, rfl, hm⟩
    · rw [plain_nil] at h1 h2
      subst h1; subst h2
      exact .inl ⟨rfl, rfl, _, rfl, by simp⟩
    · exact .inr ⟨ihl hl, ihr hr, m, rfl, hd, hm⟩

theorem wf_ends [RazMeta E M] {t : Tree (TreeData E M)} (h : WF t) : EndsInLeaves t := by
  induction h with
  | leaf v => exact ⟨fun _ _ => ⟨_, rfl⟩, trivial, trivial⟩
  | branch _ hl _ ihl ihr =>
    refine ⟨fun h _ => ?_, ihl, ihr⟩
    subst h; cases hl

theorem wfo_ends [RazMeta E M] {t : Tree (TreeData E M)} (h : WFo t) : EndsInLeaves t := by
  rcases h with rfl | h
  · trivial
  · exact wf_ends h

theorem nodeNames_plain : ∀ v : Tree (Tr × D), nodeNames (plain v) = nodeNames v := by
  intro v
  induction v with
  | nil => rfl
  | node lv n d l r ihl ihr =>
    show nodeNames (.node lv n d.2 (plain l) (plain r)) = _
    simp only [nodeNames, ihl, ihr]

/-! ### Trees that `memo_from` makes -/

section
variable [RazMeta E M]

/-- A tree that is there. -/
def Ends (t : Tree (TreeData E M)) : Prop := t ≠ .nil ∧ EndsInLeaves t

omit [RazMeta E M] in
theorem ends_leaf (v : List E) (n : Option Name) : Ends (leaf v n : Tree (TreeData E M)) :=
  ⟨by simp [leaf], fun _ _ => ⟨_, rfl⟩, trivial, trivial⟩

theorem ends_join {w : End} {small accum t : Tree (TreeData E M)} {l : Nat} {n : Option Name} (hs : Ends small) (ha : Ends accum)
    (h : joinW w small l n accum = .ok t) : Ends t := by
  cases w
  all_goals
    simp only [joinW, bin] at h
    obtain ⟨d, -, h⟩ := bind_ok.1 h
    cases h
  · exact ⟨by simp, fun h _ => absurd h hs.1, hs.2, ha.2⟩
  · exact ⟨by simp, fun h _ => absurd h ha.1, ha.2, hs.2⟩

theorem fromW_ends {w : End} : ∀ (k : Nat) {s : AStack E Nat} {l : Nat} {fn : Option Name} {T : Tree (TreeData E M)} {m : Nat} {b : FromStackRes E M},
    Ends T → fromW w k s l fn T m = .ok b → Ends b.2.2.2 := by
  intro k
  induction k with
  | zero => intro s l fn T m b _ h; cases w <;> cases h
  | succ k ih =>
    intro s l fn T m b hT h
    rw [fromW_succ] at h
    split at h
    · generalize s.nextArchive = na at h
      rcases na with ⟨s', _ | ⟨vec, nl⟩⟩
      · cases h
      · simp only at h
        obtain ⟨r, h1, h⟩ := bind_ok.1 h
        obtain ⟨t, h2, h⟩ := bind_ok.1 h
        have hr : Ends r.2.2.2 := by
          unfold subW at h1
          cases nl with
          | none => cases h1; exact ends_leaf _ _
          | some lev =>
            simp only at h1
            split at h1
            · exact ih (ends_leaf _ _) h1
            · cases h1; exact ends_leaf _ _
        have ht := ends_join hr hT h2
        unfold restW at h
        split at h
        · cases h; exact ht
        · split at h
          · exact ih ht h
          · cases h; exact ht
    · cases h

theorem conv_tree {w : End} {s : AStack E Nat} {b : RazTree E M} (h : w.conv s = .ok b) : convTree w s = .ok b.tree := by
  rw [conv_eq] at h
  obtain ⟨t, h1, h2⟩ := bind_ok.1 h
  unfold mkRazTree at h2
  obtain ⟨m, -, h3⟩ := bind_ok.1 h2
  cases h3
  exact h1

theorem conv_ends {w : End} {s : AStack E Nat} {b : RazTree E M} (h : w.conv s = .ok b) : EndsInLeaves b.tree := by
  have h := conv_tree h
  generalize b.tree = t at h ⊢
  unfold convTree at h
  split at h
  · cases h; trivial
  · cases h; exact (ends_leaf _ _).2
  · obtain ⟨r, h1, h2⟩ := bind_ok.1 h
    split at h2
    · cases h2; exact (fromW_ends _ (ends_leaf _ _) h1).2
    · cases h2

theorem conv_names {w : End} {s : AStack E Nat} {b : RazTree E M} (h : w.conv s = .ok b) (hn : (stackNames s).Nodup) : (nodeNames b.tree).Nodup := by
  have h := conv_tree h
  generalize b.tree = t at h ⊢
  rw [List.nodup_iff_count_le_one] at hn ⊢
  intro x
  refine Nat.le_trans ?_ (hn x)
  rw [names_count, ← sN_stackNames]
  unfold convTree at h
  have hna := Heap.nextArchive_names .dcg s
  generalize s.nextArchive = na at h hna
  rcases na with ⟨s', _ | ⟨vec, nl⟩⟩
  · cases h; exact Nat.zero_le _
  · cases nl with
    | none => cases h; simp [Heap.tN_leaf]
    | some lev =>
      obtain ⟨r, h1, h2⟩ := bind_ok.1 h
      split at h2
      · cases h2
        have h3 := (fromW_val _ h1).names x
        have h4 := hna x
        simp only [Heap.tN_leaf, List.nil_append, List.count_append] at h3 h4
        omega
      · cases h2
end

/-! ### Values -/

theorem bind_foldP (f : S → D → Nat → Option Name → P S) : ∀ (v : Tree (Tr × D)) (c : Option Name) (a : P S),
    (a.bind fun x => foldP f c x v) = (plain v).foldLrMeta (fun a d l n => a.bind fun x => f x d l n) c a := by
  intro v
  induction v with
  | nil => intro c a; cases a <;> rfl
  | node lv n d l r ihl ihr =>
    obtain ⟨h, d⟩ := d
    intro c a
    have hp : ∀ t : Tree (Tr × D), (plain t).isSome = t.isSome := by intro t; cases t <;> rfl
    have e : plain (.node lv n (h, d) l r) = .node lv n d (plain l) (plain r) := rfl
    rw [e, Tree.foldLrMeta]
    simp only [foldP, hp]
    split
    · rw [← ihl c a, ← ihr]
      cases a with
      | error q => rfl
      | ok x =>
        simp only [Except.bind, bind]
        cases foldP f c x l <;> rfl
    · rfl

theorem foldP_eq (f : S → D → Nat → Option Name → P S) (v : Tree (Tr × D)) (c : Option Name) (x : S) :
    foldP f c x v = (plain v).foldLrMeta (fun a d l n => a.bind fun x => f x d l n) c (.ok x) := bind_foldP f v c (.ok x)

theorem foldl_lift (st : S → E → P S) : ∀ (v : List E) (a : P S), v.foldl (Eval.Adder.lift st) a = a.bind fun x => v.foldlM st x := by
  intro v
  induction v with
  | nil => intro a; cases a <;> rfl
  | cons e v ih =>
    intro a
    simp only [List.foldl_cons, ih, Eval.Adder.lift, List.foldlM_cons]
    cases a <;> rfl

/-- The fold over a sequence with values. -/
theorem foldLrMeta_lift (st : S → E → P S) (mt : S → Nat × Option Name → S) (t : RazTree E M) (x : S) :
    t.foldLrMeta (.ok x) (Eval.Adder.lift st) (fun a m => a.map fun s => mt s m) =
      t.tree.foldLrMeta (fun a d l n => a.bind fun x => nodeVal st (fun s l n => mt s (l, n)) x d l n) (some (.str "start")) (.ok x) := by
  unfold RazTree.foldLrMeta
  congr 1
  funext a d l n
  cases d with
  | leaf v => simp only [nodeVal]; exact foldl_lift st v a
  | dummy => cases a <;> rfl
  | branch => cases a <;> rfl

theorem foldLrMeta_map {A B : Type} (φ : A → B) {f : A → D → Nat → Option Name → A} {g : B → D → Nat → Option Name → B}
    (h : ∀ a d l n, φ (f a d l n) = g (φ a) d l n) : ∀ (t : Tree D) (c : Option Name) (a : A), φ (t.foldLrMeta f c a) = t.foldLrMeta g c (φ a) := by
  intro t
  induction t with
  | nil => intro c a; rfl
  | node lv n d l r ihl ihr =>
    intro c a
    simp only [Tree.foldLrMeta]
    split
    · rw [ihr, h, ihl]
    · rw [h]

theorem toListScratch_eq (t : RazTree E M) : (.ok (toListScratch t) : P (AStack E Nat)) =
    t.tree.foldLrMeta (fun a d l n => a.bind fun x => (listSem (M := M) (D' := Unit)).f x d l n) (some (.str "start")) (.ok AStack.new) := by
  unfold toListScratch RazTree.foldLrMeta
  refine foldLrMeta_map (fun a => (.ok a : P (AStack E Nat))) ?_ _ _ _
  intro a d l n
  cases d with
  | leaf v =>
    have : ∀ (v : List E) (a : AStack E Nat), v.foldl AStack.push a = ⟨a.current ++ v, a.archived⟩ := by
      intro v
      induction v with
      | nil => intro a; simp
      | cons x v ih => intro a; simp [ih, AStack.push]
    have h2 := foldlM_push v a
    simp only [Except.bind, listSem, nodeVal, this]
    exact h2.symm
  | dummy => rfl
  | branch => rfl

/-! ### Reading -/

theorem readLinks_view {τ : Mem D X} {h : Option Head} {l : Stack X} (hv : StackView τ h l) : ∀ n, l.length ≤ n → readLinks τ n h = some l := by
  induction hv with
  | nil => intro n _; cases n <;> rfl
  | cons hc _ ih =>
    intro n hn
    simp only [List.length_cons] at hn
    obtain ⟨n, rfl⟩ : ∃ m, n = m + 1 := ⟨n - 1, by omega⟩
    simp only [readLinks, hc, ih n (by omega), Option.map_some]

theorem readArchive_view {τ : Mem D (Nat × List T)} {h : ASt T} {s : AStack T Nat} (hv : AView τ h s) {n : Nat} (hn : s.archived.length ≤ n) :
    readArchive τ n h = some s := by
  obtain ⟨c, a⟩ := s
  simp only [readArchive, readLinks_view hv.2 n hn, Option.map_some, hv.1]

/-! ### Work -/

section
variable [DecidableEq D]
theorem costFrom_le_size (old : List (Name × Option Name × Tree D)) : ∀ (v : Tree D) (c : Option Name), costFrom old c v ≤ v.size := by
  intro v
  induction v with
  | nil => intro c; simp [costFrom, Tree.size]
  | node lv n d l r ihl ihr =>
    intro c
    have := ihl c
    have := ihr n
    simp only [costFrom, Tree.size]
    split <;> split <;> omega

theorem near_costFrom {v w : Tree D} {k : Nat} (h : Near v w k) : ∀ (c : Option Name) (old : List (Name × Option Name × Tree D)),
    (∀ q ∈ pointsFrom c v, q ∈ old) → costFrom old c w ≤ k := by
  have known : ∀ (nm c : Option Name) (old : List (Name × Option Name × Tree D)) (t : Tree D), (∃ m, nm = some m) → (∀ q ∈ pointFrom nm c t, q ∈ old) →
      (if (pointFrom nm c t).any (· ∈ old) then 0 else costFrom old c t) = 0 := by
    rintro nm c old t ⟨m, rfl⟩ h
    cases t with
    | nil => simp [pointFrom, costFrom]
    | node => rw [if_pos]; simpa [pointFrom] using h
  induction h with
  | here v w => intro c old _; exact costFrom_le_size old w c
  | @left lv lv' n d d' l l' r k _ ih =>
    intro c old ho
    have h1 := ih c old (fun q hq => ho q (by simp only [pointsFrom, List.mem_append]; exact .inl (.inr hq)))
    have h2 := known (some (.forkR n)) (some n) old r ⟨_, rfl⟩ (fun q hq => ho q (by simp only [pointsFrom, List.mem_append]; exact .inl (.inl (.inr hq))))
    simp only [costFrom, Option.map_some, h2]
    split <;> omega
  | @right lv lv' n d d' l r r' k _ ih =>
    intro c old ho
    have h1 := ih (some n) old (fun q hq => ho q (by simp only [pointsFrom, List.mem_append]; exact .inr hq))
    have h2 := known (some (.forkL n)) c old l ⟨_, rfl⟩ (fun q hq => ho q (by simp only [pointsFrom, List.mem_append]; exact .inl (.inl (.inl hq))))
    simp only [costFrom, Option.map_some, h2]
    split <;> omega
end

/-! ### Runs -/

section
variable [DecidableEq E] [DecidableEq M] [DecidableEq T] [DecidableEq N] [DecidableEq A]
  {node : AccNode (Cell (TreeData E M) (Nat × List E)) (Cell (TreeData T N) (Nat × List T)) A (TreeData E M)}
  {g : Sem A S (TreeData E M) (TreeData T N) (Nat × List T)}

theorem foldAcc_run (ok : NodeOK node g) (hu : g.uses = nodeUses) {init : A} {x : S} (hi : ∀ τ, g.Rel τ (fun _ => False) init x)
    {s : LSpace E M T N A} (hs : SInv g s) {σ : Mem (TreeData E M) (Nat × List E)} {t : HTree M} {v : Tree (Tr × TreeData E M)} (hv : View σ t.tree v)
    (hn : (nodeNames v).Nodup) (he : EndsInLeaves (plain v)) :
    match foldP g.f (some (.str "start")) x v with
    | .error q => ∀ f, v.size ≤ f → foldAccIn node init t s f σ = .error q
    | .ok y => ∃ a s', (∀ f, v.size ≤ f → foldAccIn node init t s f σ = .ok ((a, s'), σ)) ∧ SInv g s' ∧ ∃ ns, g.Rel s'.mem ns a y := by
  obtain ⟨mt, tr⟩ := t
  simp only at hv
  cases tr with
  | none =>
    cases hv
    exact ⟨init, s, fun f _ => rfl, hs, _, hi _⟩
  | some h =>
    have hud : (used g.uses (some (.str "start")) v).Nodup := by rw [hu]; exact used_nodup _ he hn
    have key := fun n hle => fold_run ok σ [] v n hle h (some (.str "start")) init x (fun _ => False) s hv (memos_nodup hn) hud hs (hi _) (fun _ _ h => h)
    cases hm : foldP g.f (some (.str "start")) x v with
    | error q =>
      rw [hm] at key
      intro f hf
      unfold foldAccIn
      simp only [key f hf]
    | ok y =>
      rw [hm] at key
      obtain ⟨o, h1, pt⟩ := key v.size (Nat.le_refl _)
      refine ⟨o.val, o.space, fun f hf => ?_, pt.inv, ?_⟩
      · unfold foldAccIn
        simp only [amrun_mono hf h1]
      · obtain ⟨y', b1, b2, -⟩ := pt.step o.space.mem (fun _ => False) x pt.inv.fresh pt.facts (hi _) (fun _ _ h => h)
        simp only [hm] at b1
        cases b1
        exact ⟨_, b2⟩

theorem _root_.Iodyn.Incr.Accumulated.inv (ok : NodeOK node g) (hu : g.uses = nodeUses) {init : A} {x : S} (hi : ∀ τ, g.Rel τ (fun _ => False) init x)
    {s : LSpace E M T N A} (hs : Accumulated node init s) : SInv g s := by
  induction hs with
  | start => exact sInv_empty g
  | fold _ hv hn he ho ih =>
    refine (run_part ok [] ih hv (memos_nodup hn) (start := some (.str "start")) ?_ (hi _) (fun _ _ h => h) ho).2.inv
    rw [hu]; exact used_nodup _ he hn

theorem _root_.Iodyn.Incr.AccHistory.accumulated {init : A} {s : LSpace E M T N A} {vs : List (Tree (Tr × TreeData E M))} (hs : AccHistory node init s vs) :
    Accumulated node init s := by
  induction hs with
  | start => exact .start
  | fold _ hv hn hc _ ho ih => exact .fold ih hv hn hc.ends ho
end

/-! ### Computations on variables -/

section
open Iodyn.Heap (Sim RepV RepT HVars Fine vN tN CompAnswers vars_step_sim AllReach lists_step)
variable [RazMeta E M] {Sp : Type}

/-- The computation gives in namespaces of this kind, for trees as clients have them, what it gives from scratch. -/
def Computes (run : HTree M → Sp → Heap.HR E M (B × Sp)) (scratch : RazTree E M → P B) (Inv : Sp → Prop) : Prop :=
  ∀ (σ : Mem (TreeData E M) (Nat × List E)) (ht : HTree M) (t : RazTree E M) (s : Sp), RepT .dcg σ ht.tree t.tree → (tN .dcg t.tree).Nodup →
    t.Reachable .full → Inv s → Sim (run ht s) σ (scratch t) (fun b a σ' => σ' = σ ∧ a.1 = b ∧ Inv a.2)

theorem comp_sim [LawfulMeta E M] {run : HTree M → Sp → Heap.HR E M (B × Sp)} {scratch : RazTree E M → P B} {Inv : Sp → Prop}
    (hc : Computes run scratch Inv) {σ : Mem (TreeData E M) (Nat × List E)} {hvs : HVars E M} {vs : Vars E M} {S : Name → Sp}
    (h : RepV .dcg σ hvs vs) (hS : ∀ p, Inv (S p)) (hr : AllReach vs) (ev : CompEv E (RazMeta.Index E M)) (l : List (CompEv E (RazMeta.Index E M)))
    (hl : ∀ c, ev = .stmt c → c.LevelOK) (hf : Fine .dcg vs (CompEv.stmts (ev :: l))) :
    Sim (HVars.comp run hvs S ev) σ (vs.comp scratch ev) (fun b a σ' => RepV .dcg σ' a.1 b.1 ∧ a.2.2 = b.2 ∧ (∀ p, Inv (a.2.1 p)) ∧
      AllReach b.1 ∧ Fine .dcg b.1 (CompEv.stmts l)) := by
  cases ev with
  | stmt c =>
    unfold HVars.comp Vars.comp
    refine (vars_step_sim h c hf.head).bind ?_
    rintro ⟨vs', o⟩ ⟨hvs', o'⟩ σ' hstep ⟨k1, k2, k3⟩
    simp only at k1 k2 k3; subst k2
    exact Sim.pure ⟨k1, rfl, hS, (lists_step hr (hl c rfl) hstep).2, hf.tail k3⟩
  | run p i =>
    have hf : Fine .dcg vs (CompEv.stmts l) := hf
    unfold HVars.comp Vars.comp
    rcases h.lookup i with ⟨h1, h2⟩ | ⟨h1, h2⟩ | ⟨hs, s, h1, h2, h3, hi, h4⟩ <;> simp only [h1, h2]
    · exact Sim.pure ⟨h, rfl, hS, hr, hf⟩
    · exact Sim.pure ⟨h, rfl, hS, hr, hf⟩
    · cases hs with
      | cursor hz =>
        cases s with
        | cursor z => exact Sim.pure ⟨h, rfl, hS, hr, hf⟩
        | tree t => exact h3.elim
      | tree ht =>
        cases s with
        | cursor z => exact h3.elim
        | tree t =>
          refine (hc σ ht t (S p) (Heap.RepRT.tree h3) ?_ (hr i _ h2) (hS p)).bind ?_
          · have hx : (vN .dcg vs).Nodup := by
              rcases hf with ⟨hf, -⟩ | ⟨-, hf⟩
              · rw [hf]; exact List.nodup_nil
              · exact (List.nodup_append.1 hf).1
            rw [List.nodup_iff_count_le_one] at hx ⊢
            intro x
            refine Nat.le_trans ?_ (hx x)
            have := Heap.vN_get (e := .dcg) vs i hi x
            rw [h4] at this
            exact this
          · rintro b ⟨b', s⟩ σ' - ⟨rfl, rfl, q1⟩
            refine Sim.pure ⟨h, rfl, ?_, hr, hf⟩
            intro q
            by_cases hq : q = p
            · subst hq; simp only [if_true]; exact q1
            · simp only [if_neg hq]; exact hS q

theorem comps_sim [LawfulMeta E M] {run : HTree M → Sp → Heap.HR E M (B × Sp)} {scratch : RazTree E M → P B} {Inv : Sp → Prop}
    (hc : Computes run scratch Inv) : ∀ (l : List (CompEv E (RazMeta.Index E M))) {σ : Mem (TreeData E M) (Nat × List E)} {hvs : HVars E M} {vs : Vars E M} {S : Name → Sp},
    RepV .dcg σ hvs vs → (∀ p, Inv (S p)) → AllReach vs → (∀ c ∈ CompEv.stmts l, c.LevelOK) →
    Fine .dcg vs (CompEv.stmts l) → Sim (HVars.comps run hvs S l) σ (vs.comps scratch l) (fun b a σ' => RepV .dcg σ' a.1 b.1 ∧ a.2.2 = b.2) := by
  intro l
  induction l with
  | nil => intro σ hvs vs S h _ _ _ _; exact Sim.pure ⟨h, rfl⟩
  | cons ev l ih =>
    intro σ hvs vs S h hS hr hl hf
    unfold HVars.comps Vars.comps
    refine (comp_sim hc h hS hr ev l (fun c hc => hl c (by subst hc; exact List.mem_cons_self)) hf).bind ?_
    rintro ⟨vs', o⟩ ⟨hvs', S', o'⟩ σ' - ⟨k1, k2, k3, k4, k5⟩
    simp only at k1 k2 k3 k4 k5; subst k2
    refine (ih k1 k3 k4 (fun c hc => hl c ?_) k5).bind ?_
    · cases ev with
      | stmt => exact List.mem_cons_of_mem _ hc
      | run => exact hc
    · rintro ⟨vs'', os⟩ ⟨hvs'', S'', os'⟩ σ'' - ⟨q1, q2⟩
      simp only at q1 q2; subst q2
      exact Sim.pure ⟨q1, rfl⟩

theorem compAnswers_of_fine [LawfulMeta E M] {run : HTree M → Sp → Heap.HR E M (B × Sp)} {scratch : RazTree E M → P B} {Inv : Sp → Prop} {new : Sp}
    (hc : Computes run scratch Inv) (hnew : Inv new) (l : List (CompEv E (RazMeta.Index E M))) (hl : ∀ c ∈ CompEv.stmts l, c.LevelOK)
    (h : Fine .dcg ([] : Vars E M) (CompEv.stmts l)) : CompAnswers run new l (compAnswers scratch l) := by
  have h1 := comps_sim hc l (σ := Store.empty) (hvs := []) (vs := []) ⟨rfl, fun i h1 _ => by simp at h1⟩ (S := fun _ => new) (fun _ => hnew)
    (fun i s hi => by simp at hi) hl h
  unfold compAnswers
  unfold Sim at h1
  cases hx : Vars.comps (M := M) scratch [] l with
  | error p =>
    rw [hx] at h1
    obtain ⟨f0, hf⟩ := h1
    exact ⟨f0, fun f hle => by rw [hf f hle]; rfl⟩
  | ok b =>
    rw [hx] at h1
    obtain ⟨a, σ', ⟨f0, hf⟩, -, h3⟩ := h1
    exact ⟨f0, fun f hle => by rw [hf f hle]; exact congrArg Except.ok h3⟩

end

/-! ### `to_list` -/

theorem foldP_list [DecidableEq E] [DecidableEq M] (mt : M) (v : Tree (Tr × TreeData E M)) :
    foldP (listSem (E := E) (M := M) (D' := D')).f (some (.str "start")) AStack.new v = .ok (toListScratch ⟨mt, plain v⟩) := by
  rw [foldP_eq, toListScratch_eq]
  rfl

theorem toList_computes [RazMeta E M] [DecidableEq E] [DecidableEq M] :
    Computes (E := E) (M := M) toListRun (fun t => .ok (some (toListScratch t))) (SInv listSem) := by
  intro σ ht t s hr hn hre hs
  obtain ⟨v, hv, hv1, hv2⟩ := view_exists hr
  have hnd : (nodeNames v).Nodup := by
    rw [hv2, List.nodup_iff_count_le_one]
    intro x
    rw [names_count]
    exact List.nodup_iff_count_le_one.1 hn x
  have he : EndsInLeaves (plain v) := by rw [hv1]; exact wfo_ends (Reach.t hre).inv.wf
  have key := foldAcc_run (list_ok (E := E) (M := M) (X := Nat × List E) (D' := TreeData E Count)) rfl (init := ASt.new) (x := AStack.new) (fun τ => ARel.new τ _) hs hv hnd he
  rw [foldP_list t.info v] at key
  obtain ⟨a, s', h1, h2, ns, h3⟩ := key
  have h3 : ARel s'.mem ns a (toListScratch ⟨t.info, plain v⟩) := h3
  rw [hv1] at h3
  have h3 : ARel s'.mem ns a (toListScratch t) := h3
  refine ⟨(some (toListScratch t), s'), σ, ⟨max v.size (toListScratch t).archived.length, fun f hf => ?_⟩, rfl, rfl, h2⟩
  unfold toListRun
  rw [h1 f (by omega)]
  simp only [readArchive_view h3.view.1 (n := f) (by omega)]

/-! ### The adder -/

open Eval.Adder (Token)
open Iodyn.Heap (Sim)

structure AdderInv (S : AdderSpaces) : Prop where
  tokenize : SInv tokSem S.tokenize
  toTree : FInv S.toTree
  parse : SInv parseSem S.parse

theorem adderScratch_eq (mt : Count) (v : Tree (Tr × TreeData Char Count)) : adderScratch ⟨mt, plain v⟩ =
    (foldP (tokSem (M := Count) (D' := Unit)).f (some (.str "start")) (AStack.new, none) v >>= fun st =>
      (End.conv .tail (Eval.Adder.tokenizeFinal (Eval.Adder.stackAccum Token) st) : P (RazTree Token Count)) >>= fun b =>
      b.tree.foldLrMeta (fun a d l n => a.bind fun x => (parseSem (M := Count) (D' := Unit)).f x d l n) (some (.str "start")) (.ok AStack.new)) := by
  rw [foldP_eq]
  have h1 := foldLrMeta_lift (Eval.Adder.tokenizeStep (Eval.Adder.stackAccum Token)) (Eval.Adder.tokenizeMeta (Eval.Adder.stackAccum Token))
    (⟨mt, plain v⟩ : RazTree Char Count) (AStack.new, none)
  have h2 := fun b : RazTree Token Count => foldLrMeta_lift (Eval.Adder.parseStep (Eval.Adder.stackAccum Nat)) (Eval.Adder.parseMeta (Eval.Adder.stackAccum Nat))
    b AStack.new
  unfold adderScratch Eval.Adder.inc
  refine Eq.trans (b := (RazTree.foldLrMeta (.ok (AStack.new, none)) (Eval.Adder.lift (Eval.Adder.tokenizeStep (Eval.Adder.stackAccum Token)))
    (fun a m => a.map fun s => Eval.Adder.tokenizeMeta (Eval.Adder.stackAccum Token) s m) (⟨mt, plain v⟩ : RazTree Char Count) >>= fun st =>
      (End.conv .tail (Eval.Adder.tokenizeFinal (Eval.Adder.stackAccum Token) st) : P (RazTree Token Count)) >>= fun b =>
      b.foldLrMeta (.ok AStack.new) (Eval.Adder.lift (Eval.Adder.parseStep (Eval.Adder.stackAccum Nat)))
        (fun a m => a.map fun s => Eval.Adder.parseMeta (Eval.Adder.stackAccum Nat) s m))) ?_ ?_
  · simp only [Eval.EvalRaz.compFoldMeta, Eval.EvalRaz.incFromTail, unwrap, bind, Except.bind, pure, Except.pure, End.conv]
    cases h : RazTree.foldLrMeta (.ok (AStack.new, none)) (Eval.Adder.lift (Eval.Adder.tokenizeStep (Eval.Adder.stackAccum Token)))
      (fun a m => a.map fun s => Eval.Adder.tokenizeMeta (Eval.Adder.stackAccum Token) s m) (⟨mt, plain v⟩ : RazTree Char Count) with
    | error q =>
      have h' : RazTree.foldLrMeta (.ok ((Eval.Adder.stackAccum Token).new, none)) (Eval.Adder.lift (Eval.Adder.tokenizeStep (Eval.Adder.stackAccum Token)))
        (fun a m => a.map fun s => Eval.Adder.tokenizeMeta (Eval.Adder.stackAccum Token) s m) (⟨mt, plain v⟩ : RazTree Char Count) = _ := h
      rw [h']
    | ok st =>
      have h' : RazTree.foldLrMeta (.ok ((Eval.Adder.stackAccum Token).new, none)) (Eval.Adder.lift (Eval.Adder.tokenizeStep (Eval.Adder.stackAccum Token)))
        (fun a m => a.map fun s => Eval.Adder.tokenizeMeta (Eval.Adder.stackAccum Token) s m) (⟨mt, plain v⟩ : RazTree Char Count) = _ := h
      rw [h']
      simp only
      cases memoFromTail (M := Count) (Eval.Adder.tokenizeFinal (Eval.Adder.stackAccum Token) st) <;> rfl
  · rw [h1]
    simp only [h2]
    rfl

theorem adder_run {S : AdderSpaces} (hS : AdderInv S) {σ : Mem (TreeData Char Count) (Nat × List Char)} {t : HTree Count}
    {v : Tree (Tr × TreeData Char Count)} (hv : View σ t.tree v) (hn : (nodeNames v).Nodup) (he : EndsInLeaves (plain v)) (mt : Count) :
    Sim (adderIn t S) σ (adderScratch ⟨mt, plain v⟩) (fun y a σ' => σ' = σ ∧ AdderInv a.2 ∧ AView a.2.parse.mem a.1 y) := by
  rw [adderScratch_eq]
  have key := foldAcc_run (tok_ok (M := Count) (X := Nat × List Char) (D' := TreeData Token Count)) rfl (init := (ASt.new, none)) (x := (AStack.new, none))
    (fun τ => ⟨ARel.new τ _, rfl⟩) hS.tokenize hv hn he
  have e0 : ∀ (c : Option Name) (x : AStack Token Nat × Option Nat), foldP (tokSem (M := Count) (D' := TreeData Token Count)).f c x v =
    foldP (tokSem (M := Count) (D' := Unit)).f c x v := fun _ _ => rfl
  rw [e0] at key
  cases h1 : foldP (tokSem (M := Count) (D' := Unit)).f (some (.str "start")) (AStack.new, none) v with
  | error q =>
    rw [h1] at key
    refine ⟨v.size, fun f hf => ?_⟩
    unfold adderIn
    rw [key f hf]
  | ok st =>
    rw [h1] at key
    obtain ⟨⟨hst, ho⟩, s1, k1, k2, ns, k3, k4⟩ := key
    simp only at k3 k4
    subst k4
    have hrel : ARel s1.mem ns (tokFinal (hst, st.2)) (Eval.Adder.tokenizeFinal (Eval.Adder.stackAccum Token) st) := by
      obtain ⟨st, o⟩ := st
      cases o with
      | none => exact k3
      | some num => exact k3.push _
    show Sim _ _ ((End.conv .tail (Eval.Adder.tokenizeFinal (Eval.Adder.stackAccum Token) st) : P (RazTree Token Count)) >>= _) _
    generalize Eval.Adder.tokenizeFinal (Eval.Adder.stackAccum Token) st = ts at hrel ⊢
    have m1 := memoFromIn_run hS.toTree .tail hrel.view.1 hrel.view.2.1
    cases h2 : (End.conv .tail ts : P (RazTree Token Count)) with
    | error q =>
      rw [h2] at m1
      refine ⟨max v.size (ts.archived.length + 1), fun f hf => ?_⟩
      unfold adderIn
      rw [k1 f (by omega)]
      simp only
      rw [m1 f (by omega)]
    | ok b =>
      rw [h2] at m1
      obtain ⟨h, sp', m1, m2, w, m3, m4⟩ := m1
      have hwn : (nodeNames w).Nodup := by rw [← nodeNames_plain, m4]; exact conv_names h2 hrel.view.2.1
      have hwe : EndsInLeaves (plain w) := by rw [m4]; exact conv_ends h2
      have key2 := foldAcc_run (parse_ok (M := Count) (X := Nat × List Token) (D' := TreeData Nat Count)) rfl (init := ASt.new) (x := AStack.new)
        (fun τ => ARel.new τ _) hS.parse (t := ⟨b.info, h⟩) m3 hwn hwe
      rw [foldP_eq, m4] at key2
      have e1 : (fun (a : P (AStack Nat Nat)) d l n => a.bind fun x => (parseSem (M := Count) (D' := TreeData Nat Count)).f x d l n) =
        (fun a d l n => a.bind fun x => (parseSem (M := Count) (D' := Unit)).f x d l n) := rfl
      rw [e1] at key2
      show Sim _ _ (b.tree.foldLrMeta (fun a d l n => a.bind fun x => (parseSem (M := Count) (D' := Unit)).f x d l n) (some (.str "start")) (.ok AStack.new)) _
      cases h3 : b.tree.foldLrMeta (fun (a : P (AStack Nat Nat)) d l n => a.bind fun x => (parseSem (M := Count) (D' := Unit)).f x d l n) (some (.str "start")) (.ok AStack.new) with
      | error q =>
        rw [h3] at key2
        refine ⟨max (max v.size (ts.archived.length + 1)) w.size, fun f hf => ?_⟩
        unfold adderIn
        rw [k1 f (by omega)]
        simp only
        rw [m1 f (by omega)]
        simp only
        rw [key2 f (by omega)]
      | ok y =>
        rw [h3] at key2
        obtain ⟨a, s2, n1, n2, ns2, n3⟩ := key2
        refine ⟨(a, ⟨s1, sp', s2⟩), σ, ⟨max (max v.size (ts.archived.length + 1)) w.size, fun f hf => ?_⟩, rfl, ⟨k2, m2, n2⟩, (ARel.view n3).1⟩
        unfold adderIn
        rw [k1 f (by omega)]
        simp only
        rw [m1 f (by omega)]
        simp only
        rw [n1 f (by omega)]

theorem adder_computes : Computes adderRun (fun t => (adderScratch t).map some) AdderInv := by
  intro σ ht t S hr hn hre hS
  obtain ⟨v, hv, hv1, hv2⟩ := view_exists hr
  have hnd : (nodeNames v).Nodup := by
    rw [hv2, List.nodup_iff_count_le_one]
    intro x
    rw [names_count]
    exact List.nodup_iff_count_le_one.1 hn x
  have he : EndsInLeaves (plain v) := by rw [hv1]; exact wfo_ends (Reach.t hre).inv.wf
  have key := adder_run hS hv hnd he t.info
  rw [hv1] at key
  have key : Sim (adderIn ht S) σ (adderScratch t) _ := key
  show Sim (adderRun ht S) σ ((adderScratch t).map some) _
  cases h1 : adderScratch t with
  | error q =>
    rw [h1] at key
    obtain ⟨f0, k⟩ := key
    refine ⟨f0, fun f hf => ?_⟩
    unfold adderRun
    rw [k f hf]
  | ok y =>
    rw [h1] at key
    obtain ⟨⟨a, S'⟩, σ', ⟨f0, k⟩, rfl, k2, k3⟩ := key
    refine ⟨(some y, S'), σ', ⟨max f0 y.archived.length, fun f hf => ?_⟩, rfl, rfl, k2⟩
    unfold adderRun
    rw [k f (by omega)]
    simp only [readArchive_view k3 (n := f) (by omega)]

end Iodyn.Incr.Lr
