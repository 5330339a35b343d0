import Verif.Proof.OpenTok
import Verif.Props.ListCost
import Verif.Props.UniqueWork
/-
C100 the work of `tokenize` (eval/examples/adder.rs:161-185) after edits.
-/
namespace Iodyn.Incr
open Iodyn.Heap
open Eval.Adder (Token)
variable {D O : Type}

/-! ### What is carried -/

theorem openAfter_end : ∀ (text : List Char), (∃ c ∈ text, digitOf c = none) → ∀ o o', openAfter o text = openAfter o' text := by
  intro text
  induction text with
  | nil => rintro ⟨c, hc, -⟩; cases hc
  | cons c text ih =>
    rintro ⟨c', hc', hd⟩ o o'
    rcases List.mem_cons.1 hc' with rfl | hc'
    · have : ∀ o, openStep o c' = none := fun o => by simp only [openStep, hd]
      simp only [openAfter, List.foldl_cons, this]
    · exact ih ⟨c', hc', hd⟩ _ _

/-- Past a text in which numbers end, what was open before it does not matter. -/
theorem carried_same {M : Type} : ∀ {v : Tree (Tr × TreeData Char M)}, v ≠ .nil → Separated (plain v) → ∀ o o', carried openAt o v = carried openAt o' v := by
  intro v
  induction v with
  | nil => intro h; exact absurd rfl h
  | node lv n d l r ihl ihr =>
    intro _ hs o o'
    obtain ⟨t, d⟩ := d
    simp only [plain, Separated] at hs
    simp only [carried]
    cases l with
    | nil =>
      cases r with
      | nil =>
        obtain ⟨text, h1, h2⟩ := hs.1 rfl rfl
        simp only [Tree.isSome, Bool.or_self, Bool.false_eq_true, if_false, h1, openAt, openNode]
        exact openAfter_end text h2 o o'
      | node =>
        simp only [Tree.isSome, Bool.or_true, if_true]
        exact ihr (fun h => by cases h) hs.2.2 _ _
    | node =>
      simp only [Tree.isSome, Bool.true_or, if_true]
      rw [ihl (fun h => by cases h) hs.2.1 o o']

theorem costWith_le_size [DecidableEq D] [DecidableEq O] (adv : D → O → O) (old : List (Name × (Option Name × O) × Tree D)) :
    ∀ (v : Tree D) (c : Option Name × O), costWith adv old c v ≤ v.size := by
  intro v
  induction v with
  | nil => intro c; exact Nat.le_refl _
  | node lv n d l r ihl ihr =>
    intro c
    have h1 := ihl c
    have h2 := ihr (n, carried adv c.2 l)
    simp only [costWith, Tree.size]
    split <;> split <;> omega

theorem costWith_known [DecidableEq D] [DecidableEq O] {adv : D → O → O} {old : List (Name × (Option Name × O) × Tree D)} {m : Name}
    {c : Option Name × O} {t : Tree D} (h : ∀ q ∈ pointWith (some m) c t, q ∈ old) :
    (if (pointWith (some m) c t).any (· ∈ old) then 0 else costWith adv old c t) = 0 := by
  cases t with
  | nil => simp [pointWith, costWith]
  | node => rw [if_pos]; simpa [pointWith] using h

theorem swapped_cost [DecidableEq D] [DecidableEq O] {adv : D → O → O} {v w : Tree D} {o : O} {k : Nat} (h : Swapped adv o v w k) :
    carried adv o v = carried adv o w ∧ ∀ (c : Option Name) (old : List (Name × (Option Name × O) × Tree D)),
    (∀ q ∈ pointsWith adv (c, o) v, q ∈ old) → costWith adv old (c, o) w ≤ k := by
  induction h with
  | here h => exact ⟨h, fun c old _ => costWith_le_size adv old _ _⟩
  | @left o lv lv' n d d' l l' r k hr h ih =>
    have hs : r.isSome = true := by cases r with | nil => exact absurd rfl hr | node => rfl
    refine ⟨by simp only [carried, hs, Bool.or_true, if_true, ih.1], fun c old ho => ?_⟩
    have h1 := ih.2 c old (fun q hq => ho q (by simp only [pointsWith, List.mem_append]; exact .inl (.inr hq)))
    have h2 := costWith_known (adv := adv) (old := old) (m := .forkR n) (c := (some n, carried adv o l)) (t := r)
      (fun q hq => ho q (by simp only [pointsWith, List.mem_append]; exact .inl (.inl (.inr hq))))
    simp only [costWith, Option.map_some, ← ih.1, h2]
    split <;> omega
  | @right o lv lv' n d d' l r r' k hl h ih =>
    have hs : l.isSome = true := by cases l with | nil => exact absurd rfl hl | node => rfl
    refine ⟨by simp only [carried, hs, Bool.true_or, if_true, ih.1], fun c old ho => ?_⟩
    have h1 := ih.2 (some n) old (fun q hq => ho q (by simp only [pointsWith, List.mem_append]; exact .inr hq))
    have h2 := costWith_known (adv := adv) (old := old) (m := .forkL n) (c := (c, o)) (t := l)
      (fun q hq => ho q (by simp only [pointsWith, List.mem_append]; exact .inl (.inl (.inl hq))))
    simp only [costWith, Option.map_some, h2]
    split <;> omega

section
variable {M : Type} [DecidableEq M]

/-- A tree that is known with something else carried to it: only the way to its first leaf is visited. -/
theorem enter_cost {old : List (Name × (Option Name × Option Nat) × Tree (Tr × TreeData Char M))} : ∀ {v : Tree (Tr × TreeData Char M)} {c : Option Name}
    {o : Option Nat} (o' : Option Nat), Chunked (plain v) → Separated (plain v) → (∀ q ∈ pointsWith openAt (c, o) v, q ∈ old) →
    costWith openAt old (c, o') v ≤ depthOf v := by
  intro v
  induction v with
  | nil => intro c o o' h; exact h.elim
  | node lv n d l r ihl ihr =>
    intro c o o' hc hs ho
    obtain ⟨t, d⟩ := d
    have hc : Chunked (.node lv n d (plain l) (plain r)) := hc
    have hs : Separated (.node lv n d (plain l) (plain r)) := hs
    rcases hc with ⟨h1, h2, -⟩ | ⟨hl, hr, hd, m, rfl, hm⟩
    · rw [Lr.plain_nil] at h1 h2
      subst h1; subst h2
      cases n <;> simp [costWith, pointWith, depthOf]
    · have hne : l ≠ .nil := by rintro rfl; exact hl
      have h1 := ihl o' hl hs.2.1 (fun q hq => ho q (by simp only [pointsWith, List.mem_append]; exact .inl (.inr hq)))
      have h2 := costWith_known (adv := openAt) (old := old) (m := .forkR m) (c := (some m, carried openAt o l)) (t := r)
        (fun q hq => ho q (by simp only [pointsWith, List.mem_append]; exact .inl (.inl (.inr hq))))
      simp only [costWith, Option.map_some, carried_same hne hs.2.1 o' o, h2, depthOf]
      split <;> omega

/-- Another subtree: the nodes above it and in it, and the way to the leaf after it. -/
theorem near_costWith {v w : Tree (Tr × TreeData Char M)} {k : Nat} (h : Near v w k) : ∀ (c : Option Name) (o : Option Nat)
    (old : List (Name × (Option Name × Option Nat) × Tree (Tr × TreeData Char M))), Chunked (plain v) → Separated (plain v) → Chunked (plain w) →
    (∀ q ∈ pointsWith openAt (c, o) v, q ∈ old) → costWith openAt old (c, o) w ≤ k ∨
      (carried openAt o v = carried openAt o w ∧ costWith openAt old (c, o) w ≤ k + depthOf w) := by
  induction h with
  | here v w => intro c o old _ _ _ _; exact .inl (costWith_le_size openAt old _ _)
  | @left lv lv' n d d' l l' r k h ih =>
    intro c o old hc hs hc' ho
    obtain ⟨t, d⟩ := d
    obtain ⟨t', d'⟩ := d'
    have hc : Chunked (.node lv (some n) d (plain l) (plain r)) := hc
    have hc' : Chunked (.node lv' (some n) d' (plain l') (plain r)) := hc'
    have hs : Separated (.node lv (some n) d (plain l) (plain r)) := hs
    rcases hc' with ⟨h1, h2, -⟩ | ⟨hl', hr', -⟩
    · rw [Lr.plain_nil] at h1 h2
      subst h1; subst h2
      left
      simp [costWith, pointWith]
    · rcases hc with ⟨h1, h2, -⟩ | ⟨hl, hr, -⟩
      · rw [h2] at hr'; exact hr'.elim
      · have hs1 : r.isSome = true := by cases r with | nil => exact hr.elim | node => rfl
        have hne : r ≠ .nil := by rintro rfl; exact hr
        have kr : ∀ q ∈ pointWith (some (.forkR n)) (some n, carried openAt o l) r, q ∈ old :=
          fun q hq => ho q (by simp only [pointsWith, List.mem_append]; exact .inl (.inl (.inr hq)))
        rcases ih c o old hl hs.2.1 hl' (fun q hq => ho q (by simp only [pointsWith, List.mem_append]; exact .inl (.inr hq))) with h1 | ⟨h0, h1⟩
        · have h2 := enter_cost (c := some n) (o := carried openAt o l) (carried openAt o l') hr hs.2.2
            (fun q hq => ho q (by simp only [pointsWith, List.mem_append]; exact .inr hq))
          right
          refine ⟨?_, ?_⟩
          · simp only [carried, hs1, Bool.or_true, if_true]
            exact carried_same hne hs.2.2 _ _
          · simp only [costWith, Option.map_some, depthOf]
            split <;> split <;> omega
        · right
          refine ⟨by simp only [carried, hs1, Bool.or_true, if_true, h0], ?_⟩
          have h2 := costWith_known (adv := openAt) kr
          simp only [costWith, Option.map_some, ← h0, h2, depthOf]
          split <;> omega
  | @right lv lv' n d d' l r r' k h ih =>
    intro c o old hc hs hc' ho
    obtain ⟨t, d⟩ := d
    obtain ⟨t', d'⟩ := d'
    have hc : Chunked (.node lv (some n) d (plain l) (plain r)) := hc
    have hc' : Chunked (.node lv' (some n) d' (plain l) (plain r')) := hc'
    have hs : Separated (.node lv (some n) d (plain l) (plain r)) := hs
    rcases hc' with ⟨h1, h2, -⟩ | ⟨hl', hr', -⟩
    · rw [Lr.plain_nil] at h1 h2
      subst h1; subst h2
      left
      simp [costWith, pointWith]
    · rcases hc with ⟨h1, h2, -⟩ | ⟨hl, hr, -⟩
      · rw [h1] at hl'; exact hl'.elim
      · have hs1 : l.isSome = true := by cases l with | nil => exact hl.elim | node => rfl
        have kl : ∀ q ∈ pointWith (some (.forkL n)) (c, o) l, q ∈ old :=
          fun q hq => ho q (by simp only [pointsWith, List.mem_append]; exact .inl (.inl (.inl hq)))
        have h2 := costWith_known (adv := openAt) kl
        rcases ih (some n) (carried openAt o l) old hr hs.2.2 hr' (fun q hq => ho q (by simp only [pointsWith, List.mem_append]; exact .inr hq)) with h1 | ⟨h0, h1⟩
        · left
          simp only [costWith, Option.map_some, h2]
          split <;> omega
        · right
          refine ⟨by simp only [carried, hs1, Bool.true_or, if_true, h0], ?_⟩
          simp only [costWith, Option.map_some, h2, depthOf]
          split <;> omega

/-! ### C100 -/

omit [DecidableEq M] in
theorem carried_plain : ∀ {v : Tree (Tr × TreeData Char M)} {o : Option Nat}, carried openNode o (plain v) = carried openAt o v := by
  intro v
  induction v with
  | nil => intro o; rfl
  | node lv n d l r ihl ihr =>
    intro o
    obtain ⟨t, d⟩ := d
    have h : ∀ w : Tree (Tr × TreeData Char M), (plain w).isSome = w.isSome := fun w => by cases w <;> rfl
    simp only [plain, carried, h, ihl, ihr, openAt]

omit [DecidableEq M] in
theorem Chunked.open : ∀ {v : Tree (Tr × TreeData Char M)} {o : Option Nat}, Chunked (plain v) → Speaking o (plain v) → Op.Full Op.tokCarry o v := by
  intro v
  induction v with
  | nil => intro o h; exact h.elim
  | node lv n d l r ihl ihr =>
    intro o hc hs
    obtain ⟨t, d⟩ := d
    have hc : Chunked (.node lv n d (plain l) (plain r)) := hc
    have hs : Speaking o (.node lv n d (plain l) (plain r)) := hs
    rcases hc with ⟨h1, h2, -⟩ | ⟨hl, hr, hd, m, rfl, hm⟩
    · have := hs.1 h1 h2
      rw [Lr.plain_nil] at h1 h2
      subst h1; subst h2
      exact .inl ⟨rfl, rfl, this⟩
    · refine .inr ⟨ihl hl hs.2.1, ?_, m, rfl, hd, hm⟩
      have := ihr hr hs.2.2
      rw [carried_plain] at this
      exact this

omit [DecidableEq M] in
/-- Where all leaves have a sign `+`, something becomes complete in each of them and numbers end in each of them. -/
theorem plus_speaking : ∀ {v : Tree (TreeData Char M)}, (∀ lv n text, .node lv n (.leaf text) .nil .nil ∈ subs v → '+' ∈ text) →
    EndsInLeaves v → Separated v ∧ ∀ o, Speaking o v := by
  have hsp : ∀ (text : List Char), '+' ∈ text → ∀ o, Speaks o text := by
    intro text
    induction text with
    | nil => intro h; cases h
    | cons c text ih =>
      intro h o
      rcases List.mem_cons.1 h with rfl | h
      · exact .inl (.inl rfl)
      · exact .inr (ih h _)
  intro v
  induction v with
  | nil => intro _ _; exact ⟨trivial, fun _ => trivial⟩
  | node lv n d l r ihl ihr =>
    intro h he
    have h1 := ihl (fun lv n text hm => h lv n text (by simp only [subs, List.mem_cons, List.mem_append]; tauto)) he.2.1
    have h2 := ihr (fun lv n text hm => h lv n text (by simp only [subs, List.mem_cons, List.mem_append]; tauto)) he.2.2
    have h3 : l = .nil → r = .nil → ∃ text, d = .leaf text ∧ '+' ∈ text := by
      rintro rfl rfl
      obtain ⟨text, rfl⟩ := he.1 rfl rfl
      exact ⟨text, rfl, h lv n text (by simp [subs])⟩
    refine ⟨⟨fun a b => ?_, h1.1, h2.1⟩, fun o => ⟨fun a b => ?_, h1.2 _, h2.2 _⟩⟩
    · obtain ⟨text, e, h⟩ := h3 a b
      exact ⟨text, e, '+', h, by decide⟩
    · obtain ⟨text, e, h⟩ := h3 a b
      exact ⟨text, e, hsp text h o⟩

/-- What is stored after runs of `tokenize`. -/
theorem AccHistory.tokens {s : LSpace Char M Token Count (ASt Token × Option Nat)} {vs : List (Tree (Tr × TreeData Char M))}
    (hs : AccHistory tokNode (ASt.new, none) s vs) (hp : ∀ v ∈ vs, Speaking none (plain v)) :
    Op.Kept Lr.tokSem Op.tokCarry (some (.str "start"), none) s vs := by
  induction hs with
  | start => exact ⟨Op.sInv_empty _ _, (fun _ _ h => by cases h), (fun _ _ h => by cases h)⟩
  | @fold s vs σ h v n o _ hv hn hc hr ho ih =>
    exact Op.Kept.next (x := (AStack.new, none)) (ns := fun _ => False) Lr.tok_ok Op.tok_can Op.tok_inj (ih fun v h => hp v (List.mem_cons_of_mem _ h)) hv
      (memos_nodup hn) (Lr.used_nodup _ hc.ends hn) ⟨Lr.ARel.new _ _, rfl⟩ (fun _ _ h => h) (hc.open (hp v List.mem_cons_self)) hr ho

/-- **C100.** In a session of any number of runs of `tokenize` in a namespace, between which the text and the store change in any way, every
run either panics or visits only the nodes that are not below a branch that the run before has seen unchanged, with the same open number
before it: what comes after an edit is not visited, although the open number is part of the accumulator. Conditions: all archive points
have names, something becomes complete in each leaf, and names that had left the sequence did not come back. -/
theorem C100_session {s : LSpace Char M Token Count (ASt Token × Option Nat)} {v : Tree (Tr × TreeData Char M)} {vs : List (Tree (Tr × TreeData Char M))}
    (hs : AccHistory tokNode (ASt.new, none) s (v :: vs)) (hp : ∀ u ∈ v :: vs, Speaking none (plain u)) {σ : RMem Char M} {h : Tr}
    {v' : Tree (Tr × TreeData Char M)} (hv : View σ (some h) v') (hn : (nodeNames v').Nodup) (hc : Chunked (plain v')) (hp' : Speaking none (plain v')) :
    (∃ q, ∀ n, v'.size ≤ n → amrun (lrAccBody tokNode) σ n ⟨h, some (.str "start"), (ASt.new, none)⟩ s = some (.error q)) ∨
    ∃ o, (∀ n, v'.size ≤ n → amrun (lrAccBody tokNode) σ n ⟨h, some (.str "start"), (ASt.new, none)⟩ s = some (.ok o)) ∧
      o.work ≤ costWith openAt (pointsWith openAt (some (.str "start"), none) v) (some (.str "start"), none) v' := by
  have hk := hs.tokens hp
  have key : ∀ n, v'.size ≤ n → _ := fun n hn' => Op.fold_run (Lr.tok_ok (M := M) (X := Nat × List Char) (D' := TreeData Token Count)) Op.tok_can σ
    (pointsWith openAt (some (.str "start"), none) v) v' n hn' h (some (.str "start"))
    (ASt.new, none) (AStack.new, none) (fun _ => False) s hv (memos_nodup hn) (Lr.used_nodup _ hc.ends hn) hk.inv ⟨Lr.ARel.new _ _, rfl⟩ (fun _ _ h => h)
  cases hf : Lr.foldP (Lr.tokSem (M := M) (D' := TreeData Token Count)).f (some (.str "start")) (AStack.new, none) v' with
  | error q =>
    left
    refine ⟨q, fun n hn' => ?_⟩
    have := key n hn'
    rw [hf] at this
    exact this
  | ok y =>
    right
    have := key v'.size (Nat.le_refl _)
    rw [hf] at this
    obtain ⟨o, h1, p⟩ := this
    refine ⟨o, fun n hn' => amrun_mono hn' h1, p.work none (hc.open hp') rfl ?_⟩
    intro q _ hq
    obtain ⟨fs, hfs, hst⟩ := hk.last v vs rfl
    obtain ⟨e, e1, e2, e3, -⟩ := hst q hq
    exact ⟨e, e1, e2, fun x hx => hfs x (e3 hx)⟩

/-- **C100, an edit.** After replacing one subtree of the text, wherever it is, `tokenize` visits the nodes above it and in it (`k`), and at
most the way to the leaf after it: if a number ends in each leaf, then what was open before that leaf does not matter to the leaves that
follow. If the same number is open after the new subtree, not even that. -/
theorem C100_edit {s : LSpace Char M Token Count (ASt Token × Option Nat)} {v : Tree (Tr × TreeData Char M)} {vs : List (Tree (Tr × TreeData Char M))}
    (hs : AccHistory tokNode (ASt.new, none) s (v :: vs)) (hp : ∀ u ∈ v :: vs, Speaking none (plain u)) {σ : RMem Char M} {h : Tr}
    {v' : Tree (Tr × TreeData Char M)} (hv : View σ (some h) v') (hn : (nodeNames v').Nodup) (hc : Chunked (plain v')) (hp' : Speaking none (plain v')) {n : Nat}
    {o : AOut (Cell (TreeData Char M) (Nat × List Char)) (Cell (TreeData Token Count) (Nat × List Token)) (LrKey (ASt Token × Option Nat))
      (ASt Token × Option Nat) (ASt Token × Option Nat)}
    (ho : amrun (lrAccBody tokNode) σ n ⟨h, some (.str "start"), (ASt.new, none)⟩ s = some (.ok o)) {k : Nat} :
    (Near v v' k → Separated (plain v) → o.work ≤ k + depthOf v') ∧ (Swapped openAt none v v' k → o.work ≤ k) := by
  have hcv : Chunked (plain v) := by cases hs; assumption
  have hw : o.work ≤ costWith openAt (pointsWith openAt (some (.str "start"), none) v) (some (.str "start"), none) v' := by
    have h2 := amrun_mono (Nat.le_max_left n v'.size) ho
    rcases C100_session hs hp hv hn hc hp' with ⟨q, h1⟩ | ⟨o', h1, hw⟩
    · rw [h1 _ (Nat.le_max_right _ _)] at h2; cases h2
    · rw [h1 _ (Nat.le_max_right _ _)] at h2; cases h2; exact hw
  refine ⟨fun hk hse => ?_, fun hk => Nat.le_trans hw ((swapped_cost hk).2 _ _ fun _ h => h)⟩
  rcases near_costWith hk (some (.str "start")) none _ hcv hse hc (fun _ h => h) with h1 | ⟨-, h1⟩
  · omega
  · omega

end
variable {D O : Type}

/-! ### Cases -/

/-- The nodes of the second tree above the place where it differs from the first and below it. -/
def place [DecidableEq D] : Tree D → Tree D → Nat
  | .node _ (some n) _ l r, .node lv (some n') d l' r' =>
    if n = n' ∧ r = r' then place l l' + 1 else if n = n' ∧ l = l' then place r r' + 1 else (Tree.node lv (some n') d l' r').size
  | _, w => w.size

theorem place_near [DecidableEq D] : ∀ (v w : Tree D), Near v w (place v w)
  | .nil, w => by cases w <;> exact .here _ _
  | .node lv none d l r, w => by cases w <;> exact .here _ _
  | .node lv (some n) d l r, .nil => .here _ _
  | .node lv (some n) d l r, .node lv' none d' l' r' => .here _ _
  | .node lv (some n) d l r, .node lv' (some n') d' l' r' => by
    unfold place
    split
    · next h => obtain ⟨rfl, rfl⟩ := h; exact .left (place_near l l')
    · split
      · next h => obtain ⟨rfl, rfl⟩ := h; exact .right (place_near r r')
      · exact .here _ _

/-- As `place`, if the same is carried past the place. -/
def placeWith [DecidableEq D] [DecidableEq O] (adv : D → O → O) : O → Tree D → Tree D → Option Nat
  | o, .node lv (some n) d l r, .node lv' (some n') d' l' r' =>
    if n = n' ∧ r = r' ∧ r ≠ .nil then (placeWith adv o l l').map (· + 1)
    else if n = n' ∧ l = l' ∧ l ≠ .nil then (placeWith adv (carried adv o l) r r').map (· + 1)
    else if carried adv o (.node lv (some n) d l r) = carried adv o (.node lv' (some n') d' l' r') then some (Tree.node lv' (some n') d' l' r').size else none
  | o, v, w => if carried adv o v = carried adv o w then some w.size else none

theorem placeWith_swapped [DecidableEq D] [DecidableEq O] {adv : D → O → O} : ∀ {o : O} {v w : Tree D} {k : Nat}, placeWith adv o v w = some k → Swapped adv o v w k := by
  intro o v
  have base : ∀ {o : O} {v w : Tree D} {k : Nat}, (if carried adv o v = carried adv o w then some w.size else none) = some k → Swapped adv o v w k := by
    intro o v w k h
    split at h
    · next he => cases h; exact .here he
    · cases h
  induction v generalizing o with
  | nil => intro w k h; exact base (by cases w <;> exact h)
  | node lv n d l r ihl ihr =>
    intro w k h
    cases w with
    | nil => cases n <;> exact base h
    | node lv' n' d' l' r' =>
      cases n with
      | none => exact base h
      | some n =>
        cases n' with
        | none => exact base h
        | some n' =>
          unfold placeWith at h
          split at h
          · next he =>
            obtain ⟨rfl, rfl, hr⟩ := he
            obtain ⟨j, h1, rfl⟩ := Option.map_eq_some_iff.1 h
            exact .left hr (ihl h1)
          · split at h
            · next he =>
              obtain ⟨rfl, rfl, hl⟩ := he
              obtain ⟨j, h1, rfl⟩ := Option.map_eq_some_iff.1 h
              exact .right hl (ihr h1)
            · exact base h

/-- Whether all leaves have a `+`. -/
def plusB {M : Type} : Tree (TreeData Char M) → Bool
  | .nil => true
  | .node _ _ d l r => (match d with | .leaf text => decide ('+' ∈ text) | _ => true) && plusB l && plusB r

theorem plusB_ok {M : Type} {lv : Nat} {n : Option Name} {text : List Char} : ∀ {v : Tree (TreeData Char M)}, plusB v = true →
    .node lv n (.leaf text) .nil .nil ∈ subs v → '+' ∈ text
  | .nil, _, h => by simp [subs] at h
  | .node _ _ d l r, hv, h => by
    simp only [plusB, Bool.and_eq_true] at hv
    simp only [subs, List.mem_cons, List.mem_append] at h
    rcases h with h | h | h
    · cases h; simpa using hv.1.1
    · exact plusB_ok hv.1.2 h
    · exact plusB_ok hv.2 h

/-- 1+ | 2+ | … | 8+ -/
def exPlus : List (Cmd Char (RazMeta.Index Char Count)) :=
  [.new] ++ ([('1', 1, 2), ('2', 2, 5), ('3', 3, 3), ('4', 4, 1), ('5', 5, 6), ('6', 6, 2), ('7', 7, 4)].flatMap fun q =>
    [.op 0 (.pushL q.1), .op 0 (.pushL '+'), .op 0 (.archL q.2.2 (some (.usize q.2.1)))]) ++ [.op 0 (.pushL '8'), .op 0 (.pushL '+'), .op 0 .unfocus]

/-- The conditions of all theorems, for a text of eight leaves. The first edit makes 4+ to 4+7, where 7 is open at the end of the leaf: of the
15 nodes 6 are visited, 5 to the edited leaf and one more. The second makes 5+ to 59+, which leaves the same number open as before. -/
example : ∃ (s1 s2 : LSpace Char Count Token Count (ASt Token × Option Nat)) (v1 v2 v3 : Tree (Tr × TreeData Char Count)) (σ2 σ3 : RMem Char Count) (h2 h3 : Tr),
    AccHistory tokNode (ASt.new, none) s1 [v1] ∧ AccHistory tokNode (ASt.new, none) s2 [v2, v1] ∧ (∀ u ∈ [v2, v1], Speaking none (plain u)) ∧
    View σ2 (some h2) v2 ∧ View σ3 (some h3) v3 ∧ (∀ u ∈ [v2, v3], (nodeNames u).Nodup ∧ Chunked (plain u) ∧ Speaking none (plain u)) ∧
    Near v1 v2 5 ∧ Separated (plain v1) ∧ depthOf v2 = 5 ∧ Swapped openAt none v2 v3 5 ∧ v3.size = 15 ∧
    (∃ o, amrun (lrAccBody tokNode) σ2 60 ⟨h2, some (.str "start"), (ASt.new, none)⟩ s1 = some (.ok o) ∧ o.work = 6) ∧
    (∃ o, amrun (lrAccBody tokNode) σ3 60 ⟨h3, some (.str "start"), (ASt.new, none)⟩ s2 = some (.ok o) ∧ o.work = 5) := by
  have hx : (do
      let (vs, σ1, h1, v1) ← treeNext exPlus [] Store.empty
      let (vs, σ2, h2, v2) ← treeNext [.op 0 (.focus (8 : Nat)), .op 0 (.pushL '7'), .op 0 .unfocus] vs σ1
      let (_, σ3, h3, v3) ← treeNext [.op 0 (.focus (10 : Nat)), .op 0 (.pushL '9'), .op 0 .unfocus] vs σ2
      let o1 ← (← amrun (lrAccBody tokNode) σ1 60 ⟨h1, some (.str "start"), (ASt.new, none)⟩ (Space.empty : LSpace Char Count Token Count (ASt Token × Option Nat))).toOption
      let o2 ← (← amrun (lrAccBody tokNode) σ2 60 ⟨h2, some (.str "start"), (ASt.new, none)⟩ o1.space).toOption
      let o3 ← (← amrun (lrAccBody tokNode) σ3 60 ⟨h3, some (.str "start"), (ASt.new, none)⟩ o2.space).toOption
      return ([uqTreeB v1, uqTreeB v2, uqTreeB v3, treeReturnB [v1] v2, plusB (plain v1), plusB (plain v2), plusB (plain v3)],
        [place v1 v2, depthOf v2, v3.size, o2.work, o3.work], placeWith openAt none v2 v3)) =
      some (List.replicate 7 true, [5, 5, 15, 6, 5], some 5) := by decide +kernel
  obtain ⟨⟨vs1, σ1, h1, v1⟩, e1, hx⟩ := Option.bind_eq_some_iff.1 hx
  obtain ⟨⟨vs2, σ2, h2, v2⟩, e2, hx⟩ := Option.bind_eq_some_iff.1 hx
  obtain ⟨⟨vs3, σ3, h3, v3⟩, e3, hx⟩ := Option.bind_eq_some_iff.1 hx
  obtain ⟨p1, f1, hx⟩ := Option.bind_eq_some_iff.1 hx
  obtain ⟨o1, g1, hx⟩ := Option.bind_eq_some_iff.1 hx
  obtain ⟨p2, f2, hx⟩ := Option.bind_eq_some_iff.1 hx
  obtain ⟨o2, g2, hx⟩ := Option.bind_eq_some_iff.1 hx
  obtain ⟨p3, f3, hx⟩ := Option.bind_eq_some_iff.1 hx
  obtain ⟨o3, g3, hx⟩ := Option.bind_eq_some_iff.1 hx
  have ok : ∀ {A : Type} {p : P A} {o : A}, p.toOption = some o → p = .ok o := by
    intro A p o h; cases p with | error q => cases h | ok y => cases h; rfl
  have hx := Option.some.inj hx
  simp only [Prod.mk.injEq, List.replicate, List.cons.injEq, and_true] at hx
  obtain ⟨⟨x1, x2, x3, x4, x5, x6, x7⟩, ⟨y1, y2, y3, y4, y5⟩, z⟩ := hx
  rw [ok g1] at f1; rw [ok g2] at f2; rw [ok g3] at f3
  have u1 := uqTreeB_ok x1
  have u2 := uqTreeB_ok x2
  have u3 := uqTreeB_ok x3
  have sp1 := plus_speaking (v := plain v1) (fun _ _ _ h => plusB_ok x5 h) u1.chunked.ends
  have sp2 := plus_speaking (v := plain v2) (fun _ _ _ h => plusB_ok x6 h) u2.chunked.ends
  have sp3 := plus_speaking (v := plain v3) (fun _ _ _ h => plusB_ok x7 h) u3.chunked.ends
  have b1 := AccHistory.fold .start (treeNext_view e1) u1.names u1.chunked trivial f1
  have b2 := AccHistory.fold b1 (treeNext_view e2) u2.names u2.chunked (treeReturnB_ok x4) f2
  refine ⟨_, _, v1, v2, v3, σ2, σ3, h2, h3, b1, b2, ?_, treeNext_view e2, treeNext_view e3, ?_, y1 ▸ place_near v1 v2, sp1.1, y2, placeWith_swapped z, y3,
    ⟨o2, f2, y4⟩, ⟨o3, f3, y5⟩⟩
  · intro u hu
    simp only [List.mem_cons, List.not_mem_nil, or_false] at hu
    rcases hu with rfl | rfl
    · exact sp2.2 none
    · exact sp1.2 none
  · intro u hu
    simp only [List.mem_cons, List.not_mem_nil, or_false] at hu
    rcases hu with rfl | rfl
    · exact ⟨u2.names, u2.chunked, sp2.2 none⟩
    · exact ⟨u3.names, u3.chunked, sp3.2 none⟩

end Iodyn.Incr
