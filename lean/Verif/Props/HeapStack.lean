import Verif.Proof.HeapStack
import Verif.Spec.Heap
/-
C40: stacks over the store of articulations.
-/
namespace Iodyn.Heap
variable {D X : Type}

/-- The content of every cell in use is kept. -/
def Grows {V : Type} (σ σ' : Store V) : Prop := ∀ l c, σ.cells l = some c → σ'.cells l = some c

theorem Reads.grows {σ σ' : Mem D X} (hg : Grows σ σ') {h : Option Head} {s : List (Option Name × X)} (hr : Reads σ h s) :
    Reads σ' h s := by
  induction hr with
  | @nil h hp hq =>
    rcases h with _ | ⟨n, k⟩
    · exact .nil (fun f => rfl) (fun f => rfl)
    · have := hp 0
      simp only [stackPeek, bind, forceBody] at this
      cases hc : σ.cells k with
      | none => rw [hc] at this; simp at this
      | some c => rw [hc] at this; cases c <;> simp [pure] at this
  | @cons h n x h' s hn hp hq hr ih =>
    rcases h with _ | ⟨m, k⟩
    · simp [stackPeek, pure] at hp
    · have h1 := hp 0
      have h2 := hq 0
      simp only [stackPeek, stackPull, bind, forceBody] at h1 h2
      cases hc : σ.cells k with
      | none => rw [hc] at h1; simp at h1
      | some c =>
        rw [hc] at h1 h2
        cases c with
        | node => simp at h1
        | body y t =>
          simp [pure] at h1 h2
          subst h1 h2
          have hc' := hg _ _ hc
          refine .cons hn (fun f => ?_) (fun f => ?_) ih <;> simp [stackPeek, stackPull, bind, forceBody, hc', pure]

/-- **C40.** Pushing without a name, or with one that is not in use, or with any name and the functional engine: the new
stack reads as the pushed element on the old one, and every stack that could be read before still reads the same. -/
theorem C40_push {e : Engine} {σ : Mem D X} (hσ : Sane σ) (nm : Option Name) (hn : e = .naive ∨ ∀ n, nm = some n → Unused σ n)
    {t : Option Head} {s : List (Option Name × X)} (ht : Reads σ t s) (x : X) :
    ∃ h σ', (∀ f, pushOnto e t nm x f σ = .ok (h, σ')) ∧ Reads σ' (some h) ((nm, x) :: s) ∧ Sane σ' ∧
      (∀ n, some n ≠ nm → Unused σ n → Unused σ' n) ∧
      ∀ (u : Option Head) (s' : List (Option Name × X)), Reads σ u s' → Reads σ' u s' := by
  have fin : ∀ (k : Loc) (σ' : Mem D X), (∀ f, pushOnto e t nm x f σ = .ok (⟨nm, k⟩, σ')) → Grows σ σ' →
      σ'.cells k = some (.body x t) → Sane σ' → (∀ n, some n ≠ nm → Unused σ n → Unused σ' n) →
      ∃ h σ', (∀ f, pushOnto e t nm x f σ = .ok (h, σ')) ∧ Reads σ' (some h) ((nm, x) :: s) ∧ Sane σ' ∧
      (∀ n, some n ≠ nm → Unused σ n → Unused σ' n) ∧
      ∀ (u : Option Head) (s' : List (Option Name × X)), Reads σ u s' → Reads σ' u s' := by
    intro k σ' h1 hg hc hs hu
    refine ⟨⟨nm, k⟩, σ', h1, ?_, hs, hu, fun u s' hr => hr.grows hg⟩
    refine .cons rfl (fun f => ?_) (fun f => ?_) (ht.grows hg) <;> simp [stackPeek, stackPull, bind, forceBody, hc, pure]
  have anon : (∀ f, pushOnto e t nm x f σ = .ok (⟨nm, .anon σ.next⟩, (σ.put (.body x t)).1)) →
      ∃ h σ', (∀ f, pushOnto e t nm x f σ = .ok (h, σ')) ∧ Reads σ' (some h) ((nm, x) :: s) ∧ Sane σ' ∧
      (∀ n, some n ≠ nm → Unused σ n → Unused σ' n) ∧
      ∀ (u : Option Head) (s' : List (Option Name × X)), Reads σ u s' → Reads σ' u s' := by
    intro h1
    refine fin _ _ h1 ?_ (by simp [Store.put, Store.set]) ?_ ?_
    · intro l c hc
      have : l ≠ .anon σ.next := by rintro rfl; rw [hσ _ (Nat.le_refl _)] at hc; simp at hc
      simp [Store.put, Store.set, this, hc]
    · intro k hk
      have hk' : σ.next + 1 ≤ k := hk
      have : k ≠ σ.next := by omega
      simp [Store.put, Store.set, this, hσ k (by omega)]
    · intro n _ hn
      simpa [Unused, Store.put, Store.set] using hn
  cases nm with
  | none => exact anon (fun f => rfl)
  | some n =>
    cases e with
    | naive => exact anon (fun f => rfl)
    | dcg =>
      have hn := (hn.resolve_left (by simp)) n rfl
      refine fin (.named n σ.path) _ (fun f => rfl) ?_ (by simp [Store.set]) ?_ ?_
      · intro l c hc
        have : l ≠ .named n σ.path := by rintro rfl; rw [hn] at hc; simp at hc
        simp [Store.set, this, hc]
      · intro k hk
        simpa [Store.set] using hσ k hk
      · intro m hm hu
        have : m ≠ n := by rintro rfl; exact hm rfl
        simpa [Unused, Store.set, this] using hu

example : ∃ (h : Option Head) (σ : Mem Unit Nat), Sane σ ∧ Reads σ h [(some (.usize 1), 10)] ∧ Unused σ (.usize 2) := by
  obtain ⟨h, σ, -, h2, h3, h4, -⟩ := C40_push (D := Unit) (e := .dcg) (σ := Store.empty) (fun k _ => rfl) (some (.usize 1))
    (.inr fun _ _ => rfl) (t := none) (.nil (fun f => rfl) (fun f => rfl)) 10
  exact ⟨_, σ, h3, h2, h4 _ (by simp) rfl⟩

/-- What holds after every statement. -/
structure Tracks (σ : Mem D X) (hs : List (Option Head)) (vs : List (List (Option Name × X))) : Prop where
  sane : Sane σ
  len : hs.length = vs.length
  reads : ∀ (i : Nat) h s, hs[i]? = some h → vs[i]? = some s → Reads σ h s

theorem Tracks.add {σ σ' : Mem D X} {hs : List (Option Head)} {vs : List (List (Option Name × X))} (h : Tracks σ hs vs)
    (hσ : Sane σ') (hr : ∀ u s', Reads σ u s' → Reads σ' u s') {t : Option Head} {s : List (Option Name × X)} (ht : Reads σ' t s) :
    Tracks σ' (hs ++ [t]) (vs ++ [s]) := by
  refine ⟨hσ, by simp [h.len], fun i u s' h1 h2 => ?_⟩
  rcases Nat.lt_or_ge i hs.length with hi | hi
  · rw [List.getElem?_append_left hi] at h1
    rw [List.getElem?_append_left (by rw [← h.len]; exact hi)] at h2
    exact hr _ _ (h.reads i u s' h1 h2)
  · rw [List.getElem?_append_right hi] at h1
    rw [List.getElem?_append_right (by rw [← h.len]; exact hi), ← h.len] at h2
    cases hk : i - hs.length with
    | zero => simp [hk] at h1 h2; subst h1 h2; exact ht
    | succ k => simp [hk] at h1

theorem hstackRun_ok {e : Engine} (cs : List (SCmd X)) : ∀ {σ : Mem D X} {hs : List (Option Head)} {vs : List (List (Option Name × X))},
    Tracks σ hs vs → (e = .naive ∨ ((cs.flatMap SCmd.names).Nodup ∧ ∀ n ∈ cs.flatMap SCmd.names, Unused σ n)) →
    ∃ hs' σ', (∀ f, hstackRun e hs cs f σ = .ok (hs', σ')) ∧ Tracks σ' hs' (cs.foldl stackStep vs) := by
  induction cs with
  | nil => intro σ hs vs h _; exact ⟨hs, σ, fun f => rfl, h⟩
  | cons c cs ih =>
    intro σ hs vs h hn
    have step : ∃ hs' σ', (∀ f, hstackStep e hs c f σ = .ok (hs', σ')) ∧ Tracks σ' hs' (stackStep vs c) ∧
        ∀ n, n ∉ c.names → Unused σ n → Unused σ' n := by
      cases c with
      | push i nm x =>
        simp only [hstackStep, stackStep]
        cases h1 : hs[i]? with
        | none =>
          have h2 : vs[i]? = none := by
            rw [List.getElem?_eq_none_iff] at h1 ⊢
            rw [← h.len]; exact h1
          rw [h2]
          exact ⟨hs, σ, fun f => rfl, h, fun _ _ hu => hu⟩
        | some t =>
          have hi : i < vs.length := by
            rw [← h.len]
            exact (List.getElem?_eq_some_iff.1 h1).1
          have h2 : vs[i]? = some vs[i] := List.getElem?_eq_getElem hi
          rw [h2]
          obtain ⟨hd, σ', p1, p2, p3, p4, p5⟩ := C40_push (e := e) h.sane nm (by
            refine hn.imp id fun hn n hnm => hn.2 n ?_
            simp [SCmd.names, hnm]) (h.reads i _ _ h1 h2) x
          refine ⟨hs ++ [some hd], σ', fun f => ?_, h.add p3 p5 p2, fun n hx hu => p4 n ?_ hu⟩
          · simp [bind, p1, pure]
          · rintro rfl; exact hx (by simp [SCmd.names])
      | pull i =>
        simp only [hstackStep, stackStep]
        cases h1 : hs[i]? with
        | none =>
          have h2 : vs[i]? = none := by
            rw [List.getElem?_eq_none_iff] at h1 ⊢
            rw [← h.len]; exact h1
          rw [h2]
          exact ⟨hs, σ, fun f => rfl, h, fun _ _ hu => hu⟩
        | some t =>
          have hi : i < vs.length := by
            rw [← h.len]
            exact (List.getElem?_eq_some_iff.1 h1).1
          have h2 : vs[i]? = some vs[i] := List.getElem?_eq_getElem hi
          have hr := h.reads i _ _ h1 h2
          rw [h2]
          generalize vs[i] = s at hr ⊢
          cases hr with
          | nil hp hq => exact ⟨hs, σ, fun f => by simp [bind, hq, pure], h, fun _ _ hu => hu⟩
          | cons hn hp hq hr =>
            exact ⟨_, σ, fun f => by simp [bind, hq, pure], h.add h.sane (fun _ _ h => h) hr, fun _ _ hu => hu⟩
    obtain ⟨hs1, σ1, s1, s2, s3⟩ := step
    have hn' : e = .naive ∨ ((cs.flatMap SCmd.names).Nodup ∧ ∀ n ∈ cs.flatMap SCmd.names, Unused σ1 n) := by
      refine hn.imp id fun hn => ?_
      rw [List.flatMap_cons, List.nodup_append] at hn
      refine ⟨hn.1.2.1, fun n hm => s3 n ?_ (hn.2 n (by simp [hm]))⟩
      intro hc
      exact hn.1.2.2 n hc n hm rfl
    obtain ⟨hs2, σ2, r1, r2⟩ := ih s2 hn'
    exact ⟨hs2, σ2, fun f => by simp [hstackRun, bind, s1, r1], r2⟩

/-- **C40.** A history of pushes and pulls over any number of stacks that share the store: if the names are pairwise
distinct (or the engine is the functional one), every stack ever made reads, at the end, as the value it was given. -/
theorem C40_histories {e : Engine} (cs : List (SCmd X)) (hn : e = .naive ∨ (cs.flatMap SCmd.names).Nodup) :
    ∃ hs σ, (∀ f, hstackRun (D := D) e [none] cs f Store.empty = .ok (hs, σ)) ∧ hs.length = (stackRun cs).length ∧
      ∀ (i : Nat) h s, hs[i]? = some h → (stackRun cs)[i]? = some s → Reads σ h s := by
  have h0 : Tracks (Store.empty : Mem D X) [none] [[]] := by
    refine ⟨fun k _ => rfl, rfl, fun i h s h1 h2 => ?_⟩
    rcases i with _ | i
    · simp at h1 h2; subst h1 h2; exact .nil (fun f => rfl) (fun f => rfl)
    · simp at h1
  obtain ⟨hs, σ, h1, h2⟩ := hstackRun_ok (e := e) cs h0 (hn.imp id fun h => ⟨h, fun n _ => rfl⟩)
  exact ⟨hs, σ, h1, h2.len, h2.reads⟩

/-- Histories with a shared tail and three names. -/
def exStacks : List (SCmd Nat) :=
  [.push 0 (some (.usize 1)) 10, .push 1 (some (.usize 2)) 20, .push 1 none 30, .push 2 (some (.usize 3)) 40, .pull 2, .push 5 none 50]

example : (exStacks.flatMap SCmd.names).Nodup ∧
    stackRun exStacks = [[], [(some (.usize 1), 10)], [(some (.usize 2), 20), (some (.usize 1), 10)], [(none, 30), (some (.usize 1), 10)],
      [(some (.usize 3), 40), (some (.usize 2), 20), (some (.usize 1), 10)], [(some (.usize 1), 10)], [(none, 50), (some (.usize 1), 10)]] := by
  refine ⟨?_, rfl⟩
  simp [exStacks, SCmd.names]

/-- A name in use may not be used again: the older stack then reads the new element. -/
theorem C40_reused_name : ∃ hs σ,
    (∀ f, hstackRun (D := Unit) .dcg [none] [.push 0 (some (.usize 1)) (10 : Nat), .push 0 (some (.usize 1)) 20] f Store.empty = .ok (hs, σ)) ∧
    ∃ h, hs[1]? = some h ∧ ¬ Reads σ h [(some (.usize 1), 10)] ∧ Reads σ h [(some (.usize 1), 20)] := by
  refine ⟨_, _, fun f => rfl, _, rfl, ?_, ?_⟩
  · intro h
    cases h with
    | cons hn hp hq hr =>
      have := hp 0
      simp [stackPeek, bind, forceBody, Store.set, pure] at this
  · exact .cons rfl (fun f => rfl) (fun f => rfl) (.nil (fun f => rfl) (fun f => rfl))

end Iodyn.Heap
