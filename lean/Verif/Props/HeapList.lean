import Verif.Props.HeapStack
import Verif.Spec.HeapList
/-
C86: programs that use heads, stacks and iterators of lists.
-/
namespace Iodyn.Heap
variable {D X : Type}

theorem Reads.nil_inv {σ : Mem D X} {h : Option Head} (hr : Reads σ h []) : h = none := by
  rcases hr with ⟨hp, hq⟩
  rcases h with _ | ⟨n, k⟩
  · rfl
  · have := hp 0
    simp only [stackPeek, bind, forceBody] at this
    cases hc : σ.cells k with
    | none => rw [hc] at this; simp at this
    | some c => rw [hc] at this; cases c <;> simp [pure] at this

theorem Reads.cons_inv {σ : Mem D X} {h : Option Head} {n : Option Name} {x : X} {s : List (Option Name × X)} (hr : Reads σ h ((n, x) :: s)) :
    ∃ k h', h = some ⟨n, k⟩ ∧ σ.cells k = some (.body x h') ∧ Reads σ h' s := by
  rcases hr with _ | ⟨hn, hp, hq, hr⟩
  rcases h with _ | ⟨m, k⟩
  · simp [stackPeek, pure] at hp
  · have h1 := hp 0
    have h2 := hq 0
    simp only [stackPeek, stackPull, bind, forceBody] at h1 h2
    cases hc : σ.cells k with
    | none => rw [hc] at h1; simp at h1
    | some c =>
      rw [hc] at h1 h2
      cases c with
      | node => simp at h1
      | body y t =>
        simp [pure] at h1 h2
        subst h1 h2
        simp at hn
        subst hn
        exact ⟨k, t, rfl, hc, hr⟩

/-- The variables of the two programs agree. -/
structure Agree (σ : Mem D X) (v : Vars) (l : Lists X) : Prop where
  stacks : List.Forall₂ (Reads σ) v.stacks l.stacks
  heads : List.Forall₂ (fun h p => Reads σ (some h) (p.1 :: p.2)) v.heads l.heads
  iters : List.Forall₂ (fun i s => Reads σ i.next s) v.iters l.iters

theorem Agree.mono {σ σ' : Mem D X} {v : Vars} {l : Lists X} (h : Agree σ v l) (hr : ∀ (u : Option Head) s, Reads σ u s → Reads σ' u s) : Agree σ' v l :=
  ⟨h.stacks.imp fun _ _ => hr _ _, h.heads.imp fun _ _ => hr _ _, h.iters.imp fun _ _ => hr _ _⟩

theorem forall₂_get {A B : Type} {R : A → B → Prop} {as : List A} {bs : List B} (h : List.Forall₂ R as bs) (i : Nat) :
    (as[i]? = none ∧ bs[i]? = none) ∨ ∃ a b, as[i]? = some a ∧ bs[i]? = some b ∧ R a b := by
  induction h generalizing i with
  | nil => exact .inl ⟨rfl, rfl⟩
  | cons hab _ ih =>
    cases i with
    | zero => exact .inr ⟨_, _, rfl, rfl, hab⟩
    | succ i => simpa using ih i

theorem forall₂_add {A B : Type} {R : A → B → Prop} {as : List A} {bs : List B} (h : List.Forall₂ R as bs) {a : A} {b : B} (hab : R a b) :
    List.Forall₂ R (as ++ [a]) (bs ++ [b]) := by
  induction h with
  | nil => exact .cons hab .nil
  | cons h _ ih => exact .cons h ih

theorem forall₂_set {A B : Type} {R : A → B → Prop} {as : List A} {bs : List B} (h : List.Forall₂ R as bs) {a : A} {b : B} (hab : R a b) (i : Nat) :
    List.Forall₂ R (as.set i a) (bs.set i b) := by
  induction h generalizing i with
  | nil => exact .nil
  | cons h ht ih =>
    cases i with
    | zero => exact .cons hab ht
    | succ i => exact .cons h (ih i)

/-- What one call does. -/
def Steps (e : Engine) (σ : Mem D X) (v : Vars) (l : Lists X) (c : Call X) : Prop :=
  ∃ v' σ', (∀ f, c.run e v f σ = .ok ((v', (c.spec l).2), σ')) ∧ Agree σ' v' (c.spec l).1 ∧ Sane σ' ∧
    ∀ n, n ∉ c.cellNames → Unused σ n → Unused σ' n

theorem Steps.same {e : Engine} {σ : Mem D X} {v v' : Vars} {l : Lists X} {c : Call X} (hs : Sane σ)
    (h : ∀ f, c.run e v f σ = .ok ((v', (c.spec l).2), σ)) (ha : Agree σ v' (c.spec l).1) : Steps e σ v l c :=
  ⟨v', σ, h, ha, hs, fun _ _ h => h⟩

theorem call_steps {e : Engine} {σ : Mem D X} {v : Vars} {l : Lists X} (hs : Sane σ) (h : Agree σ v l) (c : Call X)
    (hn : e = .naive ∨ ∀ n ∈ c.cellNames, Unused σ n) : Steps e σ v l c := by
  have hnil : Reads σ none ([] : List (Option Name × X)) := .nil (fun f => rfl) (fun f => rfl)
  cases c with
  | newStack => exact .same hs (fun f => rfl) ⟨forall₂_add h.stacks hnil, h.heads, h.iters⟩
  | isEmpty s =>
    rcases forall₂_get h.stacks s with ⟨h1, h2⟩ | ⟨t, s', h1, h2, hr⟩
    · exact .same hs (fun f => by simp only [Call.run, Call.spec, h1, h2]; rfl) h
    · refine .same hs (fun f => ?_) h
      simp only [Call.run, Call.spec, h1, h2]
      rcases s' with _ | ⟨⟨n, x⟩, s'⟩
      · rw [hr.nil_inv]; rfl
      · obtain ⟨k, h', rfl, -, -⟩ := hr.cons_inv; rfl
  | push s nm x =>
    rcases forall₂_get h.stacks s with ⟨h1, h2⟩ | ⟨t, s', h1, h2, hr⟩
    · exact .same hs (fun f => by simp only [Call.run, Call.spec, h1, h2]; rfl) (by simpa [Call.spec, h2] using h)
    · obtain ⟨hd, σ', p1, p2, p3, p4, p5⟩ := C40_push (e := e) hs nm (hn.imp id fun hn n hnm => hn n (by simp [Call.cellNames, hnm])) hr x
      refine ⟨{ v with stacks := v.stacks ++ [some hd] }, σ', fun f => ?_, ?_, p3, fun n hx hu => p4 n ?_ hu⟩
      · simp only [Call.run, Call.spec, h1, h2, bind, p1]; rfl
      · have h' := h.mono p5
        simp only [Call.spec, h2]
        exact ⟨forall₂_add h'.stacks p2, h'.heads, h'.iters⟩
      · rintro rfl; exact hx (by simp [Call.cellNames])
  | peek s =>
    rcases forall₂_get h.stacks s with ⟨h1, h2⟩ | ⟨t, s', h1, h2, hr⟩
    · exact .same hs (fun f => by simp only [Call.run, Call.spec, h1, h2]; rfl) h
    · refine .same hs (fun f => ?_) h
      simp only [Call.run, Call.spec, h1, h2]
      rcases s' with _ | ⟨⟨n, x⟩, s'⟩
      · rw [hr.nil_inv]; rfl
      · obtain ⟨k, h', rfl, hc, -⟩ := hr.cons_inv
        simp [stackPeek, bind, forceBody, hc, pure]
  | name s =>
    rcases forall₂_get h.stacks s with ⟨h1, h2⟩ | ⟨t, s', h1, h2, hr⟩
    · exact .same hs (fun f => by simp only [Call.run, Call.spec, h1, h2]; rfl) h
    · refine .same hs (fun f => ?_) h
      simp only [Call.run, Call.spec, h1, h2]
      rcases s' with _ | ⟨⟨n, x⟩, s'⟩
      · rw [hr.nil_inv]; rfl
      · obtain ⟨k, h', rfl, -, -⟩ := hr.cons_inv; rfl
  | pull s =>
    rcases forall₂_get h.stacks s with ⟨h1, h2⟩ | ⟨t, s', h1, h2, hr⟩
    · exact .same hs (fun f => by simp only [Call.run, Call.spec, h1, h2]; rfl) (by simpa [Call.spec, h2] using h)
    · rcases s' with _ | ⟨⟨n, x⟩, s'⟩
      · obtain rfl := hr.nil_inv
        exact .same hs (fun f => by simp only [Call.run, Call.spec, h1, h2]; rfl) (by simpa [Call.spec, h2] using h)
      · obtain ⟨k, h', rfl, hc, hr'⟩ := hr.cons_inv
        refine .same (v' := { v with stacks := v.stacks ++ [h'] }) hs (fun f => ?_) ?_
        · simp [Call.run, Call.spec, h1, h2, stackPull, bind, forceBody, hc, pure]
        · simp only [Call.spec, h2]
          exact ⟨forall₂_add h.stacks hr', h.heads, h.iters⟩
  | iter s =>
    rcases forall₂_get h.stacks s with ⟨h1, h2⟩ | ⟨t, s', h1, h2, hr⟩
    · exact .same hs (fun f => by simp only [Call.run, Call.spec, h1, h2]; rfl) (by simpa [Call.spec, h2] using h)
    · refine .same (v' := { v with iters := v.iters ++ [stackIter t] }) hs (fun f => by simp only [Call.run, Call.spec, h1, h2]; rfl) ?_
      simp only [Call.spec, h2]
      exact ⟨h.stacks, h.heads, forall₂_add h.iters hr⟩
  | wrap i =>
    rcases forall₂_get h.heads i with ⟨h1, h2⟩ | ⟨t, s', h1, h2, hr⟩
    · exact .same hs (fun f => by simp only [Call.run, Call.spec, h1, h2]; rfl) (by simpa [Call.spec, h2] using h)
    · refine .same (v' := { v with stacks := v.stacks ++ [some t] }) hs (fun f => by simp only [Call.run, Call.spec, h1, h2]; rfl) ?_
      simp only [Call.spec, h2]
      exact ⟨forall₂_add h.stacks hr, h.heads, h.iters⟩
  | unwrap s =>
    rcases forall₂_get h.stacks s with ⟨h1, h2⟩ | ⟨t, s', h1, h2, hr⟩
    · exact .same hs (fun f => by simp only [Call.run, Call.spec, h1, h2]; rfl) (by simpa [Call.spec, h2] using h)
    · rcases s' with _ | ⟨⟨n, x⟩, s'⟩
      · obtain rfl := hr.nil_inv
        exact .same hs (fun f => by simp only [Call.run, Call.spec, h1, h2]; rfl) (by simpa [Call.spec, h2] using h)
      · obtain ⟨k, h', rfl, hc, hr'⟩ := hr.cons_inv
        refine .same (v' := { v with heads := v.heads ++ [⟨n, k⟩] }) hs (fun f => by simp only [Call.run, Call.spec, h1, h2]; rfl) ?_
        simp only [Call.spec, h2]
        exact ⟨h.stacks, forall₂_add h.heads hr, h.iters⟩
  | newHead nm x =>
    obtain ⟨hd, σ', p1, p2, p3, p4, p5⟩ := C40_push (e := e) hs nm (hn.imp id fun hn n hnm => hn n (by simp [Call.cellNames, hnm])) hnil x
    refine ⟨{ v with heads := v.heads ++ [hd] }, σ', fun f => ?_, ?_, p3, fun n hx hu => p4 n ?_ hu⟩
    · simp only [Call.run, Call.spec, headNew, bind, p1]; rfl
    · have h' := h.mono p5
      exact ⟨h'.stacks, forall₂_add h'.heads p2, h'.iters⟩
    · rintro rfl; exact hx (by simp [Call.cellNames])
  | pushHead i nm x =>
    rcases forall₂_get h.heads i with ⟨h1, h2⟩ | ⟨t, s', h1, h2, hr⟩
    · exact .same hs (fun f => by simp only [Call.run, Call.spec, h1, h2]; rfl) (by simpa [Call.spec, h2] using h)
    · obtain ⟨hd, σ', p1, p2, p3, p4, p5⟩ := C40_push (e := e) hs nm (hn.imp id fun hn n hnm => hn n (by simp [Call.cellNames, hnm])) hr x
      refine ⟨{ v with heads := v.heads ++ [hd] }, σ', fun f => ?_, ?_, p3, fun n hx hu => p4 n ?_ hu⟩
      · simp only [Call.run, Call.spec, h1, h2, headPush, bind, p1]; rfl
      · have h' := h.mono p5
        simp only [Call.spec, h2]
        exact ⟨h'.stacks, forall₂_add h'.heads p2, h'.iters⟩
      · rintro rfl; exact hx (by simp [Call.cellNames])
  | peekHead i =>
    rcases forall₂_get h.heads i with ⟨h1, h2⟩ | ⟨t, ⟨⟨n, x⟩, s'⟩, h1, h2, hr⟩
    · exact .same hs (fun f => by simp only [Call.run, Call.spec, h1, h2]; rfl) h
    · refine .same hs (fun f => ?_) h
      obtain ⟨k, h', he, hc, -⟩ := hr.cons_inv
      obtain rfl := Option.some.inj he
      simp [Call.run, Call.spec, h1, h2, headPeek, bind, forceBody, hc, pure]
  | nameHead i =>
    rcases forall₂_get h.heads i with ⟨h1, h2⟩ | ⟨t, ⟨⟨n, x⟩, s'⟩, h1, h2, hr⟩
    · exact .same hs (fun f => by simp only [Call.run, Call.spec, h1, h2]; rfl) h
    · refine .same hs (fun f => ?_) h
      obtain ⟨k, h', he, hc, -⟩ := hr.cons_inv
      obtain rfl := Option.some.inj he
      simp only [Call.run, Call.spec, h1, h2]; rfl
  | pullHead i =>
    rcases forall₂_get h.heads i with ⟨h1, h2⟩ | ⟨t, ⟨⟨n, x⟩, s'⟩, h1, h2, hr⟩
    · exact .same hs (fun f => by simp only [Call.run, Call.spec, h1, h2]; rfl) (by simpa [Call.spec, h2] using h)
    · obtain ⟨k, h', he, hc, hr'⟩ := hr.cons_inv
      obtain rfl := Option.some.inj he
      refine .same (v' := { v with stacks := v.stacks ++ [h'] }) hs (fun f => ?_) ?_
      · simp [Call.run, Call.spec, h1, h2, headPull, bind, forceBody, hc, pure]
      · simp only [Call.spec, h2]
        exact ⟨forall₂_add h.stacks hr', h.heads, h.iters⟩
  | iterHead i =>
    rcases forall₂_get h.heads i with ⟨h1, h2⟩ | ⟨t, s', h1, h2, hr⟩
    · exact .same hs (fun f => by simp only [Call.run, Call.spec, h1, h2]; rfl) (by simpa [Call.spec, h2] using h)
    · refine .same (v' := { v with iters := v.iters ++ [headIter t] }) hs (fun f => by simp only [Call.run, Call.spec, h1, h2]; rfl) ?_
      simp only [Call.spec, h2]
      exact ⟨h.stacks, h.heads, forall₂_add h.iters hr⟩
  | iterName i =>
    rcases forall₂_get h.iters i with ⟨h1, h2⟩ | ⟨⟨t⟩, s', h1, h2, hr⟩
    · exact .same hs (fun f => by simp only [Call.run, Call.spec, h1, h2]; rfl) h
    · refine .same hs (fun f => ?_) h
      simp only [Call.run, Call.spec, h1, h2]
      rcases s' with _ | ⟨⟨n, x⟩, s'⟩
      · obtain rfl : t = none := hr.nil_inv
        rfl
      · obtain ⟨k, h', rfl, -, -⟩ : ∃ k h', t = some ⟨n, k⟩ ∧ _ := hr.cons_inv
        rfl
  | next i =>
    rcases forall₂_get h.iters i with ⟨h1, h2⟩ | ⟨⟨t⟩, s', h1, h2, hr⟩
    · exact .same hs (fun f => by simp only [Call.run, Call.spec, h1, h2]; rfl) (by simpa [Call.spec, h2] using h)
    · rcases s' with _ | ⟨⟨n, x⟩, s'⟩
      · obtain rfl : t = none := hr.nil_inv
        refine .same (v' := { v with iters := v.iters.set i ⟨none⟩ }) hs (fun f => by simp only [Call.run, Call.spec, h1, h2]; rfl) ?_
        simp only [Call.spec, h2]
        exact ⟨h.stacks, h.heads, forall₂_set h.iters hr i⟩
      · obtain ⟨k, h', rfl, hc, hr'⟩ : ∃ k h', t = some ⟨n, k⟩ ∧ _ := hr.cons_inv
        refine .same (v' := { v with iters := v.iters.set i ⟨h'⟩ }) hs (fun f => ?_) ?_
        · simp [Call.run, Call.spec, h1, h2, Iter.step, bind, forceBody, hc, pure]
        · simp only [Call.spec, h2]
          exact ⟨h.stacks, h.heads, forall₂_set h.iters hr' i⟩

theorem calls_run {e : Engine} : ∀ (cs : List (Call X)) {σ : Mem D X} {v : Vars} {l : Lists X}, Sane σ → Agree σ v l →
    (e = .naive ∨ ((cs.flatMap Call.cellNames).Nodup ∧ ∀ n ∈ cs.flatMap Call.cellNames, Unused σ n)) →
    ∃ σ', ∀ f, runCalls e v cs f σ = .ok (specCalls l cs, σ')
  | [], σ, v, l, _, _, _ => ⟨σ, fun _ => rfl⟩
  | c :: cs, σ, v, l, hs, h, hn => by
    obtain ⟨v', σ', s1, s2, s3, s4⟩ := call_steps hs h c (hn.imp id fun hn n hc => hn.2 n (by simp [hc]))
    obtain ⟨σ'', r⟩ := calls_run cs s3 s2 (by
      refine hn.imp id fun hn => ?_
      rw [List.flatMap_cons, List.nodup_append] at hn
      exact ⟨hn.1.2.1, fun n hm => s4 n (fun hc => hn.1.2.2 n hc n hm rfl) (hn.2 n (by simp [hm]))⟩)
    exact ⟨σ'', fun f => by simp only [runCalls, bind, s1, r, specCalls]; rfl⟩

/-- **C86.** Any program of calls on stacks, heads and iterators gives what it gives on lists, if no name is used twice or the engine is the naive one.
An iterator in progress gives the elements of the list it was made from, whatever is pushed meanwhile. -/
theorem C86_calls {e : Engine} (cs : List (Call X)) {σ : Mem D X} (hs : Sane σ)
    (hn : e = .naive ∨ ((cs.flatMap Call.cellNames).Nodup ∧ ∀ n ∈ cs.flatMap Call.cellNames, Unused σ n)) :
    ∃ σ', ∀ f, runCalls e ⟨[], [], []⟩ cs f σ = .ok (specCalls ⟨[], [], []⟩ cs, σ') :=
  calls_run cs hs ⟨.nil, .nil, .nil⟩ hn

/-- Two iterators at once over lists with a shared tail, with pushes between their steps. -/
def exCalls : List (Call Nat) :=
  [.newHead (some (.usize 4)) 4, .pushHead 0 (some (.usize 3)) 3, .iterHead 1, .next 0, .iterName 0, .wrap 1, .push 0 none 9, .iter 1, .next 0,
    .pushHead 0 (some (.usize 5)) 5, .next 0, .next 1, .next 1, .pull 1, .peek 2, .name 2, .pullHead 0, .isEmpty 3, .unwrap 3, .peekHead 2]

example : (exCalls.flatMap Call.cellNames).Nodup ∧
    specCalls ⟨[], [], []⟩ exCalls = [.made, .made, .made, .elem (some 3), .name (some (.usize 4)), .made, .made, .made, .elem (some 4), .made, .elem none,
      .elem (some 9), .elem (some 3), .made, .elem (some 3), .name (some (.usize 3)), .made, .flag true, .absent, .elem (some 5)] := by
  decide +kernel

theorem runCalls_cons {e : Engine} {f : Nat} {σ σ' σ'' : Mem D X} {v v' : Vars} {c : Call X} {cs : List (Call X)} {o : Out X} {os : List (Out X)}
    (h : c.run e v f σ = .ok ((v', o), σ')) (h' : runCalls e v' cs f σ' = .ok (os, σ'')) : runCalls e v (c :: cs) f σ = .ok (o :: os, σ'') := by
  simp only [runCalls, bind, h, h']; rfl

/-- **C86, a name used again.** A list whose head is pushed again with the same name contains itself: its iterator goes on for ever, and one that was made
before gives an element that its list did not have. -/
theorem C86_endless (n : Nat) : ∃ σ : Mem D Nat, ∀ f, runCalls .dcg ⟨[], [], []⟩
    ([.newHead (some (.usize 1)) 10, .iterHead 0, .pushHead 0 (some (.usize 1)) 20] ++ List.replicate n (Call.next 0)) f Store.empty =
    .ok ([.made, .made, .made] ++ List.replicate n (.elem (some 20)), σ) := by
  have key : ∀ (σ : Mem D Nat) (hd : List Head) (h : Head), σ.cells h.main = some (.body 20 (some h)) → ∀ n f,
      runCalls .dcg ⟨[], hd, [⟨some h⟩]⟩ (List.replicate n (Call.next 0)) f σ = .ok (List.replicate n (.elem (some 20)), σ) := by
    intro σ hd h hc n f
    induction n with
    | zero => rfl
    | succ n ih =>
      simp [List.replicate_succ, runCalls, Call.run, Iter.step, bind, forceBody, hc, pure] at ih ⊢
      rw [ih]
  let h : Head := ⟨some (.usize 1), .named (.usize 1) (Store.empty : Mem D Nat).path⟩
  refine ⟨(((Store.empty : Mem D Nat).cell .dcg (.usize 1) (.body 10 none)).1.cell .dcg (.usize 1) (.body 20 (some h))).1, fun f => ?_⟩
  have := key (((Store.empty : Mem D Nat).cell .dcg (.usize 1) (.body 10 none)).1.cell .dcg (.usize 1) (.body 20 (some h))).1 [h, h] h (by simp [Store.cell, Store.set, h]) n f
  exact runCalls_cons rfl (runCalls_cons rfl (runCalls_cons rfl this))

end Iodyn.Heap
