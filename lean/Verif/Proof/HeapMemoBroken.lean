import Verif.Proof.HeapMemoVars
/-
`memo_from` of a stack whose cells were replaced by tree nodes: it panics.
-/
namespace Iodyn.Heap
variable {D X E M : Type}

/-- The link was in use when the store was `σ`; its name, if any, is in `N`. -/
def OldLink (σ : Mem D X) (N : List Name) (l : Loc) : Prop := (∃ n ∈ N, ∃ q, l = .named n q) ∨ ∃ k, l = .anon k ∧ k < σ.next

/-- Following the links from a stack one arrives at a tree node, after at most `k` cells of the stack. -/
inductive Broken (σ : Mem D X) (N : List Name) : Nat → Option Head → Prop
  | here {k h d l r} : OldLink σ N h.main → σ.cells h.main = some (.node d l r) → Broken σ N k (some h)
  | next {k h x o} : OldLink σ N h.main → σ.cells h.main = some (.body x o) → Broken σ N k o → Broken σ N (k + 1) (some h)

/-- From `σ` to `σ'` only tree nodes were written. -/
structure Turned (σ σ' : Mem D X) : Prop where
  next : σ.next ≤ σ'.next
  cells : ∀ l, σ'.cells l = σ.cells l ∨ ∃ d a b, σ'.cells l = some (.node d a b)

theorem OldLink.mono {σ σ' : Mem D X} {N N' : List Name} {l : Loc} (h : OldLink σ N l) (hn : σ.next ≤ σ'.next) (hN : N ⊆ N') :
    OldLink σ' N' l := by
  rcases h with ⟨n, h1, q, rfl⟩ | ⟨k, rfl, h1⟩
  · exact .inl ⟨n, hN h1, q, rfl⟩
  · exact .inr ⟨k, rfl, Nat.lt_of_lt_of_le h1 hn⟩

theorem Broken.turned {σ σ' : Mem D X} {N : List Name} {k : Nat} {o : Option Head} (h : Broken σ N k o) (ht : Turned σ σ') : Broken σ' N k o := by
  induction h with
  | here h1 h2 =>
    rcases ht.cells _ with h3 | ⟨d, a, b, h3⟩
    · exact .here (h1.mono ht.next (List.Subset.refl _)) (h3.trans h2)
    · exact .here (h1.mono ht.next (List.Subset.refl _)) h3
  | next h1 h2 _ ih =>
    rcases ht.cells _ with h3 | ⟨d, a, b, h3⟩
    · exact .next (h1.mono ht.next (List.Subset.refl _)) (h3.trans h2) ih
    · exact .here (h1.mono ht.next (List.Subset.refl _)) h3

theorem Broken.keep {σ σ' : Mem D X} {N N' : List Name} {k : Nat} {o : Option Head} (h : Broken σ N k o) (hk : Keeps N' σ σ') (hd : Dis N N')
    (l : List Name) : Broken σ' (N ++ l) k o := by
  have hc : ∀ {l}, OldLink σ N l → σ'.cells l = σ.cells l := by
    rintro _ (⟨n, h1, q, rfl⟩ | ⟨k, rfl, h1⟩)
    · by_cases hq : q = σ.path
      · subst hq; exact hk.named n (hd n h1)
      · exact hk.other n q hq
    · exact hk.anon k h1
  induction h with
  | here h1 h2 => exact .here (h1.mono hk.next (by simp)) ((hc h1).trans h2)
  | next h1 h2 _ ih => exact .next (h1.mono hk.next (by simp)) ((hc h1).trans h2) ih

theorem newTree_turned (e : Engine) (lv : Nat) (nm : Option Name) (d : D) (l r : Option Tr) (σ : Mem D X) :
    ∃ t σ', (∀ f, newTree e lv nm d l r f σ = .ok (t, σ')) ∧ Turned σ σ' := by
  have hp : Turned σ (σ.put (.node d l r)).1 := ⟨Nat.le_succ _, fun x => by
    by_cases h : x = .anon σ.next
    · exact .inr ⟨d, l, r, by simp [Store.put, Store.set, h]⟩
    · exact .inl (by simp [Store.put, Store.set, h])⟩
  cases nm with
  | none => exact ⟨_, _, fun f => rfl, hp⟩
  | some n =>
    cases e with
    | naive => exact ⟨_, _, fun f => rfl, hp⟩
    | dcg =>
      refine ⟨_, _, fun f => rfl, Nat.le_refl _, fun x => ?_⟩
      by_cases h : x = .named n σ.path
      · exact .inr ⟨d, l, r, by simp [Store.set, h]⟩
      · exact .inl (by simp [Store.set, h])

theorem leaf_turned (e : Engine) (v : List E) (n : Option Name) (σ : RMem E M) :
    ∃ t σ', (∀ f, leaf e v n f σ = .ok (t, σ')) ∧ Turned σ σ' := newTree_turned e 0 n _ none none σ

theorem bin_turned [RazMeta E M] (e : Engine) (t1 : Tr) (l : Nat) (n : Option Name) (t2 : Tr) (σ : RMem E M) :
    (∃ p, ∀ f, bin e t1 l n t2 f σ = .error p) ∨ ∃ t σ', (∀ f, bin e t1 l n t2 f σ = .ok (t, σ')) ∧ Turned σ σ' := by
  have peek : ∀ t : Tr, (∃ d, ∀ f, t.peek f σ = .ok (d, σ)) ∨ ∀ f, (t.peek f σ : P (TreeData E M × RMem E M)) = .error .unreachable := by
    intro t
    rcases h : σ.cells t.link with _ | ⟨d, a, b⟩ | ⟨x, o⟩
    · exact .inr fun f => run_err (by simp [forceNode, h])
    · exact .inl ⟨d, fun f => run_ok (forceNode_run h f)⟩
    · exact .inr fun f => run_err (by simp [forceNode, h])
  rcases peek t1 with ⟨a, ha⟩ | ha
  · rcases peek t2 with ⟨b, hb⟩ | hb
    · cases hr : TreeData.rebuild (some a) (.dummy : TreeData E M) l n (some b) with
      | error p =>
        refine .inl ⟨p, fun f => (run_ok (ha f)).trans ((run_ok (hb f)).trans (run_err ?_))⟩
        simp [liftP, hr]
      | ok td =>
        obtain ⟨t, σ', h1, h2⟩ := newTree_turned e l n td (some t1) (some t2) σ
        refine .inr ⟨t, σ', fun f => (run_ok (ha f)).trans ((run_ok (hb f)).trans ((run_ok (a := td) (σ' := σ) ?_).trans (h1 f))), h2⟩
        simp [liftP, hr]
    · exact .inl ⟨.unreachable, fun f => (run_ok (ha f)).trans (run_err (hb f))⟩
  · exact .inl ⟨.unreachable, fun f => run_err (ha f)⟩

theorem nextArchive_broken {σ : RMem E M} {N : List Name} {k : Nat} {s : ASt E} (h : Broken σ N k s.archived) :
    (∀ f, (s.nextArchive f σ : P ((ASt E × Option (List E × Option Nat)) × RMem E M)) = .error .unreachable) ∨
      ∃ m v o k1, k = k1 + 1 ∧ Broken σ N k1 o ∧
        ∀ f, s.nextArchive f σ = .ok (((⟨v, o⟩, some (s.current, some m)) : ASt E × Option (List E × Option Nat)), σ) := by
  obtain ⟨cur, arch⟩ := s
  simp only at h
  have e0 : ∀ (h : Head), (ASt.isEmpty ⟨cur, some h⟩ : Bool) = false := fun h => by simp [ASt.isEmpty]
  cases h with
  | here h1 h2 =>
    refine .inl fun f => ?_
    unfold ASt.nextArchive
    simp only [e0, Bool.false_eq_true, if_false, Option.isNone]
    exact run_err (run_err (by simp [forceBody, h2]))
  | next h1 h2 h3 =>
    rename_i k1 hd x o
    obtain ⟨m, v⟩ := x
    refine .inr ⟨m, v, o, k1, rfl, h3, fun f => ?_⟩
    unfold ASt.nextArchive
    simp only [e0, Bool.false_eq_true, if_false, Option.isNone]
    refine (run_ok (run_ok (forceBody_run h2 f))).trans ?_
    refine (run_ok (a := (m, v)) (σ' := σ) rfl).trans ?_
    refine (run_ok (run_ok (forceBody_run h2 f))).trans ?_
    rfl

/-- With `n0` or more iterations: always the same panic, or the same result, with a stack left that leads to a tree node. -/
def Stuck (n0 : Nat) (m : Nat → HR E M (FromRes E)) (σ : RMem E M) (N : List Name) (k : Nat) : Prop :=
  (∃ p, ∀ n f, n0 ≤ n → m n f σ = .error p) ∨
    ∃ r σ', (∀ n f, n0 ≤ n → m n f σ = .ok (r, σ')) ∧ r.2.1.isSome = true ∧ ∃ k', k' < k ∧ Broken σ' N k' r.1.archived

variable [RazMeta E M]

theorem fromTail_broken (e : Engine) (k : Nat) : ∀ (N : List Name) (stack : ASt E) (first : Nat) (fn : Option Name) (acc : Tr) (max : Nat) (σ : RMem E M),
    Broken σ N k stack.archived → Stuck (k + 1) (fun n => fromStackTailN e n stack first fn acc max) σ N k := by
  induction k using Nat.strongRecOn with
  | _ k ih =>
    intro N stack first fn acc max σ hb
    by_cases h1 : acc.level ≤ first
    · by_cases h2 : first < max
      · rcases nextArchive_broken hb with hr | ⟨m, v, o, k1, rfl, hb1, hr⟩
        · refine .inl ⟨.unreachable, fun n f hn => ?_⟩
          obtain ⟨n, rfl⟩ : ∃ n', n = n' + 1 := ⟨n - 1, by omega⟩
          simp only [fromStackTailN, h1, h2, decide_true]
          refine (run_ok (a := ()) (σ' := σ) rfl).trans ((run_ok (a := ()) (σ' := σ) rfl).trans ?_)
          exact run_err (hr f)
        · obtain ⟨lt, σ1, hl, ht1⟩ := leaf_turned e stack.current none σ
          have hb2 := hb1.turned ht1
          -- what remains after the inner call
          have rest : ∀ (r : FromRes E) (σ2 : RMem E M) (k2 : Nat), k2 ≤ k1 → Broken σ2 N k2 r.1.archived → r.2.1.isSome = true →
              Stuck (k1 + 1) (fun n => do
                let newTree ← bin e r.2.2.2 first fn acc
                match r.2.1 with
                | none => return (ASt.new, none, none, newTree)
                | some lev =>
                  if lev < max then fromStackTailN e n r.1 lev r.2.2.1 newTree max
                  else return (r.1, some lev, r.2.2.1, newTree) : Nat → HR E M (FromRes E)) σ2 N (k1 + 1) := by
            intro r σ2 k2 hk2 hb3 hs
            obtain ⟨lev, hlev⟩ := Option.isSome_iff_exists.1 hs
            rcases bin_turned e r.2.2.2 first fn acc σ2 with ⟨p, hp⟩ | ⟨nt, σ3, hq, ht3⟩
            · exact .inl ⟨p, fun n f _ => run_err (hp f)⟩
            · have hb4 := hb3.turned ht3
              have e1 := fun n f => run_ok (k := fun newTree => (match r.2.1 with
                | none => return (ASt.new, none, none, newTree)
                | some lev =>
                  if lev < max then fromStackTailN e n r.1 lev r.2.2.1 newTree max
                  else return (r.1, some lev, r.2.2.1, newTree) : HR E M (FromRes E))) (hq f)
              simp only [hlev] at e1 ⊢
              by_cases h3 : lev < max
              · simp only [h3, if_true] at e1 ⊢
                rcases ih k2 (by omega) N r.1 lev r.2.2.1 nt max σ3 hb4 with ⟨p, hp⟩ | ⟨q, σ4, hp, hs4, k4, hk4, hb5⟩
                · exact .inl ⟨p, fun n f hn => (e1 n f).trans (hp n f (by omega))⟩
                · exact .inr ⟨q, σ4, fun n f hn => (e1 n f).trans (hp n f (by omega)), hs4, k4, by omega, hb5⟩
              · simp only [h3, if_false] at e1 ⊢
                exact .inr ⟨_, σ3, fun n f hn => e1 n f, rfl, k2, by omega, hb4⟩
          have start : ∀ n f, fromStackTailN e (n + 1) stack first fn acc max f σ = ((do
              let (shorter, finalLevel, finalName, small) ←
                (if m < first then fromStackTailN e n ⟨v, o⟩ m stack.name lt first
                  else return (⟨v, o⟩, some m, stack.name, lt) : HR E M (FromRes E))
              let newTree ← bin e small first fn acc
              match finalLevel with
              | none => return (ASt.new, none, none, newTree)
              | some lev =>
                if lev < max then fromStackTailN e n shorter lev finalName newTree max
                else return (shorter, some lev, finalName, newTree)) : HR E M (FromRes E)) f σ1 := by
            intro n f
            simp only [fromStackTailN, h1, h2, decide_true]
            refine (run_ok (a := ()) (σ' := σ) rfl).trans ((run_ok (a := ()) (σ' := σ) rfl).trans ?_)
            exact (run_ok (hr f)).trans (run_ok (hl f))
          by_cases h3 : m < first
          · simp only [h3, if_true] at start
            rcases ih k1 (by omega) N ⟨v, o⟩ m stack.name lt first σ1 hb2 with ⟨p, hp⟩ | ⟨r, σ2, hp, hs2, k2, hk2, hb3⟩
            · refine .inl ⟨p, fun n f hn => ?_⟩
              obtain ⟨n, rfl⟩ : ∃ n', n = n' + 1 := ⟨n - 1, by omega⟩
              exact (start n f).trans (run_err (hp n f (by omega)))
            · rcases rest r σ2 k2 (by omega) hb3 hs2 with ⟨p, hq⟩ | ⟨q, σ4, hq, hs4, k4, hk4, hb5⟩
              · refine .inl ⟨p, fun n f hn => ?_⟩
                obtain ⟨n, rfl⟩ : ∃ n', n = n' + 1 := ⟨n - 1, by omega⟩
                exact (start n f).trans ((run_ok (hp n f (by omega))).trans (hq n f (by omega)))
              · refine .inr ⟨q, σ4, fun n f hn => ?_, hs4, k4, hk4, hb5⟩
                obtain ⟨n, rfl⟩ : ∃ n', n = n' + 1 := ⟨n - 1, by omega⟩
                exact (start n f).trans ((run_ok (hp n f (by omega))).trans (hq n f (by omega)))
          · simp only [h3, if_false] at start
            rcases rest (⟨v, o⟩, some m, stack.name, lt) σ1 k1 (Nat.le_refl _) hb2 rfl with ⟨p, hq⟩ | ⟨q, σ4, hq, hs4, k4, hk4, hb5⟩
            · refine .inl ⟨p, fun n f hn => ?_⟩
              obtain ⟨n, rfl⟩ : ∃ n', n = n' + 1 := ⟨n - 1, by omega⟩
              exact (start n f).trans (hq n f (by omega))
            · refine .inr ⟨q, σ4, fun n f hn => ?_, hs4, k4, hk4, hb5⟩
              obtain ⟨n, rfl⟩ : ∃ n', n = n' + 1 := ⟨n - 1, by omega⟩
              exact (start n f).trans (hq n f (by omega))
      · refine .inl ⟨.assertion, fun n f hn => ?_⟩
        obtain ⟨n, rfl⟩ : ∃ n', n = n' + 1 := ⟨n - 1, by omega⟩
        simp only [fromStackTailN, h1, h2, decide_true, decide_false]
        exact (run_ok (a := ()) (σ' := σ) rfl).trans (run_err rfl)
    · refine .inl ⟨.assertion, fun n f hn => ?_⟩
      obtain ⟨n, rfl⟩ : ∃ n', n = n' + 1 := ⟨n - 1, by omega⟩
      simp only [fromStackTailN, h1, decide_false]
      exact run_err rfl

theorem memoFromTail_broken {N : List Name} {k : Nat} {stack : ASt E} {σ : RMem E M} (e : Engine) (hb : Broken σ N k stack.archived) :
    ∃ p, ∀ f, k + 1 ≤ f → memoFromTail (M := M) e stack f σ = .error p := by
  rcases nextArchive_broken hb with hr | ⟨m, v, o, k1, rfl, hb1, hr⟩
  · exact ⟨.unreachable, fun f _ => run_err (hr f)⟩
  · obtain ⟨lt, σ1, hl, ht1⟩ := leaf_turned e stack.current none σ
    have e1 : ∀ f, memoFromTail (M := M) e stack f σ = ((do
        let r ← (fun f => fromStackTailN e f ⟨v, o⟩ m stack.name lt u32Max f : HR E M (FromRes E))
        finishFrom r) : HR E M (HTree M)) f σ1 := by
      intro f
      exact (run_ok (hr f)).trans (run_ok (hl f))
    rcases fromTail_broken e k1 N ⟨v, o⟩ m stack.name lt u32Max σ1 (hb1.turned ht1) with ⟨p, hp⟩ | ⟨r, σ2, hp, hs, -⟩
    · exact ⟨p, fun f hf => (e1 f).trans (run_err (hp f f (by omega)))⟩
    · refine ⟨.assertion, fun f hf => (e1 f).trans ((run_ok (hp f f (by omega))).trans ?_)⟩
      obtain ⟨lev, hlev⟩ := Option.isSome_iff_exists.1 hs
      unfold finishFrom
      simp only [hlev, Option.isNone]
      exact run_err rfl

theorem fromHead_broken (e : Engine) (k : Nat) : ∀ (N : List Name) (stack : ASt E) (first : Nat) (fn : Option Name) (acc : Tr) (max : Nat) (σ : RMem E M),
    Broken σ N k stack.archived → Stuck (k + 1) (fun n => fromStackHeadN e n stack first fn acc max) σ N k := by
  induction k using Nat.strongRecOn with
  | _ k ih =>
    intro N stack first fn acc max σ hb
    by_cases h1 : acc.level < first
    · by_cases h2 : first ≤ max
      · rcases nextArchive_broken hb with hr | ⟨m, v, o, k1, rfl, hb1, hr⟩
        · refine .inl ⟨.unreachable, fun n f hn => ?_⟩
          obtain ⟨n, rfl⟩ : ∃ n', n = n' + 1 := ⟨n - 1, by omega⟩
          simp only [fromStackHeadN, h1, h2, decide_true]
          refine (run_ok (a := ()) (σ' := σ) rfl).trans ((run_ok (a := ()) (σ' := σ) rfl).trans ?_)
          exact run_err (hr f)
        · obtain ⟨lt, σ1, hl, ht1⟩ := leaf_turned e stack.current.reverse none σ
          have hb2 := hb1.turned ht1
          -- what remains after the inner call
          have rest : ∀ (r : FromRes E) (σ2 : RMem E M) (k2 : Nat), k2 ≤ k1 → Broken σ2 N k2 r.1.archived → r.2.1.isSome = true →
              Stuck (k1 + 1) (fun n => do
                let newTree ← bin e acc first fn r.2.2.2
                match r.2.1 with
                | none => return (ASt.new, none, none, newTree)
                | some lev =>
                  if lev ≤ max then fromStackHeadN e n r.1 lev r.2.2.1 newTree max
                  else return (r.1, some lev, r.2.2.1, newTree) : Nat → HR E M (FromRes E)) σ2 N (k1 + 1) := by
            intro r σ2 k2 hk2 hb3 hs
            obtain ⟨lev, hlev⟩ := Option.isSome_iff_exists.1 hs
            rcases bin_turned e acc first fn r.2.2.2 σ2 with ⟨p, hp⟩ | ⟨nt, σ3, hq, ht3⟩
            · exact .inl ⟨p, fun n f _ => run_err (hp f)⟩
            · have hb4 := hb3.turned ht3
              have e1 := fun n f => run_ok (k := fun newTree => (match r.2.1 with
                | none => return (ASt.new, none, none, newTree)
                | some lev =>
                  if lev ≤ max then fromStackHeadN e n r.1 lev r.2.2.1 newTree max
                  else return (r.1, some lev, r.2.2.1, newTree) : HR E M (FromRes E))) (hq f)
              simp only [hlev] at e1 ⊢
              by_cases h3 : lev ≤ max
              · simp only [h3, if_true] at e1 ⊢
                rcases ih k2 (by omega) N r.1 lev r.2.2.1 nt max σ3 hb4 with ⟨p, hp⟩ | ⟨q, σ4, hp, hs4, k4, hk4, hb5⟩
                · exact .inl ⟨p, fun n f hn => (e1 n f).trans (hp n f (by omega))⟩
                · exact .inr ⟨q, σ4, fun n f hn => (e1 n f).trans (hp n f (by omega)), hs4, k4, by omega, hb5⟩
              · simp only [h3, if_false] at e1 ⊢
                exact .inr ⟨_, σ3, fun n f hn => e1 n f, rfl, k2, by omega, hb4⟩
          have start : ∀ n f, fromStackHeadN e (n + 1) stack first fn acc max f σ = ((do
              let (shorter, finalLevel, finalName, small) ←
                (if m ≤ first then fromStackHeadN e n ⟨v, o⟩ m stack.name lt first
                  else return (⟨v, o⟩, some m, stack.name, lt) : HR E M (FromRes E))
              let newTree ← bin e acc first fn small
              match finalLevel with
              | none => return (ASt.new, none, none, newTree)
              | some lev =>
                if lev ≤ max then fromStackHeadN e n shorter lev finalName newTree max
                else return (shorter, some lev, finalName, newTree)) : HR E M (FromRes E)) f σ1 := by
            intro n f
            simp only [fromStackHeadN, h1, h2, decide_true]
            refine (run_ok (a := ()) (σ' := σ) rfl).trans ((run_ok (a := ()) (σ' := σ) rfl).trans ?_)
            exact (run_ok (hr f)).trans (run_ok (hl f))
          by_cases h3 : m ≤ first
          · simp only [h3, if_true] at start
            rcases ih k1 (by omega) N ⟨v, o⟩ m stack.name lt first σ1 hb2 with ⟨p, hp⟩ | ⟨r, σ2, hp, hs2, k2, hk2, hb3⟩
            · refine .inl ⟨p, fun n f hn => ?_⟩
              obtain ⟨n, rfl⟩ : ∃ n', n = n' + 1 := ⟨n - 1, by omega⟩
              exact (start n f).trans (run_err (hp n f (by omega)))
            · rcases rest r σ2 k2 (by omega) hb3 hs2 with ⟨p, hq⟩ | ⟨q, σ4, hq, hs4, k4, hk4, hb5⟩
              · refine .inl ⟨p, fun n f hn => ?_⟩
                obtain ⟨n, rfl⟩ : ∃ n', n = n' + 1 := ⟨n - 1, by omega⟩
                exact (start n f).trans ((run_ok (hp n f (by omega))).trans (hq n f (by omega)))
              · refine .inr ⟨q, σ4, fun n f hn => ?_, hs4, k4, hk4, hb5⟩
                obtain ⟨n, rfl⟩ : ∃ n', n = n' + 1 := ⟨n - 1, by omega⟩
                exact (start n f).trans ((run_ok (hp n f (by omega))).trans (hq n f (by omega)))
          · simp only [h3, if_false] at start
            rcases rest (⟨v, o⟩, some m, stack.name, lt) σ1 k1 (Nat.le_refl _) hb2 rfl with ⟨p, hq⟩ | ⟨q, σ4, hq, hs4, k4, hk4, hb5⟩
            · refine .inl ⟨p, fun n f hn => ?_⟩
              obtain ⟨n, rfl⟩ : ∃ n', n = n' + 1 := ⟨n - 1, by omega⟩
              exact (start n f).trans (hq n f (by omega))
            · refine .inr ⟨q, σ4, fun n f hn => ?_, hs4, k4, hk4, hb5⟩
              obtain ⟨n, rfl⟩ : ∃ n', n = n' + 1 := ⟨n - 1, by omega⟩
              exact (start n f).trans (hq n f (by omega))
      · refine .inl ⟨.assertion, fun n f hn => ?_⟩
        obtain ⟨n, rfl⟩ : ∃ n', n = n' + 1 := ⟨n - 1, by omega⟩
        simp only [fromStackHeadN, h1, h2, decide_true, decide_false]
        exact (run_ok (a := ()) (σ' := σ) rfl).trans (run_err rfl)
    · refine .inl ⟨.assertion, fun n f hn => ?_⟩
      obtain ⟨n, rfl⟩ : ∃ n', n = n' + 1 := ⟨n - 1, by omega⟩
      simp only [fromStackHeadN, h1, decide_false]
      exact run_err rfl

theorem memoFromHead_broken {N : List Name} {k : Nat} {stack : ASt E} {σ : RMem E M} (e : Engine) (hb : Broken σ N k stack.archived) :
    ∃ p, ∀ f, k + 1 ≤ f → memoFromHead (M := M) e stack f σ = .error p := by
  rcases nextArchive_broken hb with hr | ⟨m, v, o, k1, rfl, hb1, hr⟩
  · exact ⟨.unreachable, fun f _ => run_err (hr f)⟩
  · obtain ⟨lt, σ1, hl, ht1⟩ := leaf_turned e stack.current.reverse none σ
    have e1 : ∀ f, memoFromHead (M := M) e stack f σ = ((do
        let r ← (fun f => fromStackHeadN e f ⟨v, o⟩ m stack.name lt u32Max f : HR E M (FromRes E))
        finishFrom r) : HR E M (HTree M)) f σ1 := by
      intro f
      exact (run_ok (hr f)).trans (run_ok (hl f))
    rcases fromHead_broken e k1 N ⟨v, o⟩ m stack.name lt u32Max σ1 (hb1.turned ht1) with ⟨p, hp⟩ | ⟨r, σ2, hp, hs, -⟩
    · exact ⟨p, fun f hf => (e1 f).trans (run_err (hp f f (by omega)))⟩
    · refine ⟨.assertion, fun f hf => (e1 f).trans ((run_ok (hp f f (by omega))).trans ?_)⟩
      obtain ⟨lev, hlev⟩ := Option.isSome_iff_exists.1 hs
      unfold finishFrom
      simp only [hlev, Option.isNone]
      exact run_err rfl

theorem conv_broken {N : List Name} {k : Nat} {stack : ASt E} {σ : RMem E M} (e : Engine) (w : End) (hb : Broken σ N k stack.archived) :
    ∃ p, ∀ f, k + 1 ≤ f → convH (M := M) e w stack f σ = .error p := by
  cases w with
  | tail => exact memoFromTail_broken e hb
  | head => exact memoFromHead_broken e hb

end Iodyn.Heap
