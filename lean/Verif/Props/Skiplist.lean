import Verif.Proof.Skiplist
import Mathlib.Data.List.Induction
/-
Properties C35 to C38: the skip list.
-/
namespace Iodyn.Skip
variable {K V : Type} [DecidableEq K]

/-- Specification for C35: what the most recent update of `k` in a history of one map wrote; `none` if it was
removed or never written. -/
def mostRecent (k : K) (ops : List (MapOp K V)) : Option V :=
  (ops.reverse.findSome? (fun op =>
    match op with
    | .put _ k' v => if k' = k then some (some v) else none
    | .ext _ k' v => if k' = k then some v else none
    | .rem _ k' => if k' = k then some none else none
    | _ => none)).getD none

/-- The calls of C35: `put`, `rem`, `ext` and `get` on handle 0. -/
def OneMap : MapOp K V → Prop
  | .put i _ _ | .ext i _ _ | .rem i _ | .get i _ => i = 0
  | _ => False

theorem mapSpecRun_append (fs : List (FMap K V)) (a b : List (MapOp K V)) :
    mapSpecRun fs (a ++ b) = mapSpecRun fs a ++ mapSpecRun (a.foldl (fun fs op => (mapSpec fs op).1) fs) b := by
  induction a generalizing fs with
  | nil => rfl
  | cons op a ih => simp [mapSpecRun, ih]

omit [DecidableEq K] in
theorem Client.good_append (e : Engine) (c : Client) (a b : List (MapOp K V)) :
    c.Good e (a ++ b) ↔ c.Good e a ∧ (a.foldl Client.next c).Good e b := by
  induction a generalizing c with
  | nil => simp [Client.Good]
  | cons op a ih => simp [Client.Good, ih, and_assoc]

omit [DecidableEq K] in
theorem oneMap_good (e : Engine) (nm : Name) (ops : List (MapOp K V)) (h : ∀ op ∈ ops, OneMap op) :
    Client.Good e { used := [nm], owner := [true] } ops ∧
      ops.foldl Client.next { used := [nm], owner := [true] } = { used := [nm], owner := [true] } := by
  induction ops with
  | nil => exact ⟨trivial, rfl⟩
  | cons op ops ih =>
    have h0 := h op List.mem_cons_self
    obtain ⟨i1, i2⟩ := ih (fun o ho => h o (List.mem_cons_of_mem _ ho))
    cases op <;> simp [OneMap] at h0 <;> subst h0 <;>
      exact ⟨⟨by simp [Client.allows], i1⟩, by simpa [Client.next] using i2⟩

theorem oneMap_fold (ops : List (MapOp K V)) (h : ∀ op ∈ ops, OneMap op) :
    ops.foldl (fun fs op => (mapSpec fs op).1) [fun _ => none] = [fun k => mostRecent k ops] := by
  induction ops using List.reverseRecOn with
  | nil => rfl
  | append_singleton ops op ih =>
    rw [List.foldl_append, ih (fun o ho => h o (List.mem_append_left _ ho))]
    have h0 := h op (by simp)
    have hm : ∀ k, mostRecent k (ops ++ [op]) =
        match op with
        | .put _ k' v => if k = k' then some v else mostRecent k ops
        | .ext _ k' v => if k = k' then v else mostRecent k ops
        | .rem _ k' => if k = k' then none else mostRecent k ops
        | _ => mostRecent k ops := by
      intro k
      unfold mostRecent
      rw [List.reverse_append, List.reverse_singleton, List.singleton_append, List.findSome?_cons]
      cases op <;> simp only
      case put i k' v => by_cases e : k' = k <;> simp [e, eq_comm (a := k)]
      case ext i k' v => by_cases e : k' = k <;> simp [e, eq_comm (a := k)]
      case rem i k' => by_cases e : k' = k <;> simp [e, eq_comm (a := k)]
    cases op <;> simp [OneMap] at h0 <;> subst h0 <;>
      simp only [List.foldl_cons, List.foldl_nil, mapSpec, List.getElem?_cons_zero, List.set_cons_zero] <;>
      congr 1 <;> funext k <;> rw [hm k] <;> rfl

/-- C35: `get` returns what the most recent `put`, `ext` or `rem` of the key wrote, for every hash function,
path length from 1 to 63, either engine and every history. -/
theorem C35_most_recent (e : Engine) (hash : K → Word) (L : Nat) (h1 : 1 ≤ L) (h2 : L ≤ 63) (nm : Name)
    (ops : List (MapOp K V)) (hops : ∀ op ∈ ops, OneMap op) (k : K) :
    ∃ outs, mapRun e hash Store.empty [] (.emp L nm :: ops ++ [.get 0 k]) =
      .ok (outs ++ [.val (mostRecent k ops)]) := by
  have good : Client.Good e { used := [], owner := [] } (.emp L nm :: ops ++ [.get 0 k] : List (MapOp K V)) := by
    refine ⟨⟨h1, h2, by simp⟩, ?_⟩
    obtain ⟨g1, g2⟩ := oneMap_good e nm ops hops
    refine (Client.good_append e _ ops [.get 0 k]).2 ⟨g1, ?_⟩
    have : Client.next ({ used := [], owner := [] } : Client) (.emp L nm : MapOp K V) =
      { used := [nm], owner := [true] } := rfl
    rw [this, g2]
    exact ⟨by simp [Client.allows], trivial⟩
  refine ⟨mapSpecRun [] (.emp L nm :: ops), (mapRun_spec (PoolInv.init e hash) _ good).trans ?_⟩
  rw [mapSpecRun_append]
  congr 2
  have : (MapOp.emp L nm :: ops).foldl (fun fs op => (mapSpec fs op).1) ([] : List (FMap K V)) =
      [fun k => mostRecent k ops] := by
    rw [List.foldl_cons]; exact oneMap_fold ops hops
  rw [this]
  rfl

/-- C35, all answers: histories with any number of handles, also with archive calls, are answered as by plain
functions. -/
theorem C35_histories (e : Engine) (hash : K → Word) (ops : List (MapOp K V))
    (good : Client.Good e { used := [], owner := [] } ops) :
    mapRun e hash Store.empty [] ops = .ok (mapSpecRun [] ops) :=
  mapRun_spec (PoolInv.init e hash) ops good

/-- Three keys with one hash value: C35 at work in a full bucket, path length 3. -/
example : ∃ outs, mapRun .dcg (fun _ : Nat => 5#64) Store.empty []
    (.emp 3 .unit :: [.put 0 1 10, .put 0 2 20, .rem 0 1, .put 0 3 30] ++ [.get 0 2]) =
      .ok (outs ++ [.val (some 20)]) :=
  C35_most_recent .dcg (fun _ : Nat => 5#64) 3 (by decide) (by decide) .unit
    [.put 0 1 10, .put 0 2 20, .rem 0 1, .put 0 3 30] (by simp [OneMap]) 2

/-- C36: `ext` and `rem` answer what `get` would have answered just before. -/
theorem C36_prior (e : Engine) (hash : K → Word) (ops : List (MapOp K V)) (i : Nat) (k : K) (v : Option V)
    (good : Client.Good e { used := [], owner := [] } (ops ++ [.ext i k v])) :
    ∃ outs r, mapRun e hash Store.empty [] (ops ++ [.get i k]) = .ok (outs ++ [r]) ∧
      mapRun e hash Store.empty [] (ops ++ [.ext i k v]) = .ok (outs ++ [r]) ∧
      mapRun e hash Store.empty [] (ops ++ [.rem i k]) = .ok (outs ++ [r]) := by
  have good' := good
  rw [Client.good_append] at good
  obtain ⟨g1, ⟨g2, g3⟩, _⟩ := good
  have gget : Client.Good e { used := [], owner := [] } (ops ++ [.get i k]) := by
    rw [Client.good_append]; exact ⟨g1, g2, trivial⟩
  have grem : Client.Good e { used := [], owner := [] } (ops ++ [.rem i k]) := by
    rw [Client.good_append]; exact ⟨g1, ⟨g2, g3⟩, trivial⟩
  refine ⟨mapSpecRun [] ops,
    .val (((ops.foldl (fun fs op => (mapSpec fs op).1) ([] : List (FMap K V)))[i]?.getD (fun _ => none)) k),
    (mapRun_spec (PoolInv.init e hash) _ gget).trans ?_,
    (mapRun_spec (PoolInv.init e hash) _ good').trans ?_, (mapRun_spec (PoolInv.init e hash) _ grem).trans ?_⟩
  · rw [mapSpecRun_append]; rfl
  · rw [mapSpecRun_append]
    congr 2
    simp only [mapSpecRun, mapSpec]
    split <;> rename_i h <;> simp [h]
  · rw [mapSpecRun_append]
    congr 2
    simp only [mapSpecRun, mapSpec]
    split <;> rename_i h <;> simp [h]

/-- C36: an update of one key of one map does not change any other key of it nor any other map, and sets the
given key. -/
theorem C36_frame (e : Engine) (hash : K → Word) (ops : List (MapOp K V)) (i j : Nat) (k k' : K) (v : Option V)
    (good : Client.Good e { used := [], owner := [] } (ops ++ [.ext i k v]))
    (hj : Client.Good e { used := [], owner := [] } (ops ++ [.get j k'])) :
    ∃ outs r old, mapRun e hash Store.empty [] (ops ++ [.get j k']) = .ok (outs ++ [.val r]) ∧
      mapRun e hash Store.empty [] (ops ++ [.ext i k v, .get j k']) =
        .ok (outs ++ [.val old, .val (if j = i ∧ k' = k then v else r)]) := by
  have good' := good
  rw [Client.good_append] at good
  obtain ⟨g1, ⟨g2, g3⟩, _⟩ := good
  have hj' := (Client.good_append _ _ _ _).1 hj
  have gboth : Client.Good e { used := [], owner := [] } (ops ++ [.ext i k v, .get j k']) := by
    rw [Client.good_append]; exact ⟨g1, ⟨g2, g3⟩, hj'.2.1, trivial⟩
  -- the maps exist: same number of handles in client and specification
  have hlen : ∀ (ops : List (MapOp K V)) (c : Client) (fs : List (FMap K V)), c.owner.length = fs.length →
      c.Good e ops → (ops.foldl Client.next c).owner.length =
        (ops.foldl (fun fs op => (mapSpec fs op).1) fs).length := by
    intro ops
    induction ops with
    | nil => intro c fs h _; exact h
    | cons op ops ih =>
      intro c fs h hg
      refine ih _ _ ?_ hg.2
      have hal := hg.1
      cases op <;> simp only [Client.next, mapSpec, List.length_append, List.length_set, List.length_cons,
        List.length_nil, h]
      case clone i =>
        have : i < fs.length := h ▸ hal
        simp [List.getElem?_eq_getElem this]
      all_goals (split <;> simp)
  have hl := hlen ops { used := [], owner := [] } [] rfl g1
  refine ⟨mapSpecRun [] ops,
    ((ops.foldl (fun fs op => (mapSpec fs op).1) ([] : List (FMap K V)))[j]?.getD (fun _ => none)) k',
    ((ops.foldl (fun fs op => (mapSpec fs op).1) ([] : List (FMap K V)))[i]?.getD (fun _ => none)) k,
    (mapRun_spec (PoolInv.init e hash) _ hj).trans ?_,
    (mapRun_spec (PoolInv.init e hash) _ gboth).trans ?_⟩
  · rw [mapSpecRun_append]; rfl
  · rw [mapSpecRun_append]
    have hi : i < (ops.foldl (fun fs op => (mapSpec fs op).1) ([] : List (FMap K V))).length := by
      rw [← hl]; exact g2
    generalize ops.foldl (fun fs op => (mapSpec fs op).1) ([] : List (FMap K V)) = fs at hi ⊢
    congr 2
    simp only [mapSpecRun, mapSpec, List.getElem?_eq_getElem hi, List.getElem?_set]
    by_cases e1 : i = j
    · subst e1
      simp [hi, FMap.update]
    · simp [e1, Ne.symm e1]

/-- Two keys with the same hash value in two handles: the hypotheses of C36 hold. -/
example : Client.Good .dcg { used := [], owner := [] }
    ([.emp 5 .unit, .put 0 1 10, .clone 0, .archive 1 (.usize 7), .put 1 1 11] ++ [.ext 1 2 (some 5)] :
      List (MapOp Nat Nat)) := by
  simp [Client.Good, Client.allows, Client.next]

/-- C37, path lengths 1 to 63: no history panics. Missing: path length 64, where the claim is false
(`C37_panics_from_64`). -/
theorem C37_no_panic_partial (e : Engine) (hash : K → Word) (ops : List (MapOp K V))
    (good : Client.Good e { used := [], owner := [] } ops) :
    ∃ outs, mapRun e hash Store.empty [] ops = .ok outs := ⟨_, C35_histories e hash ops good⟩

example : Client.Good .naive { used := [], owner := [] }
    ([.emp 63 .unit, .put 0 1 10, .clone 0, .put 1 1 11, .put 0 1 12, .get 0 5, .archive 0 .unit, .rem 1 7] :
      List (MapOp Nat Nat)) := by
  simp [Client.Good, Client.allows, Client.next]

/-! ### No panic, whatever names are used -/

section
variable {σ : Store (Path K V)}

/-- All cells have path vectors of length `L` and refer to existing cells. -/
def AnyInv (L : Nat) (σ : Store (Path K V)) : Prop :=
  ∀ a p, σ.cells a = some p → p.paths.length = L ∧ Masked L p.hash ∧ ∀ b, some b ∈ p.paths → σ.cells b ≠ none

omit [DecidableEq K] in
theorem matchLoop_total (art : Loc) (paths : List (Option Loc)) (key hsh : Word) (n i : Nat) (cur : List (Option Loc))
    (hn : i + n = paths.length) (ne : ¬ ∀ t, i ≤ t → t < paths.length → key.getLsbD t = hsh.getLsbD t) :
    ∃ r : ObsRes K V, matchLoop art paths n i (key >>> i) (hsh >>> i) cur = .ok r ∧ r.kvs = none ∧
      cur.length < r.paths.length ∧ r.paths.length ≤ cur.length + n ∧
      (r.next = none → r.paths.length = cur.length + n) ∧
      (∀ b, some b ∈ r.paths → some b ∈ cur ∨ some b ∈ paths ∨ b = art) ∧
      (∀ b, r.next = some b → some b ∈ paths) := by
  induction n generalizing i cur with
  | zero => exact absurd (fun t h1 h2 => by omega) ne
  | succ n ih =>
    have hi : i < paths.length := by omega
    rw [matchLoop, List.getElem?_eq_getElem hi]
    by_cases hb : key.getLsbD i = hsh.getLsbD i
    · obtain ⟨r, h1, h2, h3, h4, h5, h6, h7⟩ := ih (i+1) (cur ++ [paths[i]]) (by omega) (fun h => ne (fun t ht1 ht2 => by
        by_cases e : t = i
        · subst e; exact hb
        · exact h t (by omega) ht2))
      have e : (key >>> i) &&& 1#64 = (hsh >>> i) &&& 1#64 := (bit_shift _ _ _).2 hb
      simp only [unwrap, bind, Except.bind, e, if_true]
      rw [← BitVec.shiftRight_add, ← BitVec.shiftRight_add, h1]
      simp only [List.length_append, List.length_singleton] at h3 h4 h5
      refine ⟨r, rfl, h2, by omega, by omega, fun h => by have := h5 h; omega, ?_, h7⟩
      intro b hb'
      rcases h6 b hb' with h | h
      · rcases List.mem_append.1 h with h | h
        · exact .inl h
        · rw [List.mem_singleton] at h
          exact .inr (.inl (h ▸ List.getElem_mem hi))
      · exact .inr h
    · have e : ¬ (key >>> i) &&& 1#64 = (hsh >>> i) &&& 1#64 := fun e => hb ((bit_shift _ _ _).1 e)
      simp only [unwrap, bind, Except.bind, e, if_false, pure, Except.pure]
      cases hp : paths[i] with
      | none =>
        refine ⟨_, rfl, rfl, by simp, by simp, by intro _; simp, ?_, by simp⟩
        intro b hb'
        simp [List.mem_append, List.mem_replicate] at hb'
        rcases hb' with h | h
        · exact .inl h
        · exact .inr (.inr h)
      | some a =>
        refine ⟨_, rfl, rfl, by simp, by simp, by simp, ?_, ?_⟩
        · intro b hb'
          simp at hb'
          rcases hb' with h | h
          · exact .inl h
          · exact .inr (.inr h)
        · intro b hb'
          cases hb'
          exact hp ▸ List.getElem_mem hi

omit [DecidableEq K] in
theorem rec_total {L : Nat} (inv : AnyInv L σ) (hL : L ≤ 63) {key : Word} (mk : Masked L key) (fuel : Nat)
    {a : Loc} (ha : σ.cells a ≠ none) (cur : List (Option Loc)) (hc : cur.length ≤ L) (hf : L - cur.length < fuel)
    (hl : ∀ b, some b ∈ cur → σ.cells b ≠ none) :
    ∃ v o, buildPathRec σ L key fuel a cur = .ok (v, o) ∧ v.length = L ∧ ∀ b, some b ∈ v → σ.cells b ≠ none := by
  induction fuel generalizing a cur with
  | zero => omega
  | succ fuel ih =>
    obtain ⟨p, hp⟩ := Option.ne_none_iff_exists'.1 ha
    obtain ⟨p1, p2, p3⟩ := inv a p hp
    have s1 : shiftRight key cur.length = .ok (key >>> cur.length) := by simp [shiftRight]; omega
    have s2 : shiftRight p.hash cur.length = .ok (p.hash >>> cur.length) := by simp [shiftRight]; omega
    by_cases he : p.hash >>> cur.length = key >>> cur.length
    · have hcopy := copyLoop_spec p.paths (L - cur.length) cur.length (by omega)
      refine ⟨cur ++ p.paths.drop cur.length, some p.kvs, ?_, by simp; omega, ?_⟩
      · have h2 : decide ((cur ++ p.paths.drop cur.length).length = L) = true := by simp; omega
        simp only [buildPathRec, Store.force, hp, buildPathStep, s1, s2, he, hcopy, bind, Except.bind, pure,
          Except.pure, if_true]
        rw [h2]; rfl
      · intro b hb
        rcases List.mem_append.1 hb with h | h
        · exact hl b h
        · exact p3 b (List.mem_of_mem_drop h)
    · obtain ⟨r, h1, h2, h3, h4, h5, h6, h7⟩ := matchLoop_total (K := K) (V := V) a p.paths key p.hash (L - cur.length)
        cur.length [] (by omega) (fun h => he (by
          apply BitVec.eq_of_getLsbD_eq
          intro t _
          rw [BitVec.getLsbD_ushiftRight, BitVec.getLsbD_ushiftRight]
          by_cases ht : cur.length + t < L
          · exact (h _ (by omega) (by omega)).symm
          · rw [mk _ (by omega), p2 _ (by omega)]))
      have hlinks : ∀ b, some b ∈ cur ++ r.paths → σ.cells b ≠ none := by
        intro b hb
        rcases List.mem_append.1 hb with h | h
        · exact hl b h
        · rcases h6 b h with h | h | h
          · cases h
          · exact p3 b h
          · rw [h, hp]; simp
      simp only [List.length_nil, Nat.zero_add] at h3 h4 h5
      simp only [buildPathRec, Store.force, hp, buildPathStep, s1, s2, he, bind, Except.bind, if_false, h1, h2]
      cases hn : r.next with
      | none =>
        have h8 := h5 hn
        have h9 : decide ((cur ++ r.paths).length = L) = true := by simp; omega
        refine ⟨cur ++ r.paths, none, ?_, by simp; omega, hlinks⟩
        simp only [h9]; rfl
      | some b =>
        simp only
        exact ih (p3 b (h7 b hn)) (cur ++ r.paths) (by simp; omega) (by simp; omega) hlinks

/-- All handles have path length `L` and existing heads. -/
def AnyPool (L : Nat) (σ : Store (Path K V)) (pool : List Skiplist) : Prop :=
  AnyInv L σ ∧ ∀ s ∈ pool, s.pathLen = L ∧ ∀ a, s.head = some a → σ.cells a ≠ none

omit [DecidableEq K] in
theorem search_total {L : Nat} {pool : List Skiplist} (inv : AnyPool L σ pool) (hL : L ≤ 63) {s : Skiplist} (hs : s ∈ pool)
    {key : Word} (mk : Masked L key) :
    ∃ v o, s.search σ key = .ok (v, o) ∧ (fillEmpty v L).length = L ∧ (o ≠ none → v.length = L) ∧
      ∀ b, some b ∈ v → σ.cells b ≠ none := by
  obtain ⟨h1, h2⟩ := inv.2 s hs
  unfold Skiplist.search
  cases hh : s.head with
  | none => exact ⟨[], none, rfl, by simp [fillEmpty], by simp, by simp⟩
  | some a =>
    obtain ⟨v, o, g1, g2, g3⟩ := rec_total inv.1 hL mk (L + 1) (h2 a hh) [] (by simp) (by simp) (by simp)
    exact ⟨v, o, by simpa [h1] using g1, by simp [fillEmpty, g2], fun _ => g2, g3⟩

theorem ext_total {e : Engine} {hash : K → Word} {L : Nat} {pool : List Skiplist} (inv : AnyPool L σ pool) (h1 : 1 ≤ L)
    (hL : L ≤ 63) {i : Nat} {s : Skiplist} (hs : pool[i]? = some s) (k : K) (v : Option V) :
    ∃ σ' s' old, s.ext e hash σ k v = .ok (σ', s', old) ∧ AnyPool L σ' (pool.set i s') := by
  have hmem : s ∈ pool := List.mem_of_getElem? hs
  have hlen := (inv.2 s hmem).1
  obtain ⟨mask, hm, mk⟩ := masked_and h1 (hash k)
  obtain ⟨w, o, g1, g2, g3, g4⟩ := search_total inv hL hmem mk
  have key : ∀ (p : Path K V) (c : Nat), p.hash = hash k &&& mask → p.paths.length = L →
      (∀ b, some b ∈ p.paths → σ.cells b ≠ none) →
      AnyPool L (σ.cell e (.pair s.name (.usize s.cntr)) p).1
        (pool.set i { s with head := some (σ.cell e (.pair s.name (.usize s.cntr)) p).2, cntr := c }) := by
    intro p c hp1 hp2 hp3
    obtain ⟨c1, c2, c3⟩ := cell_spec e σ (.pair s.name (.usize s.cntr)) p
    have mono : ∀ b, σ.cells b ≠ none → (σ.cell e (.pair s.name (.usize s.cntr)) p).1.cells b ≠ none := by
      intro b hb
      rw [c2]
      simp only [Store.set]
      split
      · simp
      · exact hb
    constructor
    · intro a q ha
      rw [c2] at ha
      simp only [Store.set] at ha
      split at ha
      · cases ha
        exact ⟨hp2, hp1 ▸ mk, fun b hb => mono b (hp3 b hb)⟩
      · obtain ⟨q1, q2, q3⟩ := inv.1 a q ha
        exact ⟨q1, q2, fun b hb => mono b (q3 b hb)⟩
    · intro s' hs'
      rcases List.mem_or_eq_of_mem_set hs' with h | h
      · exact ⟨(inv.2 s' h).1, fun a ha => mono a ((inv.2 s' h).2 a ha)⟩
      · subst h
        refine ⟨hlen, ?_⟩
        intro a ha
        cases ha
        rw [c2, c1]; simp [Store.set]
  simp only [Skiplist.ext, hlen, hm, g1, bind, Except.bind, pure, Except.pure]
  cases o with
  | none =>
    refine ⟨_, _, _, rfl, ?_⟩
    have := key { hash := hash k &&& mask, kvs := [(k, v)], paths := fillEmpty w L } (s.cntr + 1) rfl g2 (by
      intro b hb
      rcases List.mem_append.1 hb with h | h
      · exact g4 b h
      · simp [List.mem_replicate] at h)
    exact hlen ▸ this
  | some kvs =>
    refine ⟨_, _, _, rfl, ?_⟩
    exact hlen ▸ key { hash := hash k &&& mask, kvs := _, paths := w } (s.cntr + 1) rfl (g3 (by simp)) g4

/-- Calls on existing handles where every map has path length `L`; `n` is the number of handles. Names are
arbitrary. -/
def SameLen (L : Nat) : Nat → List (MapOp K V) → Prop
  | _, [] => True
  | n, .emp l _ :: ops => l = L ∧ SameLen L (n+1) ops
  | n, .clone i :: ops => i < n ∧ SameLen L (n+1) ops
  | n, .archive i _ :: ops => i < n ∧ SameLen L n ops
  | n, .ext i _ _ :: ops => i < n ∧ SameLen L n ops
  | n, .put i _ _ :: ops => i < n ∧ SameLen L n ops
  | n, .rem i _ :: ops => i < n ∧ SameLen L n ops
  | n, .get i _ :: ops => i < n ∧ SameLen L n ops

theorem run_total {e : Engine} {hash : K → Word} {L : Nat} {pool : List Skiplist} (inv : AnyPool L σ pool) (h1 : 1 ≤ L)
    (hL : L ≤ 63) (ops : List (MapOp K V)) (ok : SameLen L pool.length ops) :
    ∃ outs, mapRun e hash σ pool ops = .ok outs := by
  induction ops generalizing σ pool with
  | nil => exact ⟨_, rfl⟩
  | cons op ops ih =>
    have fin : ∀ {σ' : Store (Path K V)} {pool' out}, mapStep e hash σ pool op = .ok (σ', pool', out) →
        AnyPool L σ' pool' → SameLen L pool'.length ops → ∃ outs, mapRun e hash σ pool (op :: ops) = .ok outs := by
      intro σ' pool' out hst hinv hok
      obtain ⟨outs, h⟩ := ih hinv hok
      exact ⟨out :: outs, by simp [mapRun, hst, h, bind, Except.bind, pure, Except.pure]⟩
    have look : ∀ i, i < pool.length → ∃ s, pool[i]? = some s :=
      fun i hi => ⟨_, List.getElem?_eq_getElem hi⟩
    cases op with
    | emp l nm =>
      obtain ⟨rfl, o2⟩ := ok
      refine fin rfl ⟨inv.1, ?_⟩ (by simpa using o2)
      intro s hs
      rcases List.mem_append.1 hs with h | h
      · exact inv.2 s h
      · rw [List.mem_singleton] at h; subst h
        exact ⟨rfl, by intro a ha; cases ha⟩
    | clone i =>
      obtain ⟨s, hs⟩ := look i ok.1
      refine fin (by simp only [mapStep, hs, unwrap, bind, Except.bind]; rfl) ⟨inv.1, ?_⟩ (by simpa using ok.2)
      intro s' hs'
      rcases List.mem_append.1 hs' with h | h
      · exact inv.2 s' h
      · rw [List.mem_singleton] at h; subst h; exact inv.2 _ (List.mem_of_getElem? hs)
    | archive i nm =>
      obtain ⟨s, hs⟩ := look i ok.1
      refine fin (by simp only [mapStep, hs, unwrap, bind, Except.bind]; rfl) ⟨inv.1, ?_⟩ (by simpa using ok.2)
      intro s' hs'
      rcases List.mem_or_eq_of_mem_set hs' with h | h
      · exact inv.2 s' h
      · subst h; exact inv.2 s (List.mem_of_getElem? hs)
    | ext i k v =>
      obtain ⟨s, hs⟩ := look i ok.1
      obtain ⟨σ', s', old, g1, g2⟩ := ext_total (e := e) (hash := hash) inv h1 hL hs k v
      exact fin (by simp only [mapStep, hs, unwrap, bind, Except.bind, g1]; rfl) g2 (by simpa using ok.2)
    | put i k v =>
      obtain ⟨s, hs⟩ := look i ok.1
      obtain ⟨σ', s', old, g1, g2⟩ := ext_total (e := e) (hash := hash) inv h1 hL hs k (some v)
      exact fin (by simp only [mapStep, Skiplist.put, hs, unwrap, bind, Except.bind, g1, pure, Except.pure]; rfl) g2
        (by simpa using ok.2)
    | rem i k =>
      obtain ⟨s, hs⟩ := look i ok.1
      obtain ⟨σ', s', old, g1, g2⟩ := ext_total (e := e) (hash := hash) inv h1 hL hs k none
      exact fin (by simp only [mapStep, Skiplist.rem, hs, unwrap, bind, Except.bind, g1]; rfl) g2
        (by simpa using ok.2)
    | get i k =>
      obtain ⟨s, hs⟩ := look i ok.1
      obtain ⟨mask, hm, mk⟩ := masked_and h1 (hash k)
      obtain ⟨w, o, g1, _⟩ := search_total inv hL (List.mem_of_getElem? hs) mk
      have hlen := (inv.2 s (List.mem_of_getElem? hs)).1
      cases o <;>
        exact fin (by simp only [mapStep, Skiplist.get, hlen, hm, hs, unwrap, bind, Except.bind, g1]; rfl) inv
          (by simpa using ok.2)

end

/-- C37, path lengths 1 to 63, whatever names are used (also names used twice and clones extended side by side,
where data can get lost): no history panics. Missing: path length 64, see `C37_panics_from_64`. -/
theorem C37_no_panic_any_names_partial (e : Engine) (hash : K → Word) (L : Nat) (h1 : 1 ≤ L) (hL : L ≤ 63)
    (ops : List (MapOp K V)) (ok : SameLen L 0 ops) : ∃ outs, mapRun e hash Store.empty [] ops = .ok outs :=
  run_total ⟨by intro a p h; simp [Store.empty] at h, by simp⟩ h1 hL ops ok

/-- A history with reused names and conflicting clones. -/
example : SameLen 8 0 ([.emp 8 .unit, .emp 8 .unit, .put 0 1 10, .clone 0, .put 1 1 11, .put 2 1 12, .archive 0 .unit,
    .put 0 3 1, .get 2 3, .rem 0 1] : List (MapOp Nat Nat)) := by
  simp [SameLen]

/-- Hash function of the counterexamples: the two keys differ in bit 63 only. -/
def topBit (k : Bool) : Word := if k then BitVec.ofNat 64 (2^63) else 0#64

theorem topBit_diverge (d : Nat) (k k' : Bool) (h : Diverge (topBit k) (topBit k') d) : d = 63 := by
  have hd : ∀ k t, t ≠ 63 → (topBit k).getLsbD t = false := by
    intro k t ht
    cases k
    · simp [topBit]
    · simp only [topBit, if_true, BitVec.getLsbD_ofNat, Nat.testBit_two_pow]
      simp [Ne.symm ht]
  by_contra hne
  exact h.2 (by rw [hd k d hne, hd k' d hne])

theorem mask_all {L : Nat} (hL : 64 ≤ L) (x : Word) : ∃ m, makeMask L = .ok m ∧ x &&& m = x := by
  refine ⟨maskLoop L 0#64, by simp [makeMask]; omega, ?_⟩
  apply BitVec.eq_of_getLsbD_eq
  intro i hi
  have : i < L := by omega
  rw [BitVec.getLsbD_and, maskLoop_spec]
  simp [hi, this]

/-- C37 fails from path length 64 on (with overflow checks, i.e. a debug build): two keys whose hashes differ
only in bit 63. -/
theorem C37_panics_from_64 (e : Engine) (L : Nat) (hL : 64 ≤ L) :
    mapRun (V := Nat) e topBit Store.empty []
      [.emp L .unit, .put 0 false 10, .put 0 true 20, .get 0 false] = .error .overflow := by
  obtain ⟨m, hm, ht⟩ := mask_all hL (topBit true)
  obtain ⟨m', hm', hf⟩ := mask_all hL (topBit false)
  have : m' = m := by rw [hm] at hm'; cases hm'; rfl
  subst this
  have nag : ¬ Agree (topBit true) (topBit false) L := fun h => by
    have := h 63 (by omega); revert this; decide
  -- the two locations
  let σ0 : Store (Path Bool Nat) := Store.empty
  obtain ⟨a0, ha0⟩ : ∃ a, a = cellLoc e σ0 (.pair .unit (.usize 1)) := ⟨_, rfl⟩
  let p0 : Path Bool Nat := { hash := topBit false, kvs := [(false, some 10)], paths := List.replicate L none }
  obtain ⟨σ1, hσ1⟩ : ∃ σ, σ = (σ0.cell e (.pair .unit (.usize 1)) p0).1 := ⟨_, rfl⟩
  have c0 := cell_spec e σ0 (.pair .unit (.usize 1)) p0
  rw [← ha0, ← hσ1] at c0
  have f0 : σ1.cells a0 = some p0 := by rw [c0.2.1]; simp [Store.set]
  have pair0 : σ0.cell e (.pair .unit (.usize 1)) p0 = (σ1, a0) := by rw [← c0.1, hσ1]
  -- first put
  have e1 : (Skiplist.emp L .unit).ext e topBit σ0 false (some 10) =
      .ok (σ1, { pathLen := L, name := .unit, cntr := 2, head := some a0 }, none) := by
    simp only [Skiplist.ext, Skiplist.emp, Skiplist.search, hm, hf, bind, Except.bind, pure, Except.pure, fillEmpty,
      List.nil_append, List.length_nil, Nat.sub_zero]
    erw [pair0]
    rfl
  -- second put
  have s1 : ∀ k, shiftRight (topBit k) 0 = .ok (topBit k >>> 0) := by intro k; rfl
  have ne1 : ¬ (topBit false >>> 0 = topBit true >>> 0) := by decide
  have ne2 : ¬ (topBit true >>> 0 = topBit false >>> 0) := by decide
  obtain ⟨d, o, d1, d2, d3, d4, d5⟩ := matchLoop_spec (K := Bool) (V := Nat) a0 (List.replicate L none) (topBit true)
    (topBit false) (L - 0) 0 [] (by simp) (fun _ h => absurd h (by simp)) (by simpa using nag)
  have hd := topBit_diverge d _ _ d3
  subst hd
  have ho : o = none := by
    rw [List.getElem?_replicate, if_pos (by omega)] at d4
    cases d4; rfl
  subst ho
  obtain ⟨v1, hv1⟩ : ∃ v : List (Option Loc), v = List.replicate 63 none ++ [some a0] ++ List.replicate (L - 64) none :=
    ⟨_, rfl⟩
  have lv1 : v1.length = L := by rw [hv1]; simp; omega
  have r1 : buildPathRec σ1 L (topBit true) (L+1) a0 [] = .ok (v1, none) := by
    simp only [buildPathRec, Store.force, f0, bind, Except.bind, buildPathStep, List.length_nil, s1, p0, ne1, if_false,
      d5]
    have : ([] : List (Option Loc)) ++ ([] ++ ((List.replicate L none).drop 0).take (63 - 0) ++ [some a0] ++
        (if (none : Option Loc).isSome then [] else List.replicate ((List.replicate L (none : Option Loc)).length - 63 - 1)
          none)) = v1 := by
      have h63 : min 63 L = 63 := by omega
      rw [hv1]; simp [List.take_replicate, h63, Nat.sub_sub]
    rw [this, lv1]
    simp [assert, pure, Except.pure]
  let p1 : Path Bool Nat := { hash := topBit true, kvs := [(true, some 20)], paths := v1 }
  obtain ⟨a1, ha1⟩ : ∃ a, a = cellLoc e σ1 (.pair .unit (.usize 2)) := ⟨_, rfl⟩
  obtain ⟨σ2, hσ2⟩ : ∃ σ, σ = (σ1.cell e (.pair .unit (.usize 2)) p1).1 := ⟨_, rfl⟩
  have c1 := cell_spec e σ1 (.pair .unit (.usize 2)) p1
  rw [← ha1, ← hσ2] at c1
  have pair1 : σ1.cell e (.pair .unit (.usize 2)) p1 = (σ2, a1) := by rw [← c1.1, hσ2]
  have ne : a0 ≠ a1 := by
    rw [ha0, ha1]
    cases e
    · simp only [cellLoc, c0.2.2]; simp
    · simp [cellLoc]
  have f1 : σ2.cells a1 = some p1 := by rw [c1.2.1]; simp [Store.set]
  have f2 : σ2.cells a0 = some p0 := by rw [c1.2.1]; simp [Store.set, ne, f0]
  have e2 : ({ pathLen := L, name := .unit, cntr := 2, head := some a0 } : Skiplist).ext e topBit σ1 true (some 20) =
      .ok (σ2, { pathLen := L, name := .unit, cntr := 3, head := some a1 }, none) := by
    simp only [Skiplist.ext, Skiplist.search, hm, ht, bind, Except.bind, pure, Except.pure, r1, fillEmpty, lv1,
      Nat.sub_self, List.replicate_zero, List.append_nil]
    erw [pair1]
    rfl
  -- get
  obtain ⟨d, o, d1, d2, d3, d4, d5⟩ := matchLoop_spec (K := Bool) (V := Nat) a1 v1 (topBit false)
    (topBit true) (L - 0) 0 [] (by simp [lv1]) (fun _ h => absurd h (by simp))
    (by rw [lv1]; exact fun h => nag h.symm)
  have hd := topBit_diverge d _ _ d3
  subst hd
  have ho : o = some a0 := by
    rw [hv1, List.append_assoc, List.getElem?_append_right (by simp)] at d4
    simp at d4
    exact d4.symm
  subst ho
  have r2 : buildPathRec σ2 L (topBit false) (L+1) a1 [] = .error .overflow := by
    simp only [buildPathRec, Store.force, f1, bind, Except.bind, buildPathStep, List.length_nil, s1, p1, ne2, if_false,
      d5]
    obtain ⟨L', rfl⟩ : ∃ L', L = L' + 1 := ⟨L - 1, by omega⟩
    simp only [buildPathRec, Store.force, f2, bind, Except.bind, buildPathStep]
    have hlen : ([] ++ ([] ++ List.take (63 - 0) (List.drop 0 v1) ++ [some a1] ++
        if (some a0).isSome = true then [] else List.replicate (v1.length - 63 - 1) none)).length = 64 := by
      simp [lv1]; omega
    rw [hlen]
    rfl
  simp only [mapRun, mapStep, Skiplist.put, unwrap, bind, Except.bind, pure, Except.pure, List.nil_append,
    List.getElem?_cons_zero]
  erw [e1]
  simp only [List.set_cons_zero, List.getElem?_cons_zero]
  rw [e2]
  simp only [List.getElem?_cons_zero, Skiplist.get, hm, bind, Except.bind, hf, Skiplist.search, r2]

/-- C37: path length 0 panics at the first access. -/
theorem C37_panics_at_0 (e : Engine) (hash : K → Word) (nm : Name) (k : K) :
    mapRun (V := V) e hash Store.empty [] [.emp 0 nm, .get 0 k] = .error .assertion := rfl

/-- C38: with the incremental engine, if `emp` and `archive` get pairwise different names and clones are archived
before they are extended, all handles behave as independent maps. -/
theorem C38_clones (hash : K → Word) (ops : List (MapOp K V))
    (good : Client.Good .dcg { used := [], owner := [] } ops) :
    mapRun .dcg hash Store.empty [] ops = .ok (mapSpecRun [] ops) := C35_histories .dcg hash ops good

example : Client.Good .dcg { used := [], owner := [] }
    ([.emp 8 .unit, .put 0 1 10, .clone 0, .archive 1 (.usize 1), .put 1 1 11, .put 0 2 12, .clone 1, .get 2 1,
      .archive 2 (.usize 2), .rem 2 1, .get 1 1, .archive 0 (.usize 3), .put 0 1 5] : List (MapOp Nat Nat)) := by
  simp [Client.Good, Client.allows, Client.next]

/-- C38: the condition on clones is needed. Extending a clone that was not archived changes the original. -/
theorem C38_unarchived_clone :
    mapRun (V := Nat) .dcg (fun k : Nat => BitVec.ofNat 64 k) Store.empty []
      [.emp 8 .unit, .clone 0, .put 0 1 10, .put 1 1 20, .get 0 1] =
    .ok [.unit, .unit, .unit, .unit, .val (some 20)] := by decide +kernel

/-- C38: the condition on names is needed. Archiving under a name used before loses a key. -/
theorem C38_name_reuse :
    mapRun (V := Nat) .dcg (fun k : Nat => BitVec.ofNat 64 k) Store.empty []
      [.emp 8 .unit, .put 0 1 10, .archive 0 .unit, .put 0 3 30, .put 0 4 40, .get 0 1] =
    .ok [.unit, .unit, .unit, .unit, .unit, .val none] := by decide +kernel

end Iodyn.Skip
