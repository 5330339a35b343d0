import Verif.Proof.UniqueMany
import Verif.Proof.EditFrom
/-
The leaves of a tree before and after edits that keep most of its nodes.
-/
namespace Iodyn.Incr.Uq
open Iodyn.Heap (Tr Cell Mem nodup_count count_nodup)
open Iodyn.Skip
variable {E M X A B : Type} {S : List Name}

/-! ### Lists -/

theorem sublist_filter [DecidableEq A] {a l : List A} (h : a.Sublist l) (hn : l.Nodup) : a = l.filter (fun x => decide (x ∈ a)) := by
  induction h with
  | slnil => rfl
  | @cons l₁ l₂ x h ih =>
    have hx := (List.nodup_cons.1 hn)
    rw [List.filter_cons, if_neg (by simpa using fun h' => hx.1 (h.subset h'))]
    exact ih hx.2
  | @cons_cons l₁ l₂ x h ih =>
    have hx := (List.nodup_cons.1 hn)
    rw [List.filter_cons, if_pos (by simp)]
    conv => lhs; rw [ih hx.2]
    congr 1
    refine List.filter_congr fun y hy => ?_
    have : y ≠ x := fun e => hx.1 (e ▸ hy)
    simp [this]

theorem sublists_eq [DecidableEq A] {a b l : List A} (ha : a.Sublist l) (hb : b.Sublist l) (hn : l.Nodup) (h : ∀ x, x ∈ a ↔ x ∈ b) : a = b := by
  rw [sublist_filter ha hn, sublist_filter hb hn]
  exact List.filter_congr fun x _ => by simp [h]

theorem map_eq_on {f : A → B} : ∀ {a b : List A}, a.map f = b.map f → (∀ x ∈ a, ∀ y ∈ b, f x = f y → x = y) → a = b
  | [], [], _, _ => rfl
  | [], y :: b, h, _ => by cases h
  | x :: a, [], h, _ => by cases h
  | x :: a, y :: b, h, hi => by
    simp only [List.map_cons, List.cons.injEq] at h
    rw [hi x List.mem_cons_self y List.mem_cons_self h.1, map_eq_on h.2 fun x hx y hy => hi x (List.mem_cons_of_mem _ hx) y (List.mem_cons_of_mem _ hy)]

/-! ### Parts of a tree that stay -/

/-- A leaf, or a part of the tree that stays. -/
abbrev Part (E M : Type) := Leaf E ⊕ (Option Name × Tree (Tr × TreeData E M))

/-- The part starts here: a name that is not in `S`. -/
def stays (S : List Name) (n : Option Name) : Bool := n.any fun m => decide (m ∉ S)

/-- The tree without the nodes at the top: leaves, and nodes with a name that is not in `S`, with what is below. -/
def cut (S : List Name) : Option Name → Tree (Tr × TreeData E M) → List (Part E M)
  | _, .nil => []
  | c, .node lv n (h, d) l r =>
    if stays S n then [.inr (c, .node lv n (h, d) l r)]
    else if l.isSome || r.isSome then cut S c l ++ cut S n r else (ownLeaf c h d).map .inl

/-- The leaves of a part. -/
def Part.leaves : Part E M → List (Leaf E)
  | .inl l => [l]
  | .inr q => leavesOf q.1 q.2

/-- The parts with more than leaves. -/
def rights (a : List (Part E M)) : List (Option Name × Tree (Tr × TreeData E M)) := a.filterMap Sum.getRight?

theorem mem_rights {a : List (Part E M)} {q : Option Name × Tree (Tr × TreeData E M)} : q ∈ rights a ↔ .inr q ∈ a := by
  unfold rights
  rw [List.mem_filterMap]
  constructor
  · rintro ⟨x, hx, e⟩
    cases x with
    | inl l => cases e
    | inr q' => cases e; exact hx
  · exact fun h => ⟨_, h, rfl⟩

theorem rights_append (a b : List (Part E M)) : rights (a ++ b) = rights a ++ rights b := List.filterMap_append

theorem cut_leaves : ∀ (v : Tree (Tr × TreeData E M)) (c : Option Name), Chunked (plain v) → leavesOf c v = (cut S c v).flatMap Part.leaves := by
  intro v
  induction v with
  | nil => intro c h; cases h
  | node lv n q l r ihl ihr =>
    intro c h
    obtain ⟨t, d⟩ := q
    rw [cut]
    split
    · simp [Part.leaves]
    · rcases chunked_cases h with ⟨rfl, rfl, x, w, rfl⟩ | ⟨hl, hr, m, -, h1⟩
      · simp [Tree.isSome, ownLeaf, Part.leaves, leavesOf]
      · have hb : (l.isSome || r.isSome) = true := by cases l with | nil => cases hl | node => rfl
        rw [if_pos hb, List.flatMap_append, ← ihl c hl, ← ihr n hr, (h1 c Stage.start).1]

theorem cut_length : ∀ (v : Tree (Tr × TreeData E M)) (c : Option Name), Chunked (plain v) → (cut S c v).length ≤ ((nodeNames v).filter (fun x => decide (x ∈ S))).length + 1 := by
  intro v
  induction v with
  | nil => intro c h; cases h
  | node lv n q l r ihl ihr =>
    intro c h
    obtain ⟨t, d⟩ := q
    rw [cut]
    split
    · simp
    · next hs =>
      rcases chunked_cases h with ⟨rfl, rfl, x, w, rfl⟩ | ⟨hl, hr, m, rfl, h1⟩
      · simp [Tree.isSome, ownLeaf]
      · have hb : (l.isSome || r.isSome) = true := by cases l with | nil => cases hl | node => rfl
        have hm : m ∈ S := by simpa [stays] using hs
        rw [if_pos hb, List.length_append]
        have h1 := ihl c hl
        have h2 := ihr (some m) hr
        simp only [nodeNames, Option.toList_some, List.filter_append, List.length_append]
        have : (List.filter (fun x => decide (x ∈ S)) [m]).length = 1 := by simp [hm]
        omega

theorem cut_short {v : Tree (Tr × TreeData E M)} (c : Option Name) (hc : Chunked (plain v)) (hn : (nodeNames v).Nodup) : (cut S c v).length ≤ S.length + 1 := by
  refine Nat.le_trans (cut_length v c hc) (Nat.add_le_add_right ?_ 1)
  refine ((hn.filter _).subperm fun x hx => ?_).length_le
  simpa using (List.mem_filter.1 hx).2

theorem cut_starts : ∀ (v : Tree (Tr × TreeData E M)) (a : Name) {q : Option Name × Tree (Tr × TreeData E M)}, Chunked (plain v) → .inr q ∈ cut S (some a) v →
    (∃ n, q.1 = some n) ∧ Chunked (plain q.2) := by
  intro v
  induction v with
  | nil => intro a q h; cases h
  | node lv n q l r ihl ihr =>
    intro a q' h hq
    obtain ⟨t, d⟩ := q
    rw [cut] at hq
    split at hq
    · simp only [List.mem_singleton, Sum.inr.injEq] at hq
      subst hq
      exact ⟨⟨a, rfl⟩, h⟩
    · rcases chunked_cases h with ⟨rfl, rfl, x, w, rfl⟩ | ⟨hl, hr, m, rfl, h1⟩
      · simp [Tree.isSome, ownLeaf] at hq
      · have hb : (l.isSome || r.isSome) = true := by cases l with | nil => cases hl | node => rfl
        rw [if_pos hb, List.mem_append] at hq
        rcases hq with hq | hq
        · exact ihl a hl hq
        · exact ihr m hr hq

/-- The name of a node. -/
def nameOf {D : Type} : Tree D → Option Name
  | .nil => none
  | .node _ n _ _ _ => n

theorem cut_mem : ∀ {v : Tree (Tr × TreeData E M)} {c : Option Name} {q : Option Name × Tree (Tr × TreeData E M)}, .inr q ∈ cut S c v →
    q ∈ subsFrom c v ∧ stays S (nameOf q.2) = true
  | .nil, c, q, h => by cases h
  | .node lv n (t, d) l r, c, q, h => by
    rw [cut] at h
    split at h
    · next hs =>
      simp only [List.mem_singleton, Sum.inr.injEq] at h
      subst h
      exact ⟨List.mem_cons_self, hs⟩
    · split at h
      · rcases List.mem_append.1 h with h | h
        · have := cut_mem h
          exact ⟨List.mem_cons_of_mem _ (List.mem_append_left _ this.1), this.2⟩
        · have := cut_mem h
          exact ⟨List.mem_cons_of_mem _ (List.mem_append_right _ this.1), this.2⟩
      · simp at h

theorem cut_cover {q : Option Name × Tree (Tr × TreeData E M)} (hs : stays S (nameOf q.2) = true) : ∀ {v : Tree (Tr × TreeData E M)} {c : Option Name}, q ∈ subsFrom c v →
    ∃ p, .inr p ∈ cut S c v ∧ q ∈ subsFrom p.1 p.2
  | .nil, c, h => by cases h
  | .node lv n (t, d) l r, c, h => by
    rw [cut]
    split
    · exact ⟨_, List.mem_singleton_self _, h⟩
    · next hns =>
      simp only [subsFrom, List.mem_cons, List.mem_append] at h
      rcases h with h | h | h
      · subst h
        exact absurd hs hns
      · have hb : (l.isSome || r.isSome) = true := by cases l with | nil => cases h | node => rfl
        rw [if_pos hb]
        obtain ⟨p, h1, h2⟩ := cut_cover hs h
        exact ⟨p, List.mem_append_left _ h1, h2⟩
      · have hb : (l.isSome || r.isSome) = true := by cases r with | nil => cases h | node => simp [Tree.isSome]
        rw [if_pos hb]
        obtain ⟨p, h1, h2⟩ := cut_cover hs h
        exact ⟨p, List.mem_append_right _ h1, h2⟩

theorem cut_names : ∀ (v : Tree (Tr × TreeData E M)) (c : Option Name), ((rights (cut S c v)).flatMap fun q => inNames q.2).Sublist (inNames v)
  | .nil, c => List.Sublist.refl _
  | .node lv n (t, d) l r, c => by
    rw [cut]
    split
    · simp [rights]
    · split
      · rw [rights_append, List.flatMap_append, inNames, List.append_assoc]
        exact (cut_names l c).append ((cut_names r n).trans (List.sublist_append_right _ _))
      · have : rights ((ownLeaf c t d).map Sum.inl : List (Part E M)) = [] := by
          cases d <;> simp [ownLeaf, rights]
        rw [this]
        exact List.nil_sublist _

theorem stays_name {w : Tree (Tr × TreeData E M)} (h : stays S (nameOf w) = true) : ∃ lv m d l r, w = .node lv (some m) d l r ∧ m ∉ S := by
  cases w with
  | nil => cases h
  | node lv n d l r =>
    cases n with
    | none => cases h
    | some m => exact ⟨lv, m, d, l, r, rfl, by simpa [nameOf, stays] using h⟩

theorem subsFrom_size {D : Type} {q : Option Name × Tree D} : ∀ {v : Tree D} {c : Option Name}, q ∈ subsFrom c v → q = (c, v) ∨ q.2.size < v.size
  | .nil, c, h => by cases h
  | .node lv n d l r, c, h => by
    simp only [subsFrom, List.mem_cons, List.mem_append] at h
    simp only [Tree.size]
    rcases h with h | h | h
    · exact .inl h
    · right
      rcases subsFrom_size h with rfl | h
      · simp only; omega
      · omega
    · right
      rcases subsFrom_size h with rfl | h
      · simp only; omega
      · omega

theorem subsFrom_names {D : Type} {q : Option Name × Tree D} {v : Tree D} {c : Option Name} (h : q ∈ subsFrom c v) : inNames q.2 ⊆ inNames v :=
  inNames_sub (subsFrom_subs.2 ⟨q.1, h⟩)

/-- Parts with a common name are the same. -/
theorem rights_apart {v : Tree (Tr × TreeData E M)} {c : Option Name} (hn : (inNames v).Nodup) {p q : Option Name × Tree (Tr × TreeData E M)} {x : Name}
    (hp : .inr p ∈ cut S c v) (hq : .inr q ∈ cut S c v) (h1 : x ∈ inNames p.2) (h2 : x ∈ inNames q.2) : p = q := by
  have hd := (List.nodup_flatMap.1 ((cut_names (S := S) v c).nodup hn)).2
  by_contra hne
  haveI : Std.Symm fun a b : Option Name × Tree (Tr × TreeData E M) => List.Disjoint (inNames a.2) (inNames b.2) := ⟨fun _ _ h => h.symm⟩
  exact List.Pairwise.forall (R := fun a b : Option Name × Tree (Tr × TreeData E M) => List.Disjoint (inNames a.2) (inNames b.2)) hd (mem_rights.2 hp) (mem_rights.2 hq) hne h1 h2

/-- If the named nodes not in `S` are the same in both trees then so are the parts. -/
theorem rights_mem {v v' : Tree (Tr × TreeData E M)} {c : Option Name} (hn : (inNames v').Nodup)
    (h : ∀ q, stays S (nameOf q.2) = true → (q ∈ subsFrom c v ↔ q ∈ subsFrom c v')) {p : Option Name × Tree (Tr × TreeData E M)} (hp : .inr p ∈ cut S c v') : .inr p ∈ cut S c v := by
  obtain ⟨h1, h2⟩ := cut_mem hp
  obtain ⟨p3, h3, h4⟩ := cut_cover h2 ((h p h2).2 h1)
  obtain ⟨h5, h6⟩ := cut_mem h3
  obtain ⟨p4, h7, h8⟩ := cut_cover h6 ((h p3 h6).1 h5)
  obtain ⟨lv, m, d, l, r, e, -⟩ := stays_name h2
  have hm : m ∈ inNames p.2 := by rw [e]; simp [inNames]
  obtain rfl := rights_apart hn hp h7 hm (subsFrom_names h8 (subsFrom_names h4 hm))
  rcases subsFrom_size h4 with e4 | e4
  · rw [show p = p3 from e4]; exact h3
  · rcases subsFrom_size h8 with e8 | e8
    · rw [show p3 = p from e8] at h3; exact h3
    · omega

theorem rights_eq {v v' : Tree (Tr × TreeData E M)} {c : Option Name} (hs : (inNames v).Sublist (inNames v')) (hn : (inNames v').Nodup)
    (h : ∀ q, stays S (nameOf q.2) = true → (q ∈ subsFrom c v ↔ q ∈ subsFrom c v')) : rights (cut S c v) = rights (cut S c v') := by
  have hmem : ∀ p, .inr p ∈ cut S c v ↔ .inr p ∈ cut S c v' := fun p =>
    ⟨rights_mem (hs.nodup hn) fun q hq => (h q hq).symm, rights_mem hn h⟩
  let key : Option Name × Tree (Tr × TreeData E M) → Name := fun q => (nameOf q.2).getD .unit
  have hkey : ∀ (w : Tree (Tr × TreeData E M)) {q : Option Name × Tree (Tr × TreeData E M)}, q ∈ rights (cut S c w) → key q ∈ inNames q.2 := by
    intro w q hq
    obtain ⟨lv, m, d, l, r, e, -⟩ := stays_name (cut_mem (mem_rights.1 hq)).2
    simp only [key]
    rw [e]
    simp [nameOf, inNames]
  have hsub : ∀ l : List (Option Name × Tree (Tr × TreeData E M)), (∀ q ∈ l, key q ∈ inNames q.2) → (l.map key).Sublist (l.flatMap fun q => inNames q.2) := by
    intro l
    induction l with
    | nil => exact fun _ => List.Sublist.refl _
    | cons q l ih =>
      intro hq
      have h1 := ih fun q hq' => hq q (List.mem_cons_of_mem _ hq')
      have h2 := (List.singleton_sublist.2 (hq q List.mem_cons_self)).append h1
      exact h2
  refine map_eq_on (f := key) (sublists_eq ((hsub _ fun q hq => hkey v hq).trans ((cut_names v c).trans hs)) ((hsub _ fun q hq => hkey v' hq).trans (cut_names v' c)) hn ?_) ?_
  · intro x
    simp only [List.mem_map]
    constructor
    · rintro ⟨q, hq, rfl⟩
      exact ⟨q, mem_rights.2 ((hmem q).1 (mem_rights.1 hq)), rfl⟩
    · rintro ⟨q, hq, rfl⟩
      exact ⟨q, mem_rights.2 ((hmem q).2 (mem_rights.1 hq)), rfl⟩
  · intro p hp q hq e
    exact rights_apart hn ((hmem p).1 (mem_rights.1 hp)) (mem_rights.1 hq) (hkey v hp) (e ▸ hkey v' hq)

/-- Sharing in both directions. -/
theorem shared_both {D : Type} {v v' : Tree D} {c : Option Name} (hsh : SharedFrom S c v v') (hs : inNames v ⊆ inNames v') (hn : (nodeNames v).Nodup) (q : Option Name × Tree D)
    (hq : ∃ lv m d l r, q.2 = .node lv (some m) d l r ∧ m ∉ S) : q ∈ subsFrom c v ↔ q ∈ subsFrom c v' := by
  obtain ⟨s, w⟩ := q
  obtain ⟨lv, m, d, l, r, rfl, hm⟩ := hq
  refine ⟨fun h => ?_, fun h => hsh s lv m d l r h hm⟩
  have h1 : m ∈ inNames v' := hs (subsFrom_names h (by simp [inNames]))
  have find : ∀ (v : Tree D) (c : Option Name), m ∈ inNames v → ∃ s lv d l r, (s, .node lv (some m) d l r) ∈ subsFrom c v := by
    intro v
    induction v with
    | nil => intro c h; cases h
    | node lv n d l r ihl ihr =>
      intro c h
      simp only [inNames, List.mem_append] at h
      rcases h with (h | h) | h
      · obtain ⟨s, lv', d', l', r', h'⟩ := ihl c h
        exact ⟨s, lv', d', l', r', List.mem_cons_of_mem _ (List.mem_append_left _ h')⟩
      · cases n with
        | none => cases h
        | some n =>
          simp only [Option.toList_some, List.mem_singleton] at h
          subst h
          exact ⟨c, lv, d, l, r, List.mem_cons_self⟩
      · obtain ⟨s, lv', d', l', r', h'⟩ := ihr n h
        exact ⟨s, lv', d', l', r', List.mem_cons_of_mem _ (List.mem_append_right _ h')⟩
  obtain ⟨s2, lv2, d2, l2, r2, h2⟩ := find v' c h1
  have h3 := hsh _ _ _ _ _ _ h2 hm
  have once : ∀ (v : Tree D) (c : Option Name), (nodeNames v).Nodup → ∀ {p q : Option Name × Tree D}, nameOf p.2 = some m → nameOf q.2 = some m → p ∈ subsFrom c v → q ∈ subsFrom c v →
      p = q := by
    intro v
    have inn : ∀ {w : Tree D} {c : Option Name} {p : Option Name × Tree D}, nameOf p.2 = some m → p ∈ subsFrom c w → m ∈ nodeNames w := by
      intro w c p hp h
      rw [← List.count_pos_iff, ← inNames_count, List.count_pos_iff]
      refine subsFrom_names h ?_
      obtain ⟨s, p⟩ := p
      cases p with
      | nil => cases hp
      | node lv n d l r => cases hp; simp [inNames]
    induction v with
    | nil => intro c _ p q _ _ h; cases h
    | node lv n d l r ihl ihr =>
      intro c hn p q hp hq h1 h2
      simp only [nodeNames] at hn
      have hc := nodup_count hn m
      simp only [List.count_append] at hc
      have pos : ∀ {l : List Name}, m ∈ l → 0 < l.count m := fun h => List.count_pos_iff.2 h
      have hl := List.Nodup.of_append_left (count_nodup fun x => by have := nodup_count hn x; simp only [List.count_append] at this ⊢; omega : (nodeNames l ++ nodeNames r).Nodup)
      have hr := List.Nodup.of_append_right (count_nodup fun x => by have := nodup_count hn x; simp only [List.count_append] at this ⊢; omega : (nodeNames l ++ nodeNames r).Nodup)
      have root : ∀ {p : Option Name × Tree D}, nameOf p.2 = some m → p = (c, .node lv n d l r) → 0 < n.toList.count m := by
        rintro p hp rfl
        cases hp
        simp
      simp only [subsFrom, List.mem_cons, List.mem_append] at h1 h2
      rcases h1 with h1 | h1 | h1 <;> rcases h2 with h2 | h2 | h2
      · rw [h1, h2]
      · have := root hp h1; have := pos (inn hq h2); omega
      · have := root hp h1; have := pos (inn hq h2); omega
      · have := root hq h2; have := pos (inn hp h1); omega
      · exact ihl c hl hp hq h1 h2
      · have := pos (inn hp h1); have := pos (inn hq h2); omega
      · have := root hq h2; have := pos (inn hp h1); omega
      · have := pos (inn hp h1); have := pos (inn hq h2); omega
      · exact ihr n hr hp hq h1 h2
  rw [once v c hn (p := (s, .node lv (some m) d l r)) (q := (s2, .node lv2 (some m) d2 l2 r2)) rfl rfl h h3]
  exact h2

/-! ### The leaves -/

theorem rights_nil {a : List (Part E M)} (h : rights a = []) : ∃ P : List (Leaf E), a = P.map .inl := by
  induction a with
  | nil => exact ⟨[], rfl⟩
  | cons x a ih =>
    cases x with
    | inl l =>
      obtain ⟨P, rfl⟩ := ih h
      exact ⟨l :: P, rfl⟩
    | inr q => cases h

theorem rights_cons {q : Option Name × Tree (Tr × TreeData E M)} {rs : List (Option Name × Tree (Tr × TreeData E M))} {a : List (Part E M)} (h : rights a = q :: rs) :
    ∃ (P : List (Leaf E)) (a' : List (Part E M)), a = P.map .inl ++ .inr q :: a' ∧ rights a' = rs := by
  induction a with
  | nil => cases h
  | cons x a ih =>
    cases x with
    | inl l =>
      obtain ⟨P, a', rfl, h'⟩ := ih h
      exact ⟨l :: P, a', rfl, h'⟩
    | inr q' =>
      have : q' :: rights a = q :: rs := h
      cases this
      exact ⟨[], a, rfl, rfl⟩

theorem inl_leaves (P : List (Leaf E)) : (P.map (.inl : Leaf E → Part E M)).flatMap Part.leaves = P := by
  induction P with
  | nil => rfl
  | cons l P ih => rw [List.map_cons, List.flatMap_cons, ih]; rfl

theorem elems_length {g : Nat} : ∀ {ls : List (Leaf E)}, (∀ l ∈ ls, l.2.2.length ≤ g) → (leafElems ls).length ≤ ls.length * g
  | [], _ => Nat.zero_le _
  | l :: ls, h => by
    have h1 := h l List.mem_cons_self
    have h2 := elems_length fun l' hl => h l' (List.mem_cons_of_mem _ hl)
    have e : leafElems (l :: ls) = l.2.2 ++ leafElems ls := rfl
    rw [e, List.length_append, List.length_cons, Nat.add_mul]
    omega

/-- The edits between the parts that stay. -/
theorem blocks_of {g : Nat} : ∀ (rs : List (Option Name × Tree (Tr × TreeData E M))) {a b : List (Part E M)}, rights a = rs → rights b = rs →
    (∀ q ∈ rs, (∃ n, q.1 = some n) ∧ Chunked (plain q.2)) → (∀ l ∈ a.flatMap Part.leaves, l.2.2.length ≤ g) → (∀ l ∈ b.flatMap Part.leaves, l.2.2.length ≤ g) →
    ∃ (bs : List (Block E)) (A B : List (Leaf E)), a.flatMap Part.leaves = leavesBefore bs ++ A ∧ b.flatMap Part.leaves = leavesAfter bs ++ B ∧
      (bs.map fun b => b.new.length + 1).sum + B.length = b.length ∧ (bs.map fun b => b.elems.length).sum ≤ (a.length + b.length) * g ∧ ∀ b ∈ bs, ∃ n, b.next.1 = some n := by
  intro rs
  induction rs with
  | nil =>
    intro a b ha hb _ _ _
    obtain ⟨P, rfl⟩ := rights_nil ha
    obtain ⟨Q, rfl⟩ := rights_nil hb
    exact ⟨[], P, Q, inl_leaves P, inl_leaves Q, by simp, by simp, fun b hb => by cases hb⟩
  | cons q rs ih =>
    intro a b ha hb hq hga hgb
    obtain ⟨P, a, rfl, ha'⟩ := rights_cons ha
    obtain ⟨Q, b, rfl, hb'⟩ := rights_cons hb
    have flat : ∀ (P : List (Leaf E)) (a : List (Part E M)), (P.map (Sum.inl : Leaf E → Part E M) ++ Sum.inr q :: a).flatMap Part.leaves = P ++ (leavesOf q.1 q.2 ++ a.flatMap Part.leaves) := by
      intro P a
      rw [List.flatMap_append, inl_leaves, List.flatMap_cons]
      rfl
    rw [flat] at hga hgb ⊢
    rw [flat]
    obtain ⟨bs, A, B, h1, h2, h3, h4, h5⟩ := ih ha' hb' (fun q' h => hq q' (List.mem_cons_of_mem _ h))
      (fun l hl => hga l (List.mem_append_right _ (List.mem_append_right _ hl))) (fun l hl => hgb l (List.mem_append_right _ (List.mem_append_right _ hl)))
    obtain ⟨⟨n, hn⟩, hc⟩ := hq q List.mem_cons_self
    obtain ⟨ns, e, -⟩ := leaves_names q.2 q.1 hc
    cases hl : leavesOf q.1 q.2 with
    | nil => rw [hl] at e; cases e
    | cons l K =>
      rw [hl, List.map_cons, List.cons.injEq] at e
      rw [hl] at hga hgb
      refine ⟨⟨P, Q, l, K⟩ :: bs, A, B, ?_, ?_, ?_, ?_, ?_⟩
      · rw [h1]; simp [leavesBefore]
      · rw [h2]; simp [leavesAfter]
      · simp only [List.map_cons, List.sum_cons, List.length_append, List.length_map, List.length_cons]
        omega
      · have h6 : (Block.elems ⟨P, Q, l, K⟩).length ≤ (P ++ Q ++ [l]).length * g := elems_length fun x hx => by
          rcases List.mem_append.1 hx with hx | hx
          · rcases List.mem_append.1 hx with hx | hx
            · exact hga x (List.mem_append_left _ hx)
            · exact hgb x (List.mem_append_left _ hx)
          · rw [List.mem_singleton] at hx
            subst hx
            exact hga x (List.mem_append_right _ (List.mem_append_left _ List.mem_cons_self))
        simp only [List.map_cons, List.sum_cons]
        refine Nat.le_trans (Nat.add_le_add h6 h4) ?_
        rw [← Nat.add_mul]
        refine Nat.mul_le_mul_right _ ?_
        simp only [List.length_append, List.length_map, List.length_cons, List.length_nil]
        omega
      · intro b' hb'
        rcases List.mem_cons.1 hb' with rfl | hb'
        · exact ⟨n, e.1.trans hn⟩
        · exact h5 b' hb'

theorem kept_sublist : ∀ bs : List (Block E), (keptElems bs).Sublist (leafElems (leavesAfter bs))
  | [] => List.Sublist.refl _
  | b :: bs => by
    have e1 : keptElems (b :: bs) = leafElems b.kept ++ keptElems bs := rfl
    have e2 : leavesAfter (b :: bs) = (b.new ++ [b.next]) ++ (b.kept ++ leavesAfter bs) := by simp [leavesAfter]
    rw [e1, e2, leafElems_append, leafElems_append (b.kept)]
    exact ((List.Sublist.refl _).append (kept_sublist bs)).trans (List.sublist_append_right _ _)

theorem leaves_full : ∀ (w : Tree (Tr × TreeData E M)) (c : Option Name), Chunked (plain w) → ∀ x ∈ leavesOf c w, x.2.2 ≠ [] := by
  intro w
  induction w with
  | nil => intro c hc; cases hc
  | node lv nm q l r ihl ihr =>
    intro c hc
    obtain ⟨t, d⟩ := q
    rcases chunked_cases hc with ⟨rfl, rfl, x, u, rfl⟩ | ⟨hl, hr, m, -, h1⟩
    · intro y hy
      simp only [leavesOf, Tree.isSome, Bool.or_self, Bool.false_eq_true, if_false, ownLeaf, List.mem_singleton] at hy
      subst hy
      simp
    · intro y hy
      rw [(h1 c Stage.start).1, List.mem_append] at hy
      rcases hy with hy | hy
      · exact ihl c hl y hy
      · exact ihr nm hr y hy

/-- The mean number of leaves that depend on something else after edits that keep all nodes but those with names in `S`. -/
theorem changed_mean {L : Nat} [DecidableEq E] [Fintype E] (hL : L ≤ 63) {v v' : Tree (Tr × TreeData E M)} (hu : UqTree v) (hu' : UqTree v') (hsh : SharedFrom S startName v v')
    (hs : (inNames v).Sublist (inNames v')) {g r m : Nat} (hg : ∀ l ∈ leavesOf startName v, l.2.2.length ≤ g) (hg' : ∀ l ∈ leavesOf startName v', l.2.2.length ≤ g)
    (hr : ∀ y, (leafElems (leavesOf startName v')).count y ≤ r) (hm : (leafElems (leavesOf startName v')).toFinset.card ≤ m) :
    ∑ w : E → Fin (2 ^ 64), changedLeaves L (hashOf w) v v' ≤ (2 ^ 64) ^ Fintype.card E *
      ((S.length + 1) + (2 * (S.length + 1) * g) * (r * (Nat.clog 2 m + 2 + m / 2 ^ L))) := by
  have hr' : rights (cut S startName v) = rights (cut S startName v') :=
    rights_eq hs (inNames_nodup hu'.names) fun q hq => shared_both hsh hs.subset hu.names q (stays_name hq)
  have e1 := cut_leaves (S := S) v startName hu.chunked
  have e2 := cut_leaves (S := S) v' startName hu'.chunked
  have k1 := cut_short (S := S) startName hu.chunked hu.names
  have k2 := cut_short (S := S) startName hu'.chunked hu'.names
  obtain ⟨bs, A, B, h1, h2, h3, h4, h5⟩ := blocks_of (g := g) _ rfl hr'.symm (fun q hq => cut_starts v _ hu.chunked (mem_rights.1 hq)) (by rw [← e1]; exact hg) (by rw [← e2]; exact hg')
  rw [← e1] at h1
  rw [← e2] at h2
  have c1 : ∀ w : E → Fin (2 ^ 64), changedLeaves L (hashOf w) v v' ≤ blockCost L (hashOf w) bs + B.length := by
    intro w
    unfold changedLeaves uqViews
    have := blocks_changed (L := L) (hash := hashOf w) (leafViews L (hashOf w) Stage.start (leavesOf startName v)) A B bs (hs := []) (s := Stage.start) (t := Stage.start)
      ⟨.same _, rfl, rfl, fun q hq => by cases hq⟩ h5 (fun l hl => leaves_full v startName hu.chunked l (by rw [h1]; exact List.mem_append_left _ hl))
      (fun w hw => by rw [h1]; exact hw)
    rw [← h2] at this
    have z : touches L (hashOf w) [] (keptElems bs) = 0 := rfl
    omega
  have sub : (keptElems bs).Sublist (leafElems (leavesOf startName v')) := by
    rw [h2, leafElems_append]
    exact (kept_sublist bs).trans (List.sublist_append_left _ _)
  have c2 := blocks_mean (L := L) (r := r) (m := m) hL bs (fun y => Nat.le_trans (sub.count_le y) (hr y)) (Nat.le_trans (Finset.card_le_card fun y hy => by
    rw [List.mem_toFinset] at hy ⊢
    exact sub.subset hy) hm)
  refine Nat.le_trans (Finset.sum_le_sum fun w _ => c1 w) ?_
  rw [Finset.sum_add_distrib, Finset.sum_const, Finset.card_univ, Fintype.card_fun, Fintype.card_fin, smul_eq_mul]
  refine Nat.le_trans (Nat.add_le_add_right c2 _) ?_
  rw [← Nat.mul_add]
  refine Nat.mul_le_mul_left _ ?_
  have c3 := Nat.mul_le_mul_right (r * (Nat.clog 2 m + 2 + m / 2 ^ L)) (Nat.le_trans h4 (Nat.mul_le_mul_right g (show _ ≤ 2 * (S.length + 1) by omega)))
  omega

end Iodyn.Incr.Uq
