import Verif.Proof.UniqueRec
import Verif.Proof.IncrLrProg
import Verif.Proof.IncrCost
/-
The work of `unique_elms` with memoisation, from the records of runs without.
-/
namespace Iodyn.Incr.Uq
open Iodyn.Heap (Tr Cell Mem)
open Iodyn.Skip
variable {E M X : Type} {L : Nat} {hash : E → Word}

/-! ### The cells made -/

section
variable [DecidableEq E]

theorem look_made (key : Word) (s : Sees E) : ∀ n b, madeBy (lookFacts L key s n b) = [] := by
  intro n
  induction n with
  | zero => exact fun _ => rfl
  | succ n ih =>
    intro b
    unfold lookFacts
    cases ((s.leads[b]?).join) with
    | none => rfl
    | some q =>
      obtain ⟨l, c⟩ := q
      simp only
      split
      · rfl
      · exact ih _

theorem puts_made (v : List E) : ∀ st : Stage E, (v.foldl Stage.put st).before.map (·.1) =
    ((madeBy (putsFacts L hash st.name st.cntr (seesAll L hash st v))).map (·.1)).reverse ++ st.before.map (·.1) := by
  induction v with
  | nil => intro st; rfl
  | cons x v ih =>
    intro st
    rw [List.foldl_cons, ih (st.put x)]
    simp only [seesAll, putsFacts, putFacts, Obs.madeBy_append, look_made, List.nil_append]
    simp [madeBy, Stage.put]

theorem leaves_made (ls : List (Leaf E)) : ∀ st : Stage E, (ls.foldl Stage.leaf st).before.map (·.1) =
    ((madeBy ((leafViews L hash st ls).flatMap (LeafView.facts L hash))).map (·.1)).reverse ++ st.before.map (·.1) := by
  induction ls with
  | nil => intro st; rfl
  | cons l ls ih =>
    intro st
    rw [List.foldl_cons, ih (st.leaf l), leafViews, List.flatMap_cons, Obs.madeBy_append, List.map_append, List.reverse_append, List.append_assoc]
    congr 1
    unfold Stage.leaf
    rw [arch_before, puts_made (L := L) (hash := hash)]
    rfl

/-! ### The names of the calls -/

theorem branch_names (nm c : Option Name) (st : Stage E) (v : Tree (Tr × TreeData E M)) (rest : UqCalls E M X) :
    (branchCall L hash nm c st v (treeCalls L hash c st v) rest).names = (point nm v).map (·.1) ++ (treeCalls (X := X) L hash c st v).names ++ rest.names := by
  cases v with
  | nil => cases nm <;> rfl
  | node lv n q l r =>
    obtain ⟨h, d⟩ := q
    cases nm <;> simp [branchCall, rootOf, Calls.names, Calls.entries, point]

theorem calls_names : ∀ (v : Tree (Tr × TreeData E M)) (c : Option Name) (st : Stage E), ((treeCalls (X := X) L hash c st v).names).Perm (memoNames v) := by
  intro v
  induction v with
  | nil => intro c st; exact .refl _
  | node lv n q l r ihl ihr =>
    intro c st
    obtain ⟨h, d⟩ := q
    rw [treeCalls]
    simp only [branch_names, memoNames, points, List.map_append]
    have e : (Calls.nil : UqCalls E M X).names = [] := rfl
    rw [e, List.append_nil]
    have h1 := ihl c st
    have h2 := ihr n ((leavesOf c l ++ ownLeaf n h d).foldl Stage.leaf st)
    unfold memoNames at h1 h2
    rw [List.append_assoc, List.append_assoc, List.append_assoc]
    refine List.Perm.append_left _ ?_
    refine (List.Perm.append_right _ h1).trans ?_
    refine List.perm_append_comm.trans ?_
    rw [List.append_assoc]
    refine List.Perm.append_left _ ?_
    exact (List.perm_append_comm).trans (List.Perm.append_left _ h2)
end

/-! ### Different cells -/

theorem puts_name (v : List E) : ∀ st : Stage E, (v.foldl Stage.put st).name = st.name := by
  induction v with
  | nil => exact fun _ => rfl
  | cons x v ih => exact fun st => ih (st.put x)

/-- The cells so far have names of this list, or the present name and a smaller number. -/
def Within (st : Stage E) (S : List Name) : Prop := ∀ w ∈ st.before, ∃ n i, w.1 = cellLoc n i ∧ (n ∈ S ∨ n = st.name ∧ i < st.cntr)

theorem cellLoc_inj {n n' : Name} {i i' : Nat} (h : cellLoc n i = cellLoc n' i') : n = n' ∧ i = i' := by
  unfold cellLoc at h
  simp only [Loc.named.injEq, Name.pair.injEq, Name.usize.injEq, and_true] at h
  exact h

theorem puts_apart {S : List Name} (v : List E) : ∀ st : Stage E, st.name ∉ S → Within st S → Apart st → Within (v.foldl Stage.put st) S ∧ Apart (v.foldl Stage.put st) := by
  induction v with
  | nil => exact fun st _ h1 h2 => ⟨h1, h2⟩
  | cons x v ih =>
    intro st hs h1 h2
    refine ih (st.put x) hs ?_ ?_
    · intro w hw
      rw [put_before] at hw
      rcases List.mem_cons.1 hw with rfl | hw
      · exact ⟨_, _, rfl, .inr ⟨rfl, Nat.lt_succ_self _⟩⟩
      · obtain ⟨n, i, e, h⟩ := h1 w hw
        exact ⟨n, i, e, h.imp id fun h => ⟨h.1, Nat.lt_succ_of_lt h.2⟩⟩
    · unfold Apart
      rw [put_before, List.map_cons, List.nodup_cons]
      refine ⟨fun hm => ?_, h2⟩
      obtain ⟨w, hw, e'⟩ := List.mem_map.1 hm
      obtain ⟨n, i, e, h⟩ := h1 w hw
      rw [e'] at e
      obtain ⟨rfl, rfl⟩ := cellLoc_inj e
      rcases h with h | h
      · exact hs h
      · exact Nat.lt_irrefl _ h.2

theorem leaves_apart : ∀ (ls : List (Leaf E)) (ns S : List Name) (st : Stage E), ls.map (·.1) = ns.map some → (st.name :: ns).Nodup → (∀ n ∈ st.name :: ns, n ∉ S) → Within st S → Apart st →
    Apart (ls.foldl Stage.leaf st) := by
  intro ls
  induction ls with
  | nil => exact fun _ _ st _ _ _ _ h => h
  | cons l ls ih =>
    intro ns S st hn hd hS h1 h2
    cases ns with
    | nil => cases hn
    | cons n ns =>
      rw [List.map_cons, List.map_cons] at hn
      obtain ⟨hn1, hn2⟩ := List.cons.inj hn
      obtain ⟨p1, p2⟩ := puts_apart l.2.2 st (hS _ List.mem_cons_self) h1 h2
      have e : st.leaf l = ⟨(l.2.2.foldl Stage.put st).before, n, 0⟩ := by
        unfold Stage.leaf
        rw [hn1]
        rfl
      rw [List.foldl_cons, e]
      have hd' := List.nodup_cons.1 hd
      refine ih ns (st.name :: S) _ hn2 hd'.2 ?_ ?_ p2
      · intro m hm
        rw [List.mem_cons, not_or]
        exact ⟨fun e => hd'.1 (e ▸ hm), hS m (List.mem_cons_of_mem _ hm)⟩
      · intro w hw
        obtain ⟨m, i, e, h⟩ := p1 w hw
        refine ⟨m, i, e, .inl ?_⟩
        rcases h with h | h
        · exact List.mem_cons_of_mem _ h
        · rw [h.1, puts_name]; exact List.mem_cons_self

/-- The names that the fold carries to the leaves. -/
theorem leaves_names : ∀ (v : Tree (Tr × TreeData E M)) (c : Option Name), Chunked (plain v) →
    ∃ ns : List Name, (leavesOf c v).map (·.1) = c :: ns.map some ∧ ∀ x, ns.count x ≤ (nodeNames v).count x := by
  intro v
  induction v with
  | nil => intro c h; cases h
  | node lv n q l r ihl ihr =>
    intro c h
    obtain ⟨t, d⟩ := q
    rcases h with ⟨h1, h2, x, w, h3⟩ | ⟨h1, h2, h3, m, rfl, -⟩
    · have hl : l = .nil := by cases l with | nil => rfl | node => cases h1
      have hr : r = .nil := by cases r with | nil => rfl | node => cases h2
      subst hl; subst hr; subst h3
      exact ⟨[], rfl, fun x => by simp⟩
    · obtain ⟨n1, e1, c1⟩ := ihl c h1
      obtain ⟨n2, e2, c2⟩ := ihr (some m) h2
      have hb : (l.isSome || r.isSome) = true := by cases l with | nil => cases h1 | node => rfl
      have ho : ownLeaf (some m) t d = [] := by
        cases d with
        | leaf v => exact absurd rfl (h3 v)
        | _ => rfl
      refine ⟨n1 ++ m :: n2, ?_, fun x => ?_⟩
      · rw [leavesOf, if_pos hb, ho, List.append_nil, List.map_append, e1, e2]
        simp
      · have := c1 x
        have := c2 x
        simp only [nodeNames, List.count_append, List.count_cons, Option.toList, List.count_nil]
        omega

theorem leaves_nodup {v : Tree (Tr × TreeData E M)} (h : UqTree v) : ((leavesOf startName v).map (·.1)).Nodup := by
  obtain ⟨ns, e, c⟩ := leaves_names v startName h.chunked
  rw [e, List.nodup_cons]
  constructor
  · intro hm
    obtain ⟨n, hn, e⟩ := List.mem_map.1 hm
    cases e
    have h1 := List.count_pos_iff.2 hn
    have h2 := List.count_eq_zero.2 h.start
    have := c (.str "start")
    omega
  · refine (List.nodup_map_iff (fun _ _ e => Option.some.inj e)).2 (List.nodup_iff_count_le_one.2 fun x => Nat.le_trans (c x) (List.nodup_iff_count_le_one.1 h.names x))

theorem tree_apart {v : Tree (Tr × TreeData E M)} (h : UqTree v) : Apart (afterTree startName Stage.start v) := by
  obtain ⟨ns, e, c⟩ := leaves_names v startName h.chunked
  have z : ∀ x, x ∉ nodeNames v → x ∉ ns := fun x hx hn => by
    have h1 := List.count_pos_iff.2 hn
    have h2 := List.count_eq_zero.2 hx
    have := c x
    omega
  refine leaves_apart _ (.str "start" :: ns) [] Stage.start e ?_ (by simp) (fun w hw => by cases hw) List.nodup_nil
  rw [List.nodup_cons, List.nodup_cons]
  refine ⟨fun hm => ?_, z _ h.start, List.nodup_iff_count_le_one.2 fun x => Nat.le_trans (c x) (List.nodup_iff_count_le_one.1 h.names x)⟩
  rcases List.mem_cons.1 hm with h' | h'
  · cases h'
  · exact z _ h.unit h'

/-! ### Runs -/

section
variable [DecidableEq E] [DecidableEq M]

theorem uq_rec (hL : 1 ≤ L) (hL' : L ≤ 63) {σ : Mem (TreeData E M) X} {v : Tree (Tr × TreeData E M)} {h : Tr} (hv : View σ (some h) v) (hu : UqTree v) {m : Nat} (hm : v.size ≤ m)
    {τ : Store (Path E Unit)} (hp : τ.path = []) :
    ∃ c, trun skipView (lrObsBody (uniqueNode hash)) σ m ⟨h, startName, Eval.UniqueElms.start L⟩ τ = some (.ok c) ∧ c.Once ∧ c.calls = uqCalls L hash v ∧
      c.val = ((leavesOf startName v).foldl Stage.leaf Stage.start).handle L := by
  obtain ⟨τ', h1, -, -⟩ := tree_rec (hash := hash) hL hL' v hv m hm startName Stage.start τ hp trivial (tree_apart hu)
  refine ⟨_, h1, ⟨?_, ?_⟩, rfl, rfl⟩
  · exact (calls_names v _ _).nodup_iff.2 (memos_nodup hu.names)
  · have h2 := tree_apart hu
    unfold Apart afterTree at h2
    rw [leaves_made (L := L) (hash := hash)] at h2
    have : (Stage.start : Stage E).before = [] := rfl
    rw [this, List.map_nil, List.append_nil, List.nodup_reverse] at h2
    exact h2

theorem noReturn_calls {vs : List (Tree (Tr × TreeData E M))} {v : Tree (Tr × TreeData E M)} (h : NoReturn vs v) :
    (uqCalls (X := X) L hash v).NoReturn (vs.map (uqCalls L hash)) := by
  have mem : ∀ (w : Tree (Tr × TreeData E M)) x, x ∈ (uqCalls (X := X) L hash w).names ↔ x ∈ memoNames w := fun w x => (calls_names w _ _).mem_iff
  cases vs with
  | nil => trivial
  | cons w vs =>
    intro x hx hx' d hd
    obtain ⟨u, hu, rfl⟩ := List.mem_map.1 hd
    rw [mem] at hx hx' ⊢
    exact h x hx hx' u hu

theorem history_ran (hL : 1 ≤ L) (hL' : L ≤ 63) {s : UqSpace E M} {vs : List (Tree (Tr × TreeData E M))} (h : UqHistory hash L s vs) :
    RanAs skipView (lrObsBody (uniqueNode hash)) s (vs.map (uqCalls L hash)) := by
  induction h with
  | start => exact .start
  | fold hs hv hu hr hm ho ih =>
    obtain ⟨c, c1, c2, c3, -⟩ := uq_rec (hash := hash) hL hL' hv hu hm (Obs.runs_good ih).path
    have := RanAs.run ih c1 c2 (by rw [c3]; exact noReturn_calls hr) ho
    rw [c3] at this
    exact this
end

/-! ### Counting -/

section
variable [DecidableEq E]

/-- What a call for a branch has. -/
def entryOf (L : Nat) (hash : E → Word) (h : Tr) (c : Option Name) (st : Stage E) (v : Tree (Tr × TreeData E M)) :
    OEntry (Cell (TreeData E M) X) (Path E Unit) ObsParam (ObsRes E Unit) (LrKey Skiplist) Skiplist :=
  ⟨⟨h, c, st.handle L⟩, treeReads v, treeFacts L hash c st v, (afterTree c st v).handle L⟩

theorem handle_puts (v : List E) : ∀ {s t : Stage E}, s.handle L = t.handle L → (v.foldl Stage.put s).handle L = (v.foldl Stage.put t).handle L := by
  induction v with
  | nil => exact fun h => h
  | cons x v ih =>
    intro s t h
    refine ih ?_
    have h1 : s.name = t.name := congrArg Skiplist.name h
    have h2 : s.cntr = t.cntr := congrArg Skiplist.cntr h
    simp [Stage.handle, Stage.put, h1, h2]

theorem handle_leaf (l : Leaf E) {s t : Stage E} (h : s.handle L = t.handle L) : (s.leaf l).handle L = (t.leaf l).handle L := by
  unfold Stage.leaf
  rw [← handle_arch, ← handle_arch, handle_puts l.2.2 h]

theorem handle_leaves (ls : List (Leaf E)) : ∀ {s t : Stage E}, s.handle L = t.handle L → (ls.foldl Stage.leaf s).handle L = (ls.foldl Stage.leaf t).handle L := by
  induction ls with
  | nil => exact fun h => h
  | cons l ls ih => exact fun h => ih (handle_leaf l h)

theorem entry_eq {h : Tr} {c : Option Name} {s t : Stage E} {v : Tree (Tr × TreeData E M)} (hne : leavesOf c v ≠ [])
    (e : leafViews L hash s (leavesOf c v) = leafViews L hash t (leavesOf c v)) : entryOf (X := X) L hash h c s v = entryOf L hash h c t v := by
  have hh : s.handle L = t.handle L := by
    cases hl : leavesOf c v with
    | nil => exact absurd hl hne
    | cons l ls =>
      rw [hl] at e
      exact congrArg LeafView.handle (List.cons.inj e).1
  unfold entryOf treeFacts afterTree
  rw [hh, e, handle_leaves _ hh]

theorem leaves_ne {c : Option Name} {v : Tree (Tr × TreeData E M)} (h : Chunked (plain v)) : leavesOf c v ≠ [] := by
  obtain ⟨ns, e, -⟩ := leaves_names v c h
  intro h'
  rw [h'] at e
  cases e

theorem branch_entries {m : Name} {c : Option Name} {st : Stage E} {lv : Nat} {n : Option Name} {h : Tr} {d : TreeData E M} {l r : Tree (Tr × TreeData E M)} {rest : UqCalls E M X} :
    (branchCall L hash (some m) c st (.node lv n (h, d) l r) (treeCalls L hash c st (.node lv n (h, d) l r)) rest).entries =
      (m, entryOf L hash h c st (.node lv n (h, d) l r)) :: ((treeCalls L hash c st (.node lv n (h, d) l r)).entries ++ rest.entries) := rfl

theorem branch_sub {nm c : Option Name} {st : Stage E} {v : Tree (Tr × TreeData E M)} {rest : UqCalls E M X} :
    (treeCalls L hash c st v).entries ++ rest.entries ⊆ (branchCall L hash nm c st v (treeCalls L hash c st v) rest).entries := by
  cases v with
  | nil => exact fun _ h => h
  | node lv n q l r =>
    obtain ⟨h, d⟩ := q
    intro x hx
    simp only [branchCall, rootOf, Calls.entries, List.append_assoc, List.mem_append] at hx ⊢
    exact .inr hx

/-- A branch of a tree, in the records. -/
theorem point_entry : ∀ (v : Tree (Tr × TreeData E M)) (c : Option Name) (st : Stage E) {q : Name × Option Name × Tree (Tr × TreeData E M)}, q ∈ pointsFrom c v →
    ∃ (A B : List (Leaf E)) (h : Tr), leavesOf c v = A ++ leavesOf q.2.1 q.2.2 ++ B ∧ rootOf q.2.2 = some h ∧
      (q.1, entryOf (X := X) L hash h q.2.1 (A.foldl Stage.leaf st) q.2.2) ∈ (treeCalls L hash c st v).entries := by
  intro v
  induction v with
  | nil => intro c st q h; cases h
  | node lv n p l r ihl ihr =>
    intro c st q hq
    obtain ⟨t, d⟩ := p
    rw [pointsFrom, List.mem_append, List.mem_append, List.mem_append] at hq
    have hall : (l.isSome || r.isSome) = true → leavesOf c (.node lv n (t, d) l r) = leavesOf c l ++ ownLeaf n t d ++ leavesOf n r := fun hb => by rw [leavesOf, if_pos hb]
    rw [treeCalls]
    rcases hq with ((hq | hq) | hq) | hq
    · cases n with
      | none => cases l <;> cases hq
      | some n =>
        cases l with
        | nil => cases hq
        | node lv' n' p' l' r' =>
          obtain ⟨t', d'⟩ := p'
          rcases List.mem_singleton.1 hq with rfl
          refine ⟨[], ownLeaf (some n) t d ++ leavesOf (some n) r, t', ?_, rfl, ?_⟩
          · rw [hall rfl]; simp
          · rw [Option.map_some, branch_entries]; exact List.mem_cons_self
    · cases n with
      | none => cases r <;> cases hq
      | some n =>
        cases r with
        | nil => cases hq
        | node lv' n' p' l' r' =>
          obtain ⟨t', d'⟩ := p'
          rcases List.mem_singleton.1 hq with rfl
          refine ⟨leavesOf c l ++ ownLeaf (some n) t d, [], t', ?_, rfl, ?_⟩
          · rw [hall (by cases l <;> rfl)]; simp
          · apply branch_sub
            rw [List.mem_append]
            refine .inr ?_
            rw [Option.map_some, branch_entries]
            exact List.mem_cons_self
    · obtain ⟨A, B, h, e1, e2, e3⟩ := ihl c st hq
      refine ⟨A, B ++ ownLeaf n t d ++ leavesOf n r, h, ?_, e2, branch_sub (List.mem_append_left _ e3)⟩
      have hb : (l.isSome || r.isSome) = true := by cases l with | nil => cases hq | node => rfl
      rw [hall hb, e1]; simp
    · obtain ⟨A, B, h, e1, e2, e3⟩ := ihr n ((leavesOf c l ++ ownLeaf n t d).foldl Stage.leaf st) hq
      refine ⟨leavesOf c l ++ ownLeaf n t d ++ A, B, h, ?_, e2, ?_⟩
      · have hb : (l.isSome || r.isSome) = true := by cases r with | nil => cases hq | node => cases l <;> rfl
        rw [hall hb, e1]; simp
      · rw [← List.foldl_append] at e3
        exact branch_sub (List.mem_append_right _ (branch_sub (List.mem_append_left _ e3)))

omit [DecidableEq E] in
theorem views_length : ∀ (ls : List (Leaf E)) (st : Stage E), (leafViews L hash st ls).map LeafView.name = ls.map (·.1) := by
  intro ls
  induction ls with
  | nil => exact fun _ => rfl
  | cons l ls ih => intro st; rw [leafViews, List.map_cons, ih]; rfl

theorem nodup_key {A B : Type} {f : A → B} : ∀ {l : List A}, (l.map f).Nodup → ∀ {x y : A}, x ∈ l → y ∈ l → f x = f y → x = y := by
  intro l
  induction l with
  | nil => intro _ x y hx; cases hx
  | cons a l ih =>
    intro h x y hx hy e
    rw [List.map_cons, List.nodup_cons] at h
    rcases List.mem_cons.1 hx with rfl | hx1 <;> rcases List.mem_cons.1 hy with rfl | hy1
    · rfl
    · exact absurd (e ▸ List.mem_map_of_mem hy1) h.1
    · exact absurd (e ▸ List.mem_map_of_mem hx1) h.1
    · exact ih h.2 hx1 hy1 e

omit [DecidableEq E] in
theorem views_eq {LV U V : List (LeafView E)} (hn : (LV.map LeafView.name).Nodup) (hU : ∀ w ∈ U, w ∈ LV) (hV : ∀ w ∈ V, w ∈ LV)
    (e : U.map LeafView.name = V.map LeafView.name) : U = V := by
  induction U generalizing V with
  | nil => cases V with | nil => rfl | cons => cases e
  | cons u U ih =>
    cases V with
    | nil => cases e
    | cons v V =>
      rw [List.map_cons, List.map_cons] at e
      obtain ⟨e1, e2⟩ := List.cons.inj e
      rw [nodup_key hn (hU u List.mem_cons_self) (hV v List.mem_cons_self) e1,
        ih (fun w hw => hU w (List.mem_cons_of_mem _ hw)) (fun w hw => hV w (List.mem_cons_of_mem _ hw)) e2]

variable {c0 : Option Name} {st0 : Stage E} {v0 : Tree (Tr × TreeData E M)}

/-- A branch that the old tree has, for which the run over the new one depends on the same, has the same call. -/
theorem known_call (hn : ((leavesOf c0 v0).map (·.1)).Nodup) {m : Name} {c : Option Name} {v : Tree (Tr × TreeData E M)} (hp : (m, c, v) ∈ pointsFrom c0 v0) (hc : Chunked (plain v))
    {st : Stage E} {h : Tr} (hr : rootOf v = some h) (hw : ∀ w ∈ leafViews L hash st (leavesOf c v), w ∈ leafViews L hash st0 (leavesOf c0 v0)) :
    (m, entryOf (X := X) L hash h c st v) ∈ (treeCalls L hash c0 st0 v0).entries := by
  obtain ⟨A, B, h', e1, e2, e3⟩ := point_entry (X := X) (L := L) (hash := hash) v0 c0 st0 hp
  simp only at e1 e2 e3
  rw [hr] at e2
  cases e2
  have e : leafViews L hash st (leavesOf c v) = leafViews L hash (A.foldl Stage.leaf st0) (leavesOf c v) := by
    refine views_eq (LV := leafViews L hash st0 (leavesOf c0 v0)) (by rw [views_length]; exact hn) hw (fun w hw => ?_) (by rw [views_length, views_length])
    rw [e1, leafViews_append, leafViews_append]
    exact List.mem_append_left _ (List.mem_append_right _ hw)
  rw [entry_eq (leaves_ne hc) e]
  exact e3

variable [DecidableEq M] [DecidableEq X]

/-- The leaves of a part for which the old run did not depend on the same. -/
def bad (L : Nat) (hash : E → Word) (c0 : Option Name) (st0 : Stage E) (v0 : Tree (Tr × TreeData E M)) (c : Option Name) (st : Stage E) (v : Tree (Tr × TreeData E M)) : Nat :=
  (leafViews L hash st (leavesOf c v)).countP fun w => decide (w ∉ leafViews L hash st0 (leavesOf c0 v0))

omit [DecidableEq M] in
theorem bad_zero {c : Option Name} {st : Stage E} {v : Tree (Tr × TreeData E M)} (h : bad L hash c0 st0 v0 c st v = 0) :
    ∀ w ∈ leafViews L hash st (leavesOf c v), w ∈ leafViews L hash st0 (leavesOf c0 v0) := by
  intro w hw
  have := List.countP_eq_zero.1 h w hw
  simpa using this

/-- The calls evaluated for a branch. -/
def branchFresh (L : Nat) (hash : E → Word) (old : List (Name × OEntry (Cell (TreeData E M) X) (Path E Unit) ObsParam (ObsRes E Unit) (LrKey Skiplist) Skiplist)) (nm c : Option Name) (st : Stage E)
    (v : Tree (Tr × TreeData E M)) : Nat := (branchCall L hash nm c st v (treeCalls L hash c st v) .nil).fresh old

theorem branch_fresh {old} {nm c : Option Name} {st : Stage E} {v : Tree (Tr × TreeData E M)} {rest : UqCalls E M X} :
    (branchCall L hash nm c st v (treeCalls L hash c st v) rest).fresh old = branchFresh L hash old nm c st v + rest.fresh old := by
  cases v with
  | nil => simp [branchFresh, branchCall, rootOf, Calls.fresh]
  | node lv n q l r =>
    obtain ⟨h, d⟩ := q
    simp [branchFresh, branchCall, rootOf, Calls.fresh]

theorem branch_most {old : List (Name × OEntry (Cell (TreeData E M) X) _ _ _ _ _)} {nm c : Option Name} {st : Stage E} {v : Tree (Tr × TreeData E M)} :
    branchFresh L hash old nm c st v ≤ 1 + (treeCalls L hash c st v).fresh old := by
  cases v with
  | nil => simp [branchFresh, branchCall, rootOf, Calls.fresh]
  | node lv n q l r =>
    obtain ⟨h, d⟩ := q
    simp only [branchFresh, branchCall, rootOf, Calls.fresh]
    split <;> omega

theorem branch_known (hn : ((leavesOf c0 v0).map (·.1)).Nodup) {m : Name} {c : Option Name} {st : Stage E} {v : Tree (Tr × TreeData E M)} (hp : (m, c, v) ∈ pointsFrom c0 v0)
    (hc : Chunked (plain v)) (hb : bad L hash c0 st0 v0 c st v = 0) : branchFresh (X := X) L hash (treeCalls L hash c0 st0 v0).entries (some m) c st v = 0 := by
  cases v with
  | nil => cases hc
  | node lv n q l r =>
    obtain ⟨h, d⟩ := q
    have := known_call (X := X) hn hp hc (st := st) rfl (bad_zero hb)
    simp only [branchFresh, branchCall, rootOf, Calls.fresh, Option.toList, List.any_cons, List.any_nil, Bool.or_false, decide_eq_true_eq]
    have e : ∀ {p : Prop} [Decidable p] {k : Nat}, p → (if p then 0 else k) + 0 = 0 := fun h => by rw [if_pos h]
    exact e this

omit [DecidableEq E] [DecidableEq M] in
/-- The two kinds of trees. -/
theorem chunked_cases {lv : Nat} {n : Option Name} {h : Tr} {d : TreeData E M} {l r : Tree (Tr × TreeData E M)} (hc : Chunked (plain (.node lv n (h, d) l r))) :
    (l = .nil ∧ r = .nil ∧ ∃ x w, d = .leaf (x :: w)) ∨ (Chunked (plain l) ∧ Chunked (plain r) ∧ ∃ m, n = some m ∧ ∀ (c : Option Name) (st : Stage E),
      leavesOf c (.node lv n (h, d) l r) = leavesOf c l ++ leavesOf n r ∧ (leavesOf c l ++ ownLeaf n h d).foldl Stage.leaf st = afterTree c st l) := by
  rcases hc with ⟨h1, h2, x, w, h3⟩ | ⟨h1, h2, h3, m, rfl, -⟩
  · have hl : l = .nil := by cases l with | nil => rfl | node => cases h1
    have hr : r = .nil := by cases r with | nil => rfl | node => cases h2
    exact .inl ⟨hl, hr, x, w, h3⟩
  · have hb : (l.isSome || r.isSome) = true := by cases l with | nil => cases h1 | node => rfl
    have ho : ownLeaf (some m) h d = [] := by
      cases d with
      | leaf v => exact absurd rfl (h3 v)
      | _ => rfl
    refine .inr ⟨h1, h2, m, rfl, fun c st => ⟨?_, ?_⟩⟩
    · rw [leavesOf, if_pos hb, ho, List.append_nil]
    · rw [ho, List.append_nil]; rfl

omit [DecidableEq M] in
theorem bad_node {c n : Option Name} {st : Stage E} {v l r : Tree (Tr × TreeData E M)} (e : leavesOf c v = leavesOf c l ++ leavesOf n r) :
    bad L hash c0 st0 v0 c st v = bad L hash c0 st0 v0 c st l + bad L hash c0 st0 v0 n (afterTree c st l) r := by
  unfold bad
  rw [e, leafViews_append, List.countP_append]
  rfl

theorem fresh_below (hn : ((leavesOf c0 v0).map (·.1)).Nodup) : ∀ (v : Tree (Tr × TreeData E M)) (c : Option Name) (st : Stage E), Chunked (plain v) → pointsFrom c v ⊆ pointsFrom c0 v0 →
    1 ≤ bad L hash c0 st0 v0 c st v → 1 + (treeCalls (X := X) L hash c st v).fresh (treeCalls L hash c0 st0 v0).entries ≤ depthOf v * bad L hash c0 st0 v0 c st v := by
  intro v
  induction v with
  | nil => intro c st hc; cases hc
  | node lv n q l r ihl ihr =>
    intro c st hc hp hb
    obtain ⟨h, d⟩ := q
    rcases chunked_cases hc with ⟨rfl, rfl, x, w, rfl⟩ | ⟨hl, hr, m, rfl, e⟩
    · simp only [treeCalls, branchCall, rootOf, Calls.fresh, depthOf, Nat.max_self, Nat.add_zero, Nat.one_mul]
      exact hb
    · obtain ⟨e1, e2⟩ := e c st
      rw [bad_node e1] at hb ⊢
      simp only [treeCalls, e2, branch_fresh, depthOf, Option.map_some, Calls.fresh, Nat.add_zero]
      have pl : (Name.forkL m, c, l) ∈ pointsFrom c0 v0 := by
        refine hp ?_
        cases l with
        | nil => cases hl
        | node => rw [pointsFrom]; simp [pointFrom]
      have pr : (Name.forkR m, some m, r) ∈ pointsFrom c0 v0 := by
        refine hp ?_
        cases r with
        | nil => cases hr
        | node => rw [pointsFrom]; simp [pointFrom]
      have bl : branchFresh (X := X) L hash (treeCalls L hash c0 st0 v0).entries (some (.forkL m)) c st l ≤ depthOf l * bad L hash c0 st0 v0 c st l := by
        rcases Nat.eq_zero_or_pos (bad L hash c0 st0 v0 c st l) with z | z
        · rw [branch_known hn pl hl z]; exact Nat.zero_le _
        · exact Nat.le_trans branch_most (ihl c st hl (Lr.pointsFrom_below pl) z)
      have br : branchFresh (X := X) L hash (treeCalls L hash c0 st0 v0).entries (some (.forkR m)) (some m) (afterTree c st l) r ≤
          depthOf r * bad L hash c0 st0 v0 (some m) (afterTree c st l) r := by
        rcases Nat.eq_zero_or_pos (bad L hash c0 st0 v0 (some m) (afterTree c st l) r) with z | z
        · rw [branch_known hn pr hr z]; exact Nat.zero_le _
        · exact Nat.le_trans branch_most (ihr _ _ hr (Lr.pointsFrom_below pr) z)
      have m1 := Nat.mul_le_mul_right (bad L hash c0 st0 v0 c st l) (Nat.le_max_left (depthOf l) (depthOf r))
      have m2 := Nat.mul_le_mul_right (bad L hash c0 st0 v0 (some m) (afterTree c st l) r) (Nat.le_max_right (depthOf l) (depthOf r))
      rw [Nat.add_mul, Nat.one_mul, Nat.mul_add]
      omega

theorem fresh_most (hn : ((leavesOf c0 v0).map (·.1)).Nodup) : ∀ (v : Tree (Tr × TreeData E M)) (c : Option Name) (st : Stage E), Chunked (plain v) →
    1 + (treeCalls (X := X) L hash c st v).fresh (treeCalls L hash c0 st0 v0).entries ≤ costFrom (pointsFrom c0 v0) c v + depthOf v * bad L hash c0 st0 v0 c st v := by
  intro v
  induction v with
  | nil => intro c st hc; cases hc
  | node lv n q l r ihl ihr =>
    intro c st hc
    obtain ⟨h, d⟩ := q
    rcases chunked_cases hc with ⟨rfl, rfl, x, w, rfl⟩ | ⟨hl, hr, m, rfl, e⟩
    · simp only [treeCalls, branchCall, rootOf, Calls.fresh, costFrom]
      omega
    · obtain ⟨e1, e2⟩ := e c st
      rw [bad_node e1]
      simp only [treeCalls, e2, branch_fresh, depthOf, Option.map_some, Calls.fresh, Nat.add_zero, costFrom]
      have side : ∀ (m' : Name) (c' : Option Name) (st' : Stage E) (w : Tree (Tr × TreeData E M)), Chunked (plain w) →
          (1 + (treeCalls (X := X) L hash c' st' w).fresh (treeCalls L hash c0 st0 v0).entries ≤ costFrom (pointsFrom c0 v0) c' w + depthOf w * bad L hash c0 st0 v0 c' st' w) →
          branchFresh (X := X) L hash (treeCalls L hash c0 st0 v0).entries (some m') c' st' w ≤
            (if (pointFrom (some m') c' w).any (· ∈ pointsFrom c0 v0) then 0 else costFrom (pointsFrom c0 v0) c' w) + depthOf w * bad L hash c0 st0 v0 c' st' w := by
        intro m' c' st' w hw ih
        split
        · rename_i hk
          have hk : (m', c', w) ∈ pointsFrom c0 v0 := by
            cases w with
            | nil => cases hw
            | node => simpa [pointFrom] using hk
          rcases Nat.eq_zero_or_pos (bad L hash c0 st0 v0 c' st' w) with z | z
          · rw [branch_known hn hk hw z]; exact Nat.zero_le _
          · rw [Nat.zero_add]
            exact Nat.le_trans branch_most (fresh_below hn w c' st' hw (Lr.pointsFrom_below hk) z)
        · exact Nat.le_trans branch_most ih
      have bl := side (.forkL m) c st l hl (ihl c st hl)
      have br := side (.forkR m) (some m) (afterTree c st l) r hr (ihr _ _ hr)
      have m1 := Nat.mul_le_mul_right (bad L hash c0 st0 v0 c st l) (Nat.le_max_left (depthOf l) (depthOf r))
      have m2 := Nat.mul_le_mul_right (bad L hash c0 st0 v0 (some m) (afterTree c st l) r) (Nat.le_max_right (depthOf l) (depthOf r))
      rw [Nat.add_mul, Nat.one_mul, Nat.mul_add]
      omega
end

end Iodyn.Incr.Uq
