import Verif.Props.Canon
/-
C22: no panic in the sequence API.
-/
namespace Iodyn
variable {E M R A F N : Type}

/-- **C22**, cursors: no call on a cursor panics, whatever was called before. (`push_*`, `archive_*` and
`Raz::new` have no panicking step in the model, their type says so.) -/
theorem C22_cursor_calls [RazMeta E M] {z : Raz E M} (h : z.Reachable .any) :
    (∃ x, z.popLeft = .ok x) ∧ (∃ x, z.popRight = .ok x) ∧ (∃ x, z.peekLeft = .ok x) ∧ (∃ x, z.peekRight = .ok x) ∧
    (∃ t, z.unfocus = .ok t) := by
  have hz := (Reach.z h).inv
  obtain ⟨z1, h1, -⟩ := popLeft_ok hz
  obtain ⟨z2, h2, -⟩ := popRight_ok hz
  obtain ⟨t, h3, -⟩ := unfocus_inv hz
  exact ⟨⟨_, h1⟩, ⟨_, h2⟩, ⟨_, peekLeft_ok hz⟩, ⟨_, peekRight_ok hz⟩, ⟨_, h3⟩⟩

/-- **C22**, trees: no call on a tree panics (`fold_lr*` have no panicking step of their own). -/
theorem C22_tree_calls [RazMeta E M] [RazMeta F N] {t : RazTree E M} (h : t.Reachable .any) :
    (∃ z, t.focusLeft = .ok z) ∧ (∀ f : E → F, ∃ t' : RazTree F N, t.map f = .ok t') ∧
    (∀ (init : List E → R) (bin : R → Nat → Option Name → R → R), ∃ x,
      t.foldUpGauged (fun v => .ok (init v)) (fun a l n b => .ok (bin a l n b)) = .ok x) ∧
    (∀ (b : RazTree E M) (lev : Nat) (nm : Option Name), b.Reachable .any → 1 ≤ lev → ∃ x, t.join lev nm b = .ok x) := by
  refine ⟨?_, ?_, ?_, ?_⟩
  · obtain ⟨z, h1, -⟩ := C05_focus_left h
    exact ⟨z, h1⟩
  · intro f
    obtain ⟨t', h1, -⟩ := C15_map (N := N) h f
    exact ⟨t', h1⟩
  · intro init bin
    obtain ⟨m, tr⟩ := t
    have key : ∀ {tr : Tree (TreeData E M)}, WF tr → ∃ x, (RazTree.mk m tr).foldUpGauged (fun v => .ok (init v)) (fun a l n b => .ok (bin a l n b)) = .ok (some x) := by
      intro tr hw
      induction hw with
      | leaf v => exact ⟨init v, rfl⟩
      | @branch lv nm l r _ _ _ ih1 ih2 =>
        obtain ⟨a, ha⟩ := ih1
        obtain ⟨b, hb⟩ := ih2
        refine ⟨bin a lv nm b, ?_⟩
        simp only [RazTree.foldUpGauged] at ha hb ⊢
        simp only [Tree.foldUpMeta, ha, hb, bind, Except.bind, pure, Except.pure]
    rcases (Reach.t h).inv.wf with hn | hw
    · simp only at hn
      subst hn
      exact ⟨none, rfl⟩
    · obtain ⟨x, hx⟩ := key hw
      exact ⟨_, hx⟩
  · intro b lev nm hb hlev
    by_cases hne : t.isEmpty = true ∨ b.isEmpty = true
    · exact ⟨_, C16_join_empty t b hne lev nm⟩
    · simp only [not_or, Bool.not_eq_true] at hne
      obtain ⟨x, h1, -⟩ := C16_join h hb hne.1 hne.2 hlev nm
      exact ⟨_, h1⟩

/-- **C22**, trees: the folds over elements, with any functions (also not associative), on trees without empty
leaves. -/
theorem C22_fold_up [RazMeta E M] {t : RazTree E M} (h : t.Reachable .full) (init : E → R) (bin : R → R → R)
    (binnl : R → Nat → Option Name → R → R) :
    (∃ x, t.foldUp init bin = .ok x) ∧ (∃ x, t.foldUpNl init bin binnl = .ok x) := by
  have ht := Reach.t h
  have key : ∀ (binnl : R → Nat → Option Name → R → R) {tr : Tree (TreeData E M)}, WF tr → TidySeq tr.items → tr.items ≠ [] →
      ∃ x, (RazTree.mk t.info tr).foldUpNl init bin binnl = .ok (some x) := by
    intro binnl tr hw
    induction hw with
    | leaf v =>
      intro _ hne
      cases v with
      | nil => exact absurd rfl hne
      | cons e v => exact ⟨_, rfl⟩
    | @branch lv nm l r _ _ _ ih1 ih2 =>
      intro ht _
      rw [items_branch] at ht
      obtain ⟨t1, t2, n1, n2⟩ := ht.branch
      obtain ⟨a, ha⟩ := ih1 t1 n1
      obtain ⟨b, hb⟩ := ih2 t2 n2
      refine ⟨binnl a lv nm b, ?_⟩
      simp only [RazTree.foldUpNl] at ha hb ⊢
      simp only [Tree.foldUpMeta, ha, hb, bind, Except.bind, pure, Except.pure]
  have all : ∀ binnl, ∃ x, t.foldUpNl init bin binnl = .ok x := by
    intro binnl
    rcases ht.inv.wf with hn | hw
    · obtain ⟨m, tr⟩ := t
      simp only at hn
      subst hn
      exact ⟨none, rfl⟩
    · have hne : t.items ≠ [] := by
        intro hi
        rw [(ht.tidy rfl).2 hi] at hw; cases hw
      obtain ⟨x, hx⟩ := key binnl hw (ht.tidy rfl).1 hne
      exact ⟨_, hx⟩
  exact ⟨all (fun a _ _ b => bin a b), all binnl⟩

/-- **C22**, focusing at the valid positions of each metadata type. -/
theorem C22_focus (E : Type) :
    (∀ (t : RazTree E Count) (i : Nat), t.Reachable .any → i ≤ t.elems.length ∨ i = usizeMax → i ≤ usizeMax →
      ∃ z, t.focus i = .ok (some z)) ∧
    (∀ (t : RazTree E Unit) (p : Position Unit), t.Reachable .any → (p = .left ∨ p = .right) → ∃ z, t.focus p = .ok (some z)) ∧
    (∀ (t : RazTree E Names) (p : Position Name), t.Reachable .any → (p = .left ∨ p = .right) → ∃ z, t.focus p = .ok (some z)) ∧
    (∀ (t : RazTree E Names) (q : Name), t.Reachable .any → marksOf t.items ≠ [] → (namesOf t.items).Nodup →
      ∃ z, t.focus (Position.center q : Position Name) = .ok z) := by
  refine ⟨?_, ?_, ?_, ?_⟩
  · intro t i h hi hm
    by_cases he : i = usizeMax
    · subst he
      obtain ⟨z, h1, -⟩ := C05_focus_last_count h
      exact ⟨z, h1⟩
    · obtain ⟨z, h1, -⟩ := C03_focus_index h (hi.resolve_right he) (by omega)
      exact ⟨z, h1⟩
  · rintro t p h (rfl | rfl)
    · obtain ⟨z, h1, -⟩ := C05_focus_first_unit h
      exact ⟨z, h1⟩
    · obtain ⟨z, h1, -⟩ := C05_focus_last_unit h
      exact ⟨z, h1⟩
  · rintro t p h (rfl | rfl)
    · obtain ⟨z, h1, -⟩ := C05_focus_first_names h
      exact ⟨z, h1⟩
    · obtain ⟨z, h1, -⟩ := C05_focus_last_names h
      exact ⟨z, h1⟩
  · intro t q h hb hd
    by_cases hq : q ∈ namesOf t.items
    · have : ∃ x lev y, t.items = x ++ Item.mark lev (some q) :: y := by
        have hp : ∀ i ∈ t.items, ∀ l n, i ≠ Item.pend l n := by
          intro i hi l n he
          have := settle_items t.tree
          have hs : Item.settle i = i := by
            obtain ⟨n, hn, rfl⟩ := List.getElem_of_mem hi
            have := congrArg (fun l => l[n]?) this
            have hn' : n < t.tree.items.length := hn
            simp only [List.getElem?_map, List.getElem?_eq_getElem hn', Option.map_some, Option.some.injEq] at this
            exact this
          rw [he] at hs
          simp [Item.settle] at hs
        simp only [namesOf, List.mem_filterMap] at hq
        obtain ⟨i, hi, hq⟩ := hq
        obtain ⟨x, y, hxy⟩ := List.append_of_mem hi
        cases i with
        | elem => simp at hq
        | mark lev nm => simp at hq; subst hq; exact ⟨x, lev, y, hxy⟩
        | pend l n => exact absurd rfl (hp _ hi l n)
      obtain ⟨x, lev, y, hi⟩ := this
      obtain ⟨z, h1, -⟩ := C09_focus_name h hd hi
      exact ⟨_, h1⟩
    · exact ⟨_, C09_focus_absent_partial h hb hq⟩

example : (exCursor Count).Reachable .any ∧ (exCursor Count).Reachable .full ∧ (exTree Count).Reachable .full :=
  ⟨exCursor_reach Count .any, exCursor_reach Count .full, exTree_reach Count .full⟩

/-- Level 0 is excluded for a reason: after archiving at level 0, `unfocus` builds a tree in which a leaf has
branches. Its count is 1 and `fold_up` sees 1 of the 2 elements. -/
theorem C22_level_zero_loses_data : ∃ (z : Raz Nat Count) (t : RazTree Nat Count),
    z = (((Raz.new.pushLeft 1).1.archiveLeft 0 none).pushLeft 2).1 ∧ z.leftElems = [2, 1] ∧ z.rightElems = [] ∧
    z.unfocus = .ok t ∧ t.info.n = 1 ∧ t.foldUp (fun e => [e]) (fun a b => a ++ b) = .ok (some [1]) := by
  refine ⟨_, ⟨⟨1⟩, .node 0 none (.leaf [1]) .nil (.node 0 none (.branch ⟨0⟩ ⟨1⟩) .nil (.node 0 none (.leaf [2]) .nil .nil))⟩, rfl, rfl, rfl, ?_, rfl, rfl⟩
  decide +kernel

end Iodyn
