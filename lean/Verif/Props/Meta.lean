import Verif.Props.Focus
/-
C07 count metadata, C08 name metadata.
-/
namespace Iodyn
variable {E M : Type}

/-- A node of a well-formed tree is a leaf, or a branch with the metadata of its branches. -/
theorem WF.sub [RazMeta E M] {t s : Tree (TreeData E M)} (h : WF t) (hs : s.Sub t) : s = .nil ∨ WF s := by
  induction hs with
  | refl => exact .inr h
  | left _ ih =>
    cases h with
    | leaf v => rename_i hs; cases hs; exact .inl rfl
    | branch _ hl _ => exact ih hl
  | right _ ih =>
    cases h with
    | leaf v => rename_i hs; cases hs; exact .inl rfl
    | branch _ _ hr => exact ih hr

/-- **C07.** The count of a tree is the number of its elements. -/
theorem C07_count {t : RazTree E Count} (h : t.Reachable .any) : t.info.n = t.elems.length := by
  have ht := (Reach.t h).inv
  rw [ht.info]
  exact metaOf_count ht.wf 0 none

/-- **C07.** Every inner node stores the number of elements of its two sides. -/
theorem C07_count_inner {t : RazTree E Count} (h : t.Reachable .any) {lv nm ml mr l r}
    (hs : Tree.Sub (.node lv nm (.branch ml mr) l r) t.tree) :
    ml.n = (elemsOf l.items).length ∧ mr.n = (elemsOf r.items).length := by
  have ht := (Reach.t h).inv
  rcases ht.wf with hn | hw
  · rw [hn] at hs; cases hs
  · rcases hw.sub hs with h | h
    · cases h
    · cases h with
      | branch _ hl hr => exact ⟨metaOf_count (.inr hl) lv nm, metaOf_count (.inr hr) lv nm⟩

example : (exTree Count).info.n = 6 := C07_count (exTree_reach Count .any)
example : ∃ lv nm ml mr l r, Tree.Sub (.node lv nm (.branch ml mr) l r) (exTree Count).tree ∧ lv = 1 ∧ ml.n = 1 ∧ mr.n = 2 :=
  ⟨1, none, ⟨1⟩, ⟨2⟩, _, _, .left (.right .refl), rfl, rfl, rfl⟩

/-- **C08.** The names of a tree are exactly the names of its archive points. -/
theorem C08_names {t : RazTree E Names} (h : t.Reachable .any) (q : Name) :
    q ∈ t.info.names ↔ q ∈ namesOf t.items := by
  have ht := (Reach.t h).inv
  rw [ht.info, mem_metaOf_names ht.wf]
  simp [RazTree.items]

/-- **C08**, inner nodes: the stored names of a side are the names of its archive points, and the name of the
node itself. -/
theorem C08_names_inner {t : RazTree E Names} (h : t.Reachable .any) {lv nm ml mr l r}
    (hs : Tree.Sub (.node lv nm (.branch ml mr) l r) t.tree) (q : Name) :
    (q ∈ ml.names ↔ nm = some q ∨ q ∈ namesOf l.items) ∧ (q ∈ mr.names ↔ nm = some q ∨ q ∈ namesOf r.items) := by
  have ht := (Reach.t h).inv
  rcases ht.wf with hn | hw
  · rw [hn] at hs; cases hs
  · rcases hw.sub hs with h | h
    · cases h
    · cases h with
      | branch _ hl hr => exact ⟨mem_metaOf_names (.inr hl) lv nm q, mem_metaOf_names (.inr hr) lv nm q⟩

theorem insert_nodup {l : List Name} {n : Name} (h : l.Nodup) : (Names.insert l n).Nodup := by
  unfold Names.insert
  split
  · exact h
  · exact List.nodup_cons.2 ⟨by assumption, h⟩

theorem insertOpt_nodup {l : List Name} {n : Option Name} (h : l.Nodup) : (Names.insertOpt l n).Nodup := by
  cases n with
  | none => exact h
  | some n => exact insert_nodup h

/-- **C08.** A name set never lists a name twice, so that the list of the model is a set. -/
theorem C08_names_nodup {t : RazTree E Names} (h : t.Reachable .any) : t.info.names.Nodup := by
  have ht := (Reach.t h).inv
  rw [ht.info]
  have ins : ∀ l h : List Name, h.Nodup → (l.foldl Names.insert h).Nodup := by
    intro l
    induction l with
    | nil => exact fun _ h => h
    | cons n l ih => exact fun h hh => ih _ (insert_nodup hh)
  rcases ht.wf with hn | hw
  · rw [hn]; exact List.nodup_nil
  · revert hw
    generalize t.tree = tr
    intro hw
    cases hw with
    | leaf v => exact List.nodup_nil
    | @branch lv nm l r _ _ _ =>
      show (Names.fromMeta (metaOf lv nm l) (metaOf lv nm r) none).names.Nodup
      show (Names.insertOpt (List.foldl Names.insert (List.foldl Names.insert [] _) _) none).Nodup
      exact insertOpt_nodup (ins _ _ (ins _ _ List.nodup_nil))

example : (.str "b") ∈ (exTree Names).info.names := (C08_names (exTree_reach Names .any) _).2 (by decide)
example : (exTree Names).info.names.Nodup := C08_names_nodup (exTree_reach Names .any)
example : ∃ lv nm ml mr l r, Tree.Sub (.node lv nm (.branch ml mr) l r) (exTree Names).tree ∧ nm = some (.str "a") :=
  ⟨_, _, _, _, _, _, .left .refl, rfl⟩

end Iodyn
