import Verif.Proof.MemoFrom
/-
Archive stacks.
-/
namespace Iodyn
variable {E M : Type}

theorem astack_isEmpty_iff (s : AStack E M) : s.isEmpty = true ↔ s = ⟨[], []⟩ := by
  obtain ⟨cur, arch⟩ := s
  simp [AStack.isEmpty, Stack.isEmpty]

theorem StackP.nextArchive {ok : M → Prop} {s : AStack E M} (h : StackP ok s) : StackP ok s.nextArchive.1 := by
  unfold AStack.nextArchive
  split
  · exact h
  · split
    · intro p hp; simp at hp
    · rename_i heq
      intro p hp
      exact h p (by rw [heq]; exact List.mem_cons_of_mem _ hp)

theorem StackP.retrieve {ok : M → Prop} {s s' : AStack E M} {m} (h : StackP ok s) (hr : s.retrieve = .ok (s', m)) :
    StackP ok s' := by
  unfold AStack.retrieve at hr
  split at hr
  · obtain ⟨⟨m', v⟩, h1, hr⟩ := bind_ok.1 hr
    obtain ⟨a, h2, hr⟩ := bind_ok.1 hr
    simp [pure, Except.pure] at hr
    obtain ⟨rfl, -⟩ := hr
    rw [unwrap_ok] at h1 h2
    obtain ⟨cur, arch⟩ := s
    rcases arch with _ | ⟨x, rest⟩
    · simp [Stack.pull] at h2
    · simp [Stack.pull] at h2
      subst h2
      intro p hp
      exact h p (List.mem_cons_of_mem _ hp)
  · simp at hr
    obtain ⟨rfl, -⟩ := hr
    exact h

/-- Built stacks have no empty archives, and archived metadata is as given. -/
theorem AStack.Built.inv {ok : M → Prop} {s : AStack E M} (h : s.Built ok) : StackP ok s := by
  induction h with
  | new => intro p hp; simp [AStack.new] at hp
  | push e _ ih => exact ih
  | extend v _ ih => exact ih
  | extendRev v _ ih => exact ih
  | @archive s nm m hm _ ih =>
    unfold AStack.archive
    split
    · exact ih
    · rename_i hne
      intro p hp
      simp only [Stack.push, List.mem_cons] at hp
      rcases hp with rfl | hp
      · exact ⟨hm, by simpa using hne⟩
      · exact ih p hp
  | @pop s s' e _ hp ih =>
    unfold AStack.pop at hp
    split at hp
    · simp at hp; rw [← hp.1]; exact ih
    · obtain ⟨⟨s1, m⟩, h1, hp⟩ := bind_ok.1 hp
      simp [pure, Except.pure, AStack.popCurrent] at hp
      rw [← hp.1]
      exact fun p hp => ih.retrieve h1 p hp
  | @popMeta s s' e _ hp ih =>
    unfold AStack.popMeta at hp
    split at hp
    · simp at hp; rw [← hp.1]; exact ih
    · obtain ⟨⟨s1, m⟩, h1, hp⟩ := bind_ok.1 hp
      simp [pure, Except.pure, AStack.popCurrent] at hp
      rw [← hp.1]
      exact fun p hp => ih.retrieve h1 p hp
  | nextArchive _ ih => exact ih.nextArchive

theorem side_tidy {s : AStack E Nat} {ok : Nat → Prop} (h : StackP ok s) : Tidy s.side := by
  obtain ⟨cur, arch⟩ := s
  induction arch generalizing cur with
  | nil => rw [side_mk, side_nil, tidy_elems]; trivial
  | cons p rest ih =>
    obtain ⟨nm, lev, v⟩ := p
    rw [side_mk, side_arch, tidy_elems]
    have h' : StackP ok (⟨v, rest⟩ : AStack E Nat) := fun p hp => h p (List.mem_cons_of_mem _ hp)
    refine ⟨?_, ih v h'⟩
    have hv := (h (nm, lev, v) (by simp)).2
    have hv : v.reverse ≠ [] := by simpa using hv
    obtain ⟨e, w, hw⟩ := List.exists_cons_of_ne_nil hv
    exact ⟨e, w.map .elem ++ AStack.side (⟨[], rest⟩ : AStack E Nat), by rw [side_mk, hw]; rfl⟩

theorem keep_isMark (i : Item E) : i.keep.isMark = i.isMark := by cases i <;> rfl
theorem tidy_keep (l : List (Item E)) : Tidy (l.map Item.keep) ↔ Tidy l := by
  induction l with
  | nil => rfl
  | cons i l ih =>
    rcases isMark_or_elem i with hi | ⟨e, rfl⟩
    · rw [List.map_cons, tidy_cons_mark (by rw [keep_isMark]; exact hi), tidy_cons_mark hi, ih]
      constructor
      · rintro ⟨⟨e, r, h⟩, h2⟩
        refine ⟨?_, h2⟩
        cases l with
        | nil => simp at h
        | cons j l =>
          cases j <;> simp [Item.keep] at h
          exact ⟨_, _, rfl⟩
      · rintro ⟨⟨e, r, rfl⟩, h2⟩
        exact ⟨⟨e, r.map Item.keep, rfl⟩, h2⟩
    · exact ih

/-- If the active vector is not empty, or there is no archive, the stack has no empty subsequence. -/
theorem bottomUp_tidy {s : AStack E Nat} {ok : Nat → Prop} (h : StackP ok s) (ht : s.current ≠ [] ∨ s.archived = []) :
    TidySeq s.bottomUp := by
  have h1 := (tidy_keep _).2 (side_tidy h)
  have h0 : Tidy s.bottomUp := by
    have := tidy_rev_append (r := []) h1 trivial ?_
    · simpa [AStack.bottomUp] using this
    · intro m l' hl hm
      exfalso
      obtain ⟨cur, arch⟩ := s
      rcases ht with ht | ht
      · have hv : cur.reverse ≠ [] := by simpa using ht
        obtain ⟨e, w, hw⟩ := List.exists_cons_of_ne_nil hv
        rw [side_mk, hw] at hl
        simp [Item.keep] at hl
        rw [← hl.1] at hm
        simp [Item.isMark] at hm
      · simp only at ht
        subst ht
        rw [side_mk, side_nil] at hl
        cases hc : cur.reverse with
        | nil => rw [hc] at hl; simp at hl
        | cons e w =>
          rw [hc] at hl
          simp [Item.keep] at hl
          rw [← hl.1] at hm
          simp [Item.isMark] at hm
  refine ⟨h0, ?_⟩
  simpa [AStack.bottomUp] using h1

theorem TidySeq.reverse {l : List (Item E)} (h : TidySeq l) : TidySeq l.reverse := ⟨h.2, by simpa using h.1⟩

theorem topDown_tidy {s : AStack E Nat} {ok : Nat → Prop} (h : StackP ok s) (ht : s.current ≠ [] ∨ s.archived = []) :
    TidySeq s.topDown := by
  have := (bottomUp_tidy h ht).reverse
  simpa [AStack.bottomUp, AStack.topDown] using this

end Iodyn
