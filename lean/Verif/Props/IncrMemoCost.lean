import Verif.Proof.IncrMemoCost
import Verif.Props.IncrMemoFrom
/-
C71 how much of `memo_from` is run again.
-/
namespace Iodyn.Incr
open Iodyn.Heap
variable {E M : Type}

/-! ### C71 -/

section
variable [RazMeta E M] [DecidableEq E] [DecidableEq M]

/-- **C71.** A stack is converted in a namespace in which others were converted before from the same end. It has the archive points `pre` above
`suf`, and `suf` was the lower part of the last one. At most one body is run for each point of `pre`, and for each point of `suf` that has
no larger one above it in `suf`. -/
theorem C71_work {w : End} {sp : FSpace E M} {H : List (List (HPt E))} (hh : ConvHistory w sp H) {σ : RMem E M} {pre suf : List (HPt E)}
    (hv : PView σ (pre ++ suf)) (hall : ∀ b ∈ H, PView σ b) (hn : (pn (pre ++ suf)).Nodup)
    (hr : ∀ x ∈ pn (pre ++ suf), ∀ b ∈ H, x ∈ pn b → ∃ b, H.head? = some b ∧ x ∈ pn b)
    {last : List (HPt E)} (hl : H.head? = some last) (hs : suf <:+ last) (hnm : ∀ p ∈ suf, p.1.name ≠ none) {n : Nat} {cur : List E} {o}
    (ho : memoFromRun w σ n ⟨cur, hd (pre ++ suf)⟩ sp = some (.ok o)) : o.work ≤ pre.length + records w [] suf :=
  Nat.le_trans (hh.kept.next hv hall hn hr (.inr ⟨last, hl, hs⟩) (List.suffix_append pre suf) hnm ho).2 (cnt_records w pre suf)

/-- **C71, at most one body for each archive point**, whatever was converted before from this end. -/
theorem C71_at_most_points {w : End} {sp : FSpace E M} {H : List (List (HPt E))} (hh : ConvHistory w sp H) {σ : RMem E M} {a : List (HPt E)}
    (hv : PView σ a) (hall : ∀ b ∈ H, PView σ b) (hn : (pn a).Nodup)
    (hr : ∀ x ∈ pn a, ∀ b ∈ H, x ∈ pn b → ∃ b, H.head? = some b ∧ x ∈ pn b) {n : Nat} {cur : List E} {o}
    (ho : memoFromRun w σ n ⟨cur, hd a⟩ sp = some (.ok o)) : o.work ≤ a.length := by
  have h := (hh.kept.next (suf := []) hv hall hn hr (.inl rfl) (List.nil_suffix) (fun p hp => by cases hp) ho).2
  have h2 := cnt_records w a []
  rw [List.append_nil] at h2
  exact Nat.le_trans h h2
end

/-- Levels of records grow. -/
theorem records_head_aux {B : Nat} : ∀ {l : List (HPt E)} {m : Nat} {above : List Nat}, (∀ p ∈ l, p.2.1 < B) → m ∈ above → m < B →
    records .head above l + m + 1 ≤ B := by
  intro l
  induction l with
  | nil => intro m above _ _ hm; simp only [records]; omega
  | cons p l ih =>
    intro m above hb hm hB
    simp only [records]
    have hl := fun q hq => hb q (List.mem_cons_of_mem _ hq)
    split
    · next hall =>
      have h1 := List.all_eq_true.1 hall m hm
      simp only [End.below, Bool.not_eq_true', decide_eq_false_iff_not] at h1
      have := ih (m := p.2.1) (above := p.2.1 :: above) hl List.mem_cons_self (hb p List.mem_cons_self)
      omega
    · have := ih (m := m) (above := p.2.1 :: above) hl (List.mem_cons_of_mem _ hm) hB
      omega

theorem records_head {B : Nat} {l : List (HPt E)} (h : ∀ p ∈ l, p.2.1 < B) : records .head [] l ≤ B := by
  cases l with
  | nil => exact Nat.zero_le _
  | cons p l =>
    have := records_head_aux (m := p.2.1) (above := [p.2.1]) (fun q hq => h q (List.mem_cons_of_mem _ hq)) List.mem_cons_self (h p List.mem_cons_self)
    simp only [records, List.all_nil]
    simp only [if_true]
    omega

/-- **C71, `AtHead`.** If the levels of the points that were there before are less than `B`, at most `B` of their bodies are run, however many
there are. -/
theorem C71_head [RazMeta E M] [DecidableEq E] [DecidableEq M] {sp : FSpace E M} {H : List (List (HPt E))} (hh : ConvHistory .head sp H) {σ : RMem E M}
    {pre suf : List (HPt E)} (hv : PView σ (pre ++ suf)) (hall : ∀ b ∈ H, PView σ b) (hn : (pn (pre ++ suf)).Nodup)
    (hr : ∀ x ∈ pn (pre ++ suf), ∀ b ∈ H, x ∈ pn b → ∃ b, H.head? = some b ∧ x ∈ pn b)
    {last : List (HPt E)} (hl : H.head? = some last) (hs : suf <:+ last) (hnm : ∀ p ∈ suf, p.1.name ≠ none) {B : Nat} (hB : ∀ p ∈ suf, p.2.1 < B)
    {n : Nat} {cur : List E} {o} (ho : memoFromRun .head σ n ⟨cur, hd (pre ++ suf)⟩ sp = some (.ok o)) : o.work ≤ pre.length + B := by
  have := C71_work hh hv hall hn hr hl hs hnm ho
  have := records_head hB
  omega

/-- Levels of records do not get smaller. -/
theorem records_tail_aux {B : Nat} : ∀ {l : List (HPt E)} {m : Nat} {above : List Nat}, (∀ p ∈ l, p.2.1 ≤ B) → m ∈ above → m = B →
    records .tail above l ≤ (l.filter fun p => p.2.1 == B).length := by
  intro l
  induction l with
  | nil => intro m above _ _ hm; simp [records]
  | cons p l ih =>
    intro m above hb hm hB
    have hi := ih (m := m) (above := p.2.1 :: above) (fun q hq => hb q (List.mem_cons_of_mem _ hq)) (List.mem_cons_of_mem _ hm) hB
    have hp := hb p List.mem_cons_self
    simp only [records, List.filter_cons]
    split
    · next hall =>
      have h1 := List.all_eq_true.1 hall m hm
      simp only [End.below, Bool.not_eq_true', decide_eq_false_iff_not] at h1
      rw [if_pos (by simp; omega)]
      simp only [List.length_cons]
      omega
    · split
      · simp only [List.length_cons]; omega
      · omega

/-- **C71, `AtTail`.** If the first of the points that were there before has the greatest level, only the bodies of those with the same level
are run. -/
theorem C71_tail [RazMeta E M] [DecidableEq E] [DecidableEq M] {sp : FSpace E M} {H : List (List (HPt E))} (hh : ConvHistory .tail sp H) {σ : RMem E M}
    {pre suf : List (HPt E)} {p : HPt E} (hv : PView σ (pre ++ p :: suf)) (hall : ∀ b ∈ H, PView σ b) (hn : (pn (pre ++ p :: suf)).Nodup)
    (hr : ∀ x ∈ pn (pre ++ p :: suf), ∀ b ∈ H, x ∈ pn b → ∃ b, H.head? = some b ∧ x ∈ pn b)
    {last : List (HPt E)} (hl : H.head? = some last) (hs : p :: suf <:+ last) (hnm : ∀ q ∈ p :: suf, q.1.name ≠ none) (hB : ∀ q ∈ suf, q.2.1 ≤ p.2.1)
    {n : Nat} {cur : List E} {o} (ho : memoFromRun .tail σ n ⟨cur, hd (pre ++ p :: suf)⟩ sp = some (.ok o)) :
    o.work ≤ pre.length + 1 + (suf.filter fun q => q.2.1 == p.2.1).length := by
  have h1 := C71_work hh hv hall hn hr hl hs hnm ho
  have h2 := records_tail_aux (m := p.2.1) (above := [p.2.1]) hB List.mem_cons_self rfl
  simp only [records, List.all_nil, if_true] at h1
  omega

/-! ### Examples -/

/-- Archive points with the names `n`, `n-1`, .. and the given levels, in the store. -/
def exPts : List Nat → List (HPt Nat)
  | [] => []
  | l :: ls => (⟨some (.usize ls.length), .named (.usize ls.length) []⟩, l, [ls.length]) :: exPts ls

def exPtCells : List Nat → RMem Nat Count
  | [] => Store.empty
  | l :: ls => ((exPtCells ls).cell .dcg (.usize ls.length) (.body (l, [ls.length]) (hd (exPts ls)))).1

/-- The bodies run when the points `ls` and then, with `l` on top, again are converted. -/
def exPtWorks (w : End) (l : Nat) (ls : List Nat) : Option (Nat × Nat) :=
  match memoFromRun w (exPtCells ls) 20 ⟨[100], hd (exPts ls)⟩ (Space.empty : FSpace Nat Count) with
  | some (.ok o) =>
    match memoFromRun w (exPtCells (l :: ls)) 20 ⟨[101], hd (exPts (l :: ls))⟩ o.space with
    | some (.ok o') => some (o.work, o'.work)
    | _ => none
  | _ => none

theorem exPtWorks_ok {w : End} {l : Nat} {ls : List Nat} {a b : Nat} (h : exPtWorks w l ls = some (a, b)) :
    ∃ o o', memoFromRun w (exPtCells ls) 20 ⟨[100], hd (exPts ls)⟩ (Space.empty : FSpace Nat Count) = some (.ok o) ∧
      memoFromRun w (exPtCells (l :: ls)) 20 ⟨[101], hd (exPts (l :: ls))⟩ o.space = some (.ok o') ∧ o.work = a ∧ o'.work = b := by
  unfold exPtWorks at h
  split at h
  · next o ho =>
    split at h
    · next o' ho' => cases h; exact ⟨o, o', ho, ho', rfl, rfl⟩
    · cases h
  · cases h

/-- The levels of seven archive points, and one more. -/
example : exPtWorks .head 2 [3, 1, 2, 4, 1, 2, 3] = some (7, 3) := by decide +kernel

theorem exPtCells_view : PView (exPtCells [3, 1, 2, 4, 1, 2, 3]) (exPts [3, 1, 2, 4, 1, 2, 3]) := by
  refine ⟨?_, ?_, ?_, ?_, ?_, ?_, ?_, trivial⟩ <;> decide +kernel

theorem exPtCells_view2 : PView (exPtCells [2, 3, 1, 2, 4, 1, 2, 3]) (exPts [2, 3, 1, 2, 4, 1, 2, 3]) := by
  refine ⟨?_, ?_, ?_, ?_, ?_, ?_, ?_, ?_, trivial⟩ <;> decide +kernel

/-- The theorem applies: of eight bodies three are run, for the new point and for those with the levels 3 and 4. -/
example : ∃ (sp : FSpace Nat Count) (o : _), ConvHistory .head sp [exPts [3, 1, 2, 4, 1, 2, 3]] ∧
    memoFromRun .head (exPtCells [2, 3, 1, 2, 4, 1, 2, 3]) 20 ⟨[101], hd (exPts [2, 3, 1, 2, 4, 1, 2, 3])⟩ sp = some (.ok o) ∧ o.work = 3 ∧
    records .head [] (exPts [3, 1, 2, 4, 1, 2, 3]) = 2 ∧ o.work ≤ 1 + records .head [] (exPts [3, 1, 2, 4, 1, 2, 3]) := by
  obtain ⟨o, o', h1, h2, -, h4⟩ := exPtWorks_ok (show exPtWorks .head 2 [3, 1, 2, 4, 1, 2, 3] = some (7, 3) by decide +kernel)
  have hh : ConvHistory .head o.space [exPts [3, 1, 2, 4, 1, 2, 3]] :=
    .conv .start exPtCells_view (fun b hb => by cases hb) (by decide +kernel) (fun x _ b hb => by cases hb) h1
  refine ⟨o.space, o', hh, h2, h4, by decide +kernel, ?_⟩
  refine C71_work (pre := [(⟨some (.usize 7), .named (.usize 7) []⟩, 2, [7])]) (suf := exPts [3, 1, 2, 4, 1, 2, 3]) hh exPtCells_view2 ?_ (by decide +kernel) ?_
    rfl List.suffix_rfl (by decide +kernel) h2
  · intro b hb
    rw [List.mem_singleton] at hb
    subst hb
    exact exPtCells_view2.2
  · intro x _ b hb hx
    rw [List.mem_singleton] at hb
    subst hb
    exact ⟨_, rfl, hx⟩

/-- With the same levels `AtTail` reuses as much here; but if all levels are equal it runs all the bodies again, and `AtHead` only two. -/
example : exPtWorks .tail 2 [3, 1, 2, 4, 1, 2, 3] = some (7, 3) := by decide +kernel
example : exPtWorks .tail 2 [2, 2, 2, 2, 2, 2] = some (6, 7) := by decide +kernel
example : exPtWorks .head 2 [2, 2, 2, 2, 2, 2] = some (6, 2) := by decide +kernel

end Iodyn.Incr
