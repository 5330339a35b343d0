import Verif.Proof.IncrMap
import Verif.Proof.IncrCost
import Verif.Model.IncrFold
/-
The first run in an unused namespace: no stored call can be used, so every node is visited once.
-/
namespace Iodyn.Incr
open Iodyn.Heap (Tr Cell Mem HTree)
variable {V W K R A D X D' X' E M F N : Type}

/-- A program without calls. -/
def Quiet : AProg V W K R A → Prop
  | .ret _ => True
  | .fail _ => True
  | .force _ k => ∀ x, Quiet (k x)
  | .peek _ k => ∀ x, Quiet (k x)
  | .alloc _ _ k => ∀ x, Quiet (k x)
  | .call .. => False

theorem after_work {rd : List (Loc × V)} {fs : List (Loc × W)} {w : Nat} {x : Option (P (AOut V W K R A))} {o : AOut V W K R A}
    (h : after rd fs w x = some (.ok o)) : ∃ o', x = some (.ok o') ∧ o.work = w + o'.work ∧ o.space = o'.space := by
  rcases x with _ | _ | o' <;> simp only [after, reduceCtorEq, Option.some.injEq, Except.ok.injEq] at h
  exact ⟨o', rfl, by rw [← h], by rw [← h]⟩

section
variable [DecidableEq V] [DecidableEq W] [DecidableEq K]

omit [DecidableEq V] [DecidableEq K] in
theorem alloc_table (s : Space V W K R) (n : Option Name) (v : W) : (s.alloc n v).1.table = s.table := by
  unfold Space.alloc Space.put
  split
  · rfl
  · split <;> rfl

theorem quiet_exec {callee : K → Space V W K R → Option (P (AOut V W K R R))} {σ : Store V} : ∀ {prog : AProg V W K R A}, Quiet prog →
    ∀ {s o}, amexec callee σ prog s = some (.ok o) → o.work = 0 ∧ o.space.table = s.table := by
  intro prog
  induction prog with
  | ret a => intro _ s o h; cases h; exact ⟨rfl, rfl⟩
  | fail q => intro _ s o h; cases h
  | force l k ih =>
    intro hq s o h
    unfold amexec at h
    split at h
    · cases h
    · obtain ⟨o', h1, h2, h3⟩ := after_work h
      obtain ⟨e1, e2⟩ := ih _ (hq _) h1
      exact ⟨by omega, by rw [h3, e2]⟩
  | peek l k ih =>
    intro hq s o h
    unfold amexec at h
    split at h
    · cases h
    · obtain ⟨o', h1, h2, h3⟩ := after_work h
      obtain ⟨e1, e2⟩ := ih _ (hq _) h1
      exact ⟨by omega, by rw [h3, e2]⟩
  | alloc n v k ih =>
    intro hq s o h
    unfold amexec at h
    obtain ⟨o', h1, h2, h3⟩ := after_work h
    obtain ⟨e1, e2⟩ := ih _ (hq _) h1
    exact ⟨by omega, by rw [h3, e2]; exact alloc_table s n v⟩
  | call n key k ih => intro hq; exact hq.elim
end

/-- The names of the calls below a node. -/
def callNames (v : Tree D) : List Name := (points v).map (·.1)

/-- The names of the calls for a branch. -/
def branchNames (n : Option Name) (v : Tree D) : List Name := (bpts n v).map (·.1)

section
variable [DecidableEq D] [DecidableEq X] [DecidableEq W]

/-- A run over a tree whose calls are not stored. -/
def Visits (run : Tr → Space (Cell D X) W Tr R → Option (P (AOut (Cell D X) W Tr R R))) (σ : Mem D X) (v : Tree (Tr × D)) : Prop :=
  ∀ h s o, View σ (some h) v → (nodeNames v).Nodup → (∀ m ∈ callNames v, s.table m = none) → run h s = some (.ok o) →
    o.work = v.size ∧ ∀ m, m ∉ callNames v → o.space.table m = s.table m

theorem branch_visits {run : Tr → Space (Cell D X) W Tr R → Option (P (AOut (Cell D X) W Tr R R))} {σ : Mem D X} {v : Tree (Tr × D)} (hv : Visits run σ v)
    {n : Option Name} {h : Option Tr} (hw : View σ h v) (hn : (nodeNames v).Nodup) {s : Space (Cell D X) W Tr R} (hs : ∀ m ∈ branchNames n v, s.table m = none)
    {k : Option R → AProg (Cell D X) W Tr R A} {o : AOut (Cell D X) W Tr R A} (ho : amexec run σ (memoBranch n h k) s = some (.ok o)) :
    ∃ r s' o', amexec run σ (k r) s' = some (.ok o') ∧ o.work = v.size + o'.work ∧ o.space = o'.space ∧ ∀ m, m ∉ branchNames n v → s'.table m = s.table m := by
  cases hw with
  | nil => exact ⟨none, s, o, ho, by simp [Tree.size], rfl, fun _ _ => rfl⟩
  | @node h d hl hr l r hc h1 h2 =>
    have hfresh : ∀ m ∈ callNames (.node h.level h.name (h, d) l r), s.table m = none := fun m hm => hs m (by
      simp only [branchNames, bpts, List.map_append, List.mem_append]
      exact .inr hm)
    have hout : ∀ m, m ∉ branchNames n (.node h.level h.name (h, d) l r) → m ∉ callNames (.node h.level h.name (h, d) l r) := fun m hm hm' => hm (by
      simp only [branchNames, bpts, List.map_append, List.mem_append]
      exact .inr hm')
    simp only [memoBranch] at ho
    cases n with
    | none =>
      unfold amexec at ho
      split at ho
      · cases ho
      · cases ho
      · rename_i c hcall
        obtain ⟨o', e1, e2, e3⟩ := after_work ho
        obtain ⟨f1, f2⟩ := hv h s c (.node hc h1 h2) hn hfresh hcall
        exact ⟨some c.val, c.space, o', e1, by omega, e3, fun m hm => f2 m (hout m hm)⟩
    | some n =>
      have hno : s.lookup n σ h = none := by
        unfold Space.lookup
        rw [hs n (by simp [branchNames, bpts, point])]
        rfl
      unfold amexec at ho
      simp only [hno] at ho
      split at ho
      · cases ho
      · cases ho
      · rename_i c hcall
        obtain ⟨o', e1, e2, e3⟩ := after_work ho
        obtain ⟨f1, f2⟩ := hv h s c (.node hc h1 h2) hn hfresh hcall
        refine ⟨some c.val, _, o', e1, by omega, e3, fun m hm => ?_⟩
        have hne : m ≠ n := fun he => hm (by subst he; simp [branchNames, bpts, point])
        simp only [Space.set, if_neg hne]
        exact f2 m (hout m hm)

theorem up_visits {node : NodeProg (Cell D X) W R D} (hq : ∀ a d lv nm b, Quiet (node a d lv nm b)) (σ : Mem D X) : ∀ (v : Tree (Tr × D)) (n : Nat),
    Visits (amrun (upBody node) σ n) σ v := by
  intro v
  induction v with
  | nil => intro n h s o hv; cases hv
  | node lv nm hd l r ihl ihr =>
    intro n h s o hv hnd hs ho
    cases n with
    | zero => cases ho
    | succ n =>
    cases hv with
    | @node _ d hl hr _ _ hc h1 h2 =>
    have cnt := List.nodup_iff_count_le_one.1 (memos_nodup hnd)
    have hsplit : ∀ x, (callNames (.node h.level h.name (h, d) l r)).count x =
        (branchNames (h.name.map .forkL) l).count x + (branchNames (h.name.map .forkR) r).count x := fun x => by
      simp only [callNames, branchNames, points, bpts, List.map_append, List.count_append]
      omega
    have hmem : ∀ x, x ∈ callNames (.node h.level h.name (h, d) l r) ↔ x ∈ branchNames (h.name.map .forkL) l ∨ x ∈ branchNames (h.name.map .forkR) r := fun x => by
      rw [← List.count_pos_iff, ← List.count_pos_iff, ← List.count_pos_iff, hsplit]
      omega
    simp only [nodeNames, List.append_assoc] at hnd
    have nd1 := List.nodup_append.1 hnd
    have nd2 := List.nodup_append.1 nd1.2.1
    unfold amrun at ho
    obtain ⟨o1, k1, k2, k3⟩ := after_work ho
    simp only [upBody, amexec, hc, forks_eq] at k1
    obtain ⟨o2, k4, k5, k6⟩ := after_work k1
    obtain ⟨a, s1, o3, k7, k8, k9, k10⟩ := branch_visits (ihl n) h1 nd2.1 (fun m hm => hs m ((hmem m).2 (.inl hm))) k4
    obtain ⟨b, s2, o4, k11, k12, k13, k14⟩ := branch_visits (ihr n) h2 nd2.2.1 (fun m hm => by
      rw [k10 m fun hm' => ?_]
      · exact hs m ((hmem m).2 (.inr hm))
      · have c0 := hsplit m
        have c1 := List.count_pos_iff.2 hm
        have c2 := List.count_pos_iff.2 hm'
        have c3 : (callNames (.node h.level h.name (h, d) l r)).count m ≤ 1 := cnt m
        omega) k7
    obtain ⟨k15, k16⟩ := quiet_exec (hq ..) k11
    refine ⟨by simp only [Tree.size]; omega, fun m hm => ?_⟩
    rw [hmem] at hm
    rw [k3, k6, k9, k13, k16, k14 m (fun h => hm (.inr h)), k10 m (fun h => hm (.inl h))]

/-- The first run visits every node once. -/
theorem up_fresh {node : NodeProg (Cell D X) W R D} (hq : ∀ a d lv nm b, Quiet (node a d lv nm b)) {σ : Mem D X} {h : Tr} {v : Tree (Tr × D)}
    (hv : View σ (some h) v) (hn : (nodeNames v).Nodup) {n : Nat} {o : AOut (Cell D X) W Tr R R} (ho : amrun (upBody node) σ n h Space.empty = some (.ok o)) :
    o.work = v.size := (up_visits hq σ v n h _ o hv hn (fun _ _ => rfl) ho).1
end

/-! ### `map` -/

/-- What `map` does at a node once the branches are mapped. -/
def mapNode (g : MapFn D D') : NodeProg (Cell D X) (Cell D' X') Tr D := fun l' d lv nm r' =>
  peekBranch l' fun a => peekBranch r' fun b =>
    match g d lv nm a b with
    | .error q => .fail q
    | .ok d' => .alloc nm (.node d' l' r') fun k => .ret ⟨lv, nm, k⟩

theorem mapBody_up (g : MapFn D D') : (mapBody g : Tr → AProg (Cell D X) (Cell D' X') Tr Tr Tr) = upBody (mapNode g) := by
  funext t
  rfl

theorem peek_quiet {t : Option Tr} {k : Option D' → AProg V (Cell D' X') Tr Tr A} (hk : ∀ a, Quiet (k a)) : Quiet (peekBranch t k) := by
  cases t with
  | none => exact hk none
  | some t =>
    intro c
    cases c with
    | body => trivial
    | node d _ _ => exact hk _

theorem mapNode_quiet (g : MapFn D D') (a : Option Tr) (d : D) (lv : Nat) (nm : Option Name) (b : Option Tr) :
    Quiet (mapNode g a d lv nm b : AProg (Cell D X) (Cell D' X') Tr Tr Tr) := by
  refine peek_quiet fun x => peek_quiet fun y => ?_
  split
  · trivial
  · exact fun _ => trivial

/-! ### reverse and filter -/

theorem top_quiet [RazMeta E N] {t : Tr} {k : N → AProg V (Cell (TreeData E N) (Nat × List E)) K R A} (hk : ∀ m, Quiet (k m)) : Quiet (topProg t k) := by
  intro c
  dsimp only
  split
  · trivial
  · trivial
  · exact hk _
  · exact hk _

theorem bin_quiet [RazMeta E M] {t1 t2 : Tr} {l : Nat} {n : Option Name} {k : Tr → AProg V (Cell (TreeData E M) (Nat × List E)) K R A}
    (hk : ∀ t, Quiet (k t)) : Quiet (binProg t1 l n t2 k) := by
  intro c c'
  dsimp only
  split
  · split
    · trivial
    · exact fun _ => hk _
  · trivial

theorem vec_quiet [RazMeta E N] (c : List E) : Quiet (vecTreeProg c : AProg V (Cell (TreeData E N) (Nat × List E)) Tr (HTree N) (HTree N)) := by
  unfold vecTreeProg fromVecProg
  split
  · trivial
  · exact fun _ => top_quiet fun _ => trivial

theorem join_quiet [RazMeta E N] (a b : HTree N) (lev : Nat) (nm : Option Name) :
    Quiet (unwrapJoinProg a lev nm b : AProg V (Cell (TreeData E N) (Nat × List E)) Tr (HTree N) (HTree N)) := by
  unfold unwrapJoinProg joinTreeProg
  split
  · exact bin_quiet fun _ => top_quiet fun _ => trivial
  · trivial

theorem rebuild_quiet [RazMeta E N] (c : Rebuild E) (a : Option (HTree N)) (d : TreeData E M) (lv : Nat) (nm : Option Name) (b : Option (HTree N)) :
    Quiet (c.node a d lv nm b : AProg V (Cell (TreeData E N) (Nat × List E)) Tr (HTree N) (HTree N)) := by
  have hb : ∀ x y : HTree N, Quiet (reverseBin x lv nm y : AProg V (Cell (TreeData E N) (Nat × List E)) Tr (HTree N) (HTree N)) := fun x y => by
    unfold reverseBin
    split
    · trivial
    · trivial
    · trivial
    · exact join_quiet ..
  have hf : ∀ x y : HTree N, Quiet (filterBin x lv nm y : AProg V (Cell (TreeData E N) (Nat × List E)) Tr (HTree N) (HTree N)) := fun x y => by
    unfold filterBin
    split
    · trivial
    · trivial
    · trivial
    · exact join_quiet ..
  cases c with
  | reverse =>
    simp only [Rebuild.node, gaugedProg]
    split
    · exact vec_quiet _
    · split
      · trivial
      · trivial
      · trivial
      · exact hb ..
  | filter p =>
    simp only [Rebuild.node, gaugedProg]
    split
    · exact vec_quiet _
    · split
      · trivial
      · trivial
      · trivial
      · exact hf ..

end Iodyn.Incr
