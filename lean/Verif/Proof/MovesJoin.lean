import Verif.Proof.MovesSame
import Verif.Proof.Canon
/-
The moves that joining cursors takes.
-/
namespace Iodyn
variable {A B : Type}

theorem Costs.pure (a : A) : Costs (Pure.pure a : Counting A) a 0 := fun _ => rfl
theorem Costs.still {x : P A} {a : A} (h : x = .ok a) : Costs (Iodyn.still x) a 0 := fun n => by rw [h]; rfl
theorem Costs.bind {m : Counting A} {a : A} {k : Nat} {f : A → Counting B} {b : B} {j : Nat} (h : Costs m a k) (hf : Costs (f a) b j) :
    Costs (m >>= f) b (k + j) := fun n => by
  show (m n >>= fun x => f x.1 x.2 : P (B × Nat)) = _
  rw [h n]
  show f a (n + k) = _
  rw [hf, Nat.add_assoc]
theorem Costs.move {m : Counting A} {a : A} {k : Nat} (h : Costs m a k) : Costs (Iodyn.move >>= fun _ => m) a (k + 1) := fun n => by
  show m (n + 1) = _
  rw [h, Nat.add_assoc, Nat.add_comm 1]
/-- The result is that of the uncounted computation. -/
theorem Costs.same {m : Counting A} {p : P A} {a : A} {k : Nat} (h : Costs m a k) (hs : Same m p) : p = .ok a := by
  rw [← hs 0, h 0]
  rfl
theorem Costs.eq {m : Counting A} {a : A} {k j : Nat} (h : Costs m a k) (e : k = j) : Costs m a j := e ▸ h

namespace Cursor
variable {E : Type}

theorem upC_cost [TreeUpdate E] {c : Cursor E} {x : Cursor E × UpResult} (h : c.up = .ok x) : Costs c.upC x 1 := (Costs.still h).move

/-- What `up` does. -/
theorem up_cases [TreeUpdate E] {c c' : Cursor E} {res : UpResult} (h : c.up = .ok (c', res)) :
    (res = .fail ∧ c' = c ∧ c.height = 0) ∨
    (res = .left ∧ ∃ d u rest, c.lForest = (d, u) :: rest ∧ c'.lForest = rest ∧ c'.rForest = c.rForest ∧ ∃ x r, c'.tree = .node u.level u.name x u.l r) ∨
    (res = .right ∧ ∃ d u rest, c.rForest = (d, u) :: rest ∧ c'.rForest = rest ∧ c'.lForest = c.lForest ∧ ∃ x l, c'.tree = .node u.level u.name x l u.r) := by
  unfold up at h
  split at h
  · rename_i hd
    cases h
    refine .inl ⟨rfl, rfl, ?_⟩
    unfold upDir at hd
    split at hd
    · rename_i h1 h2; simp [height, h1, h2]
    · cases hd
    · split at hd <;> cases hd
    · cases hd
  · split at h
    · cases h
    · rename_i d u rest hf
      split at h
      · obtain ⟨x, -, h⟩ := bind_ok.1 h
        cases h
        exact .inr (.inl ⟨rfl, d, u, rest, hf, rfl, rfl, x, _, rfl⟩)
      · cases h
        exact .inr (.inl ⟨rfl, d, u, rest, hf, rfl, rfl, u.data, u.r, rfl⟩)
  · split at h
    · cases h
    · rename_i d u rest hf
      split at h
      · obtain ⟨x, -, h⟩ := bind_ok.1 h
        cases h
        exact .inr (.inr ⟨rfl, d, u, rest, hf, rfl, rfl, x, _, rfl⟩)
      · cases h
        exact .inr (.inr ⟨rfl, d, u, rest, hf, rfl, rfl, u.data, u.l, rfl⟩)

theorem up_height [TreeUpdate E] {c c' : Cursor E} {res : UpResult} (h : c.up = .ok (c', res)) (hf : res ≠ .fail) : c'.height + 1 = c.height := by
  rcases up_cases h with ⟨rfl, -⟩ | ⟨-, d, u, rest, h1, h2, h3, -⟩ | ⟨-, d, u, rest, h1, h2, h3, -⟩
  · exact absurd rfl hf
  · simp only [height, h1, h2, h3, List.length_cons]; omega
  · simp only [height, h1, h2, h3, List.length_cons]; omega

theorem upUntilC_cost [TreeUpdate E] {stop : Cursor E → Bool} : ∀ {n : Nat} {c c' : Cursor E}, upUntil stop n c = .ok c' →
    ∃ k, Costs (upUntilC stop n c) c' k ∧ k + c'.height = c.height
  | 0, c, c', h => by
    unfold upUntil at h
    unfold upUntilC
    split at h
    · rename_i hs; cases h; rw [if_pos hs]; exact ⟨0, Costs.pure _, Nat.zero_add _⟩
    · cases h
  | n+1, c, c', h => by
    unfold upUntil at h
    unfold upUntilC
    split at h
    · rename_i hs; cases h; rw [if_pos hs]; exact ⟨0, Costs.pure _, Nat.zero_add _⟩
    · rename_i hs
      rw [if_neg hs]
      obtain ⟨⟨c1, res⟩, h1, h⟩ := bind_ok.1 h
      dsimp only at h
      split at h
      · cases h
      · rename_i hf
        obtain ⟨k, h2, h3⟩ := upUntilC_cost h
        refine ⟨1 + k, (upC_cost h1).bind ?_, ?_⟩
        · dsimp only
          rw [if_neg hf]
          exact h2
        · have := up_height h1 hf
          omega

theorem upAllC_cost [TreeUpdate E] : ∀ {n : Nat} {c c' : Cursor E}, c.height ≤ n → upAll n c = .ok c' → Costs (upAllC n c) c' (c.height + 1)
  | 0, c, c', hn, h => by
    cases h
    exact (Costs.pure c).move.eq (by omega)
  | n+1, c, c', hn, h => by
    unfold upAll at h
    unfold upAllC
    obtain ⟨⟨c1, res⟩, h1, h⟩ := bind_ok.1 h
    refine ((upC_cost h1).bind (j := c.height) ?_).eq (by omega)
    dsimp only at h ⊢
    split at h
    · rename_i hf
      cases h
      subst hf
      rw [if_pos rfl]
      refine (Costs.pure _).eq ?_
      rcases up_cases h1 with ⟨-, -, h⟩ | ⟨h, -⟩ | ⟨h, -⟩
      · exact h.symm
      · cases h
      · cases h
    · rename_i hf
      rw [if_neg hf]
      have := up_height h1 hf
      exact (upAllC_cost (by omega) h).eq this

/-- How far `descendRight` goes. -/
def descR (level : Nat) : Tree E → Nat
  | .nil => 0
  | .node lv _ _ _ r => if lv < level then 0 else 1 + descR level r
/-- How far `descendLeft` goes. -/
def descL (level : Nat) : Tree E → Nat
  | .nil => 0
  | .node lv _ _ l _ => if lv ≤ level then 0 else 1 + descL level l

theorem descendRightC_cost {level : Nat} : ∀ {t : Tree E} {d lf rf} {c' : Cursor E}, descendRight level ⟨d, lf, t, rf⟩ = .ok c' →
    Costs (descendRightC level ⟨d, lf, t, rf⟩) c' (descR level t) ∧ c'.height = lf.length + rf.length + descR level t ∧ c'.rForest = rf
  | .nil, d, lf, rf, c', h => by
    unfold descendRight at h
    cases h
    rw [descendRightC_nil]
    exact ⟨Costs.pure _, rfl, rfl⟩
  | .node lv nm x l r, d, lf, rf, c', h => by
    rw [descendRight_node] at h
    rw [descendRightC_node, descR]
    split at h
    · rename_i hl
      rw [if_pos hl, if_pos hl]
      cases h
      exact ⟨Costs.pure _, rfl, rfl⟩
    · rename_i hl
      rw [if_neg hl, if_neg hl]
      obtain ⟨h1, h2, h3⟩ := descendRightC_cost h
      refine ⟨h1.move.eq (Nat.add_comm _ _), ?_, h3⟩
      simp only [List.length_cons] at h2
      omega

theorem descendLeftC_cost {level : Nat} : ∀ {t : Tree E} {d lf rf} {c' : Cursor E}, descendLeft level ⟨d, lf, t, rf⟩ = .ok c' →
    Costs (descendLeftC level ⟨d, lf, t, rf⟩) c' (descL level t) ∧ c'.height = lf.length + rf.length + descL level t ∧ c'.lForest = lf
  | .nil, d, lf, rf, c', h => by
    unfold descendLeft at h
    cases h
    rw [descendLeftC_nil]
    exact ⟨Costs.pure _, rfl, rfl⟩
  | .node lv nm x l r, d, lf, rf, c', h => by
    rw [descendLeft_node] at h
    rw [descendLeftC_node, descL]
    split at h
    · rename_i hl
      rw [if_pos hl, if_pos hl]
      cases h
      exact ⟨Costs.pure _, rfl, rfl⟩
    · rename_i hl
      rw [if_neg hl, if_neg hl]
      obtain ⟨h1, h2, h3⟩ := descendLeftC_cost h
      refine ⟨h1.move.eq (Nat.add_comm _ _), ?_, h3⟩
      simp only [List.length_cons] at h2
      omega

/-- A join at `level` goes down at most `n` steps in the left cursor. -/
structure RS (level n : Nat) (c : Cursor E) : Prop where
  tree : c.rForest = [] → descR level c.tree ≤ n
  forest : ∀ p ∈ c.rForest, 1 + descR level p.2.r ≤ n
/-- A join at `level` goes down at most `n` steps in the right cursor. -/
structure LS (level n : Nat) (c : Cursor E) : Prop where
  tree : c.lForest = [] → descL level c.tree ≤ n
  forest : ∀ p ∈ c.lForest, 1 + descL level p.2.l ≤ n

theorem descR_node (level lv nm) (x : E) (l r : Tree E) : descR level (.node lv nm x l r) ≤ 1 + descR level r := by
  rw [descR]; split <;> omega
theorem descL_node (level lv nm) (x : E) (l r : Tree E) : descL level (.node lv nm x l r) ≤ 1 + descL level l := by
  rw [descL]; split <;> omega

theorem right_first [TreeUpdate E] {level m : Nat} : ∀ {n : Nat} {c c' : Cursor E}, RS level m c → upUntil (fun c => c.rForest.isEmpty) n c = .ok c' →
    c'.rForest = [] ∧ descR level c'.tree ≤ m
  | 0, c, c', hs, h => by
    unfold upUntil at h
    split at h
    · rename_i he
      cases h
      have : c.rForest = [] := by simpa using he
      exact ⟨this, hs.tree this⟩
    · cases h
  | n+1, c, c', hs, h => by
    unfold upUntil at h
    split at h
    · rename_i he
      cases h
      have : c.rForest = [] := by simpa using he
      exact ⟨this, hs.tree this⟩
    · rename_i he
      obtain ⟨⟨c1, res⟩, h1, h⟩ := bind_ok.1 h
      dsimp only at h
      split at h
      · cases h
      · rename_i hf
        refine right_first ?_ h
        rcases up_cases h1 with ⟨rfl, -⟩ | ⟨-, d, u, rest, e1, e2, e3, -⟩ | ⟨-, d, u, rest, e1, e2, e3, x, l, e4⟩
        · exact absurd rfl hf
        · exact ⟨fun e => absurd (e3 ▸ e) (by simpa using he), fun p hp => hs.forest p (e3 ▸ hp)⟩
        · refine ⟨fun _ => ?_, fun p hp => hs.forest p (by rw [e1]; exact List.mem_cons_of_mem _ (e2 ▸ hp))⟩
          rw [e4]
          exact Nat.le_trans (descR_node _ _ _ _ _ _) (hs.forest (d, u) (by rw [e1]; exact List.mem_cons_self))

theorem right_second [TreeUpdate E] {level m : Nat} : ∀ {n : Nat} {c c' : Cursor E}, c.rForest = [] → descR level c.tree ≤ m →
    upUntil (stopLeft level) n c = .ok c' → c'.rForest = [] ∧ descR level c'.tree ≤ m
  | 0, c, c', hr, hs, h => by
    unfold upUntil at h
    split at h
    · cases h; exact ⟨hr, hs⟩
    · cases h
  | n+1, c, c', hr, hs, h => by
    unfold upUntil at h
    split at h
    · cases h; exact ⟨hr, hs⟩
    · rename_i he
      obtain ⟨⟨c1, res⟩, h1, h⟩ := bind_ok.1 h
      dsimp only at h
      split at h
      · cases h
      · rename_i hf
        rcases up_cases h1 with ⟨rfl, -⟩ | ⟨-, d, u, rest, e1, e2, e3, x, r, e4⟩ | ⟨-, d, u, rest, e1, -⟩
        · exact absurd rfl hf
        · refine right_second (e3.trans hr) ?_ h
          have hu : u.level < level := by simpa [stopLeft, upLeftLevel, e1] using he
          rw [e4, descR, if_pos hu]
          exact Nat.zero_le _
        · rw [hr] at e1; cases e1

theorem left_first [TreeUpdate E] {level m : Nat} : ∀ {n : Nat} {c c' : Cursor E}, LS level m c → upUntil (fun c => c.lForest.isEmpty) n c = .ok c' →
    c'.lForest = [] ∧ descL level c'.tree ≤ m
  | 0, c, c', hs, h => by
    unfold upUntil at h
    split at h
    · rename_i he
      cases h
      have : c.lForest = [] := by simpa using he
      exact ⟨this, hs.tree this⟩
    · cases h
  | n+1, c, c', hs, h => by
    unfold upUntil at h
    split at h
    · rename_i he
      cases h
      have : c.lForest = [] := by simpa using he
      exact ⟨this, hs.tree this⟩
    · rename_i he
      obtain ⟨⟨c1, res⟩, h1, h⟩ := bind_ok.1 h
      dsimp only at h
      split at h
      · cases h
      · rename_i hf
        refine left_first ?_ h
        rcases up_cases h1 with ⟨rfl, -⟩ | ⟨-, d, u, rest, e1, e2, e3, x, r, e4⟩ | ⟨-, d, u, rest, e1, e2, e3, -⟩
        · exact absurd rfl hf
        · refine ⟨fun _ => ?_, fun p hp => hs.forest p (by rw [e1]; exact List.mem_cons_of_mem _ (e2 ▸ hp))⟩
          rw [e4]
          exact Nat.le_trans (descL_node _ _ _ _ _ _) (hs.forest (d, u) (by rw [e1]; exact List.mem_cons_self))
        · exact ⟨fun e => absurd (e3 ▸ e) (by simpa using he), fun p hp => hs.forest p (e3 ▸ hp)⟩

theorem left_second [TreeUpdate E] {level m : Nat} : ∀ {n : Nat} {c c' : Cursor E}, c.lForest = [] → descL level c.tree ≤ m →
    upUntil (stopRight level) n c = .ok c' → c'.lForest = [] ∧ descL level c'.tree ≤ m
  | 0, c, c', hr, hs, h => by
    unfold upUntil at h
    split at h
    · cases h; exact ⟨hr, hs⟩
    · cases h
  | n+1, c, c', hr, hs, h => by
    unfold upUntil at h
    split at h
    · cases h; exact ⟨hr, hs⟩
    · rename_i he
      obtain ⟨⟨c1, res⟩, h1, h⟩ := bind_ok.1 h
      dsimp only at h
      split at h
      · cases h
      · rename_i hf
        rcases up_cases h1 with ⟨rfl, -⟩ | ⟨-, d, u, rest, e1, -⟩ | ⟨-, d, u, rest, e1, e2, e3, x, r, e4⟩
        · exact absurd rfl hf
        · rw [hr] at e1; cases e1
        · refine left_second (e3.trans hr) ?_ h
          have hu : u.level ≤ level := by simpa [stopRight, upRightLevel, e1] using he
          rw [e4, descL, if_pos hu]
          exact Nat.zero_le _

/-- The moves of a join. -/
theorem joinC_cost [TreeUpdate E] {lc rc c : Cursor E} {level : Nat} {name : Option Name} {data : E} {n m : Nat} (h : join lc level name data rc = .ok c)
    (hl : RS level n lc) (hr : LS level m rc) : ∃ k, Costs (joinC lc level name data rc) c k ∧ k + c.height ≤ lc.height + rc.height + 2 * (n + m) ∧ lc.height + rc.height ≤ k + c.height := by
  unfold join at h
  obtain ⟨l1, a1, h⟩ := bind_ok.1 h
  obtain ⟨r1, b1, h⟩ := bind_ok.1 h
  obtain ⟨l2, a2, h⟩ := bind_ok.1 h
  obtain ⟨l3, a3, h⟩ := bind_ok.1 h
  obtain ⟨r2, b2, h⟩ := bind_ok.1 h
  obtain ⟨r3, b3, h⟩ := bind_ok.1 h
  obtain ⟨y, hy, h⟩ := bind_ok.1 h
  cases h
  obtain ⟨k1, c1, d1⟩ := upUntilC_cost a1
  obtain ⟨k2, c2, d2⟩ := upUntilC_cost b1
  obtain ⟨k3, c3, d3⟩ := upUntilC_cost a2
  obtain ⟨c4, d4, g4⟩ := descendRightC_cost (d := l2.dirty) (lf := l2.lForest) (t := l2.tree) (rf := l2.rForest) a3
  obtain ⟨k5, c5, d5⟩ := upUntilC_cost b2
  obtain ⟨c6, d6, g6⟩ := descendLeftC_cost (d := r2.dirty) (lf := r2.lForest) (t := r2.tree) (rf := r2.rForest) b3
  obtain ⟨s1, s2⟩ := right_first hl a1
  obtain ⟨g3, s3⟩ := right_second s1 s2 a2
  obtain ⟨s4, s5⟩ := left_first hr b1
  obtain ⟨g5, s6⟩ := left_second s4 s5 b2
  refine ⟨_, c1.bind (c2.bind (c3.bind (c4.bind (c5.bind (c6.bind ((Costs.still hy).bind (Costs.pure _))))))), ?_⟩
  simp only [height, g4, g6, g3, g5, s1, s4, List.length_nil] at *
  omega

end Cursor
end Iodyn
