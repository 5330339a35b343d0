import Verif.Model.Heap
import Verif.Proof.Cursor
/-
The store model (Verif/Model/Heap.lean) simulates the functional model: representation of trees, cursors and stacks by
handles, which named cells a representation depends on, and the cursor operations.
-/
namespace Iodyn.Heap
variable {D X E M A B C : Type}

/-! ### Simulation of one computation by another -/

/-- The store computation `m` from `σ` ends like `x`: with a result related by `R`, or with the same panic. -/
def Sim (m : H D X A) (σ : Mem D X) (x : P B) (R : B → A → Mem D X → Prop) : Prop :=
  match x with
  | .ok b => ∃ a σ', (∃ f0, ∀ f, f0 ≤ f → m f σ = .ok (a, σ')) ∧ R b a σ'
  | .error p => ∃ f0, ∀ f, f0 ≤ f → m f σ = .error p

/-- The same for a loop with a bound on the number of iterations. -/
def SimL (m : Nat → H D X A) (σ : Mem D X) (x : P B) (R : B → A → Mem D X → Prop) : Prop :=
  match x with
  | .ok b => ∃ a σ', (∃ f0, ∀ n f, f0 ≤ n → f0 ≤ f → m n f σ = .ok (a, σ')) ∧ R b a σ'
  | .error p => ∃ f0, ∀ n f, f0 ≤ n → f0 ≤ f → m n f σ = .error p

theorem run_ok {m : H D X A} {k : A → H D X C} {f : Nat} {σ σ' : Mem D X} {a : A} (h : m f σ = .ok (a, σ')) :
    (m >>= k) f σ = k a f σ' := by
  simp only [Bind.bind, h]

theorem run_err {m : H D X A} {k : A → H D X C} {f : Nat} {σ : Mem D X} {p : Panic} (h : m f σ = .error p) :
    (m >>= k) f σ = .error p := by
  simp only [Bind.bind, h]

theorem Sim.pure {σ : Mem D X} {a : A} {b : B} {R : B → A → Mem D X → Prop} (h : R b a σ) :
    Sim (Pure.pure a : H D X A) σ (.ok b) R := ⟨a, σ, ⟨0, fun _ _ => rfl⟩, h⟩

theorem Sim.mono {m : H D X A} {σ : Mem D X} {x : P B} {R S : B → A → Mem D X → Prop} (h : Sim m σ x R)
    (hrs : ∀ b a σ', x = .ok b → R b a σ' → S b a σ') : Sim m σ x S := by
  cases x with
  | error p => exact h
  | ok b => obtain ⟨a, σ', h1, h2⟩ := h; exact ⟨a, σ', h1, hrs b a σ' rfl h2⟩

theorem Sim.bind {m : H D X A} {k : A → H D X C} {σ : Mem D X} {x : P B} {B' : Type} {kx : B → P B'}
    {R : B → A → Mem D X → Prop} {S : B' → C → Mem D X → Prop} (h : Sim m σ x R)
    (hk : ∀ b a σ', x = .ok b → R b a σ' → Sim (k a) σ' (kx b) S) : Sim (m >>= k) σ (x >>= kx) S := by
  cases x with
  | error p =>
    obtain ⟨f0, hf⟩ := h
    exact ⟨f0, fun f hle => run_err (hf f hle)⟩
  | ok b =>
    obtain ⟨a, σ', ⟨f0, hf⟩, hr⟩ := h
    have h2 := hk b a σ' rfl hr
    have e1 : ∀ f, f0 ≤ f → (m >>= k) f σ = k a f σ' := by
      intro f hle
      exact run_ok (hf f hle)
    show Sim (m >>= k) σ (kx b) S
    cases hx : kx b with
    | error p =>
      rw [hx] at h2
      obtain ⟨f1, hf1⟩ := h2
      exact ⟨max f0 f1, fun f hle => by rw [e1 f (by omega), hf1 f (by omega)]⟩
    | ok c =>
      rw [hx] at h2
      obtain ⟨c', σ2, ⟨f1, hf1⟩, hs⟩ := h2
      exact ⟨c', σ2, ⟨max f0 f1, fun f hle => by rw [e1 f (by omega), hf1 f (by omega)]⟩, hs⟩

/-- A step that always runs the same way. -/
theorem Sim.step {m : H D X A} {k : A → H D X C} {σ σ' : Mem D X} {a : A} {x : P B} {S : B → C → Mem D X → Prop}
    (h : ∀ f, m f σ = .ok (a, σ')) (hk : Sim (k a) σ' x S) : Sim (m >>= k) σ x S := by
  have e1 : ∀ f, (m >>= k) f σ = k a f σ' := by
    intro f
    exact run_ok (h f)
  cases x with
  | error p => obtain ⟨f0, hf⟩ := hk; exact ⟨f0, fun f hle => by rw [e1, hf f hle]⟩
  | ok b => obtain ⟨c, σ2, ⟨f0, hf⟩, hs⟩ := hk; exact ⟨c, σ2, ⟨f0, fun f hle => by rw [e1, hf f hle]⟩, hs⟩

theorem Sim.lift {σ : Mem D X} (x : P A) : Sim (liftP x : H D X A) σ x (fun b a σ' => a = b ∧ σ' = σ) := by
  cases x with
  | error p => exact ⟨0, fun _ _ => rfl⟩
  | ok b => exact ⟨b, σ, ⟨0, fun _ _ => rfl⟩, rfl, rfl⟩

/-- A lifted computation followed by a continuation. -/
theorem Sim.liftBind {σ : Mem D X} {x : P A} {k : A → H D X C} {kx : A → P B} {S : B → C → Mem D X → Prop}
    (hk : ∀ b, x = .ok b → Sim (k b) σ (kx b) S) : Sim (liftP x >>= k) σ (x >>= kx) S := by
  refine (Sim.lift x).bind ?_
  rintro b a σ' hx ⟨rfl, rfl⟩
  exact hk _ hx

/-- A computation that is the same for both. -/
theorem Sim.error {σ : Mem D X} {p : Panic} {R : B → A → Mem D X → Prop} :
    Sim (liftP (.error p) : H D X A) σ (.error p) R := ⟨0, fun _ _ => rfl⟩

theorem SimL.run {m : Nat → H D X A} {σ : Mem D X} {x : P B} {R : B → A → Mem D X → Prop} (h : SimL m σ x R) :
    Sim (fun f => m f f) σ x R := by
  cases x with
  | error p => obtain ⟨f0, hf⟩ := h; exact ⟨f0, fun f hle => hf f f hle hle⟩
  | ok b => obtain ⟨a, σ', ⟨f0, hf⟩, hr⟩ := h; exact ⟨a, σ', ⟨f0, fun f hle => hf f f hle hle⟩, hr⟩

/-- The first iteration ends the loop. -/
theorem SimL.stop {m : Nat → H D X A} {m0 : H D X A} {σ : Mem D X} {x : P B} {R : B → A → Mem D X → Prop}
    (he : ∀ n, m (n+1) = m0) (h : Sim m0 σ x R) : SimL m σ x R := by
  cases x with
  | error p =>
    obtain ⟨f0, hf⟩ := h
    refine ⟨f0 + 1, fun n f hn hle => ?_⟩
    obtain ⟨n, rfl⟩ : ∃ k, n = k + 1 := ⟨n - 1, by omega⟩
    rw [he]; exact hf f (by omega)
  | ok b =>
    obtain ⟨a, σ', ⟨f0, hf⟩, hr⟩ := h
    refine ⟨a, σ', ⟨f0 + 1, fun n f hn hle => ?_⟩, hr⟩
    obtain ⟨n, rfl⟩ : ∃ k, n = k + 1 := ⟨n - 1, by omega⟩
    rw [he]; exact hf f (by omega)

theorem SimL.const {m : H D X A} {σ : Mem D X} {x : P B} {R : B → A → Mem D X → Prop} (h : Sim m σ x R) :
    SimL (fun _ => m) σ x R := by
  cases x with
  | error p => obtain ⟨f0, hf⟩ := h; exact ⟨f0, fun n f _ hle => hf f hle⟩
  | ok b => obtain ⟨a, σ', ⟨f0, hf⟩, hr⟩ := h; exact ⟨a, σ', ⟨f0, fun n f _ hle => hf f hle⟩, hr⟩

/-- One iteration, then the rest of the loop. -/
theorem SimL.bind {m : Nat → H D X C} {m0 : H D X A} {k : A → Nat → H D X C} {σ : Mem D X} {x : P B} {B' : Type}
    {kx : B → P B'} {R : B → A → Mem D X → Prop} {S : B' → C → Mem D X → Prop}
    (he : ∀ n, m (n+1) = m0 >>= fun a => k a n) (h : Sim m0 σ x R)
    (hk : ∀ b a σ', x = .ok b → R b a σ' → SimL (k a) σ' (kx b) S) : SimL m σ (x >>= kx) S := by
  cases x with
  | error p =>
    obtain ⟨f0, hf⟩ := h
    refine ⟨f0 + 1, fun n f hn hle => ?_⟩
    obtain ⟨n, rfl⟩ : ∃ k, n = k + 1 := ⟨n - 1, by omega⟩
    rw [he]
    exact run_err (hf f (by omega))
  | ok b =>
    obtain ⟨a, σ', ⟨f0, hf⟩, hr⟩ := h
    have h2 := hk b a σ' rfl hr
    have e1 : ∀ n f, f0 ≤ f → m (n+1) f σ = k a n f σ' := by
      intro n f hle
      rw [he]
      exact run_ok (hf f hle)
    show SimL m σ (kx b) S
    cases hx : kx b with
    | error p =>
      rw [hx] at h2
      obtain ⟨f1, hf1⟩ := h2
      refine ⟨max f0 f1 + 1, fun n f hn hle => ?_⟩
      obtain ⟨n, rfl⟩ : ∃ k, n = k + 1 := ⟨n - 1, by omega⟩
      rw [e1 n f (by omega), hf1 n f (by omega) (by omega)]
    | ok c =>
      rw [hx] at h2
      obtain ⟨c', σ2, ⟨f1, hf1⟩, hs⟩ := h2
      refine ⟨c', σ2, ⟨max f0 f1 + 1, fun n f hn hle => ?_⟩, hs⟩
      obtain ⟨n, rfl⟩ : ∃ k, n = k + 1 := ⟨n - 1, by omega⟩
      rw [e1 n f (by omega), hf1 n f (by omega) (by omega)]

/-- One iteration that always runs the same way, then the rest of the loop. -/
theorem SimL.step {m : Nat → H D X C} {m0 : H D X A} {k : A → Nat → H D X C} {σ σ' : Mem D X} {a : A} {x : P B}
    {S : B → C → Mem D X → Prop} (he : ∀ n, m (n+1) = m0 >>= fun a => k a n) (h : ∀ f, m0 f σ = .ok (a, σ'))
    (hk : SimL (k a) σ' x S) : SimL m σ x S :=
  SimL.bind (x := .ok ()) (kx := fun _ => x) (R := fun _ a' s => a' = a ∧ s = σ') he ⟨a, σ', ⟨0, fun f _ => h f⟩, rfl, rfl⟩
    (by rintro - a' s - ⟨rfl, rfl⟩; exact hk)

theorem SimL.mono {m : Nat → H D X A} {σ : Mem D X} {x : P B} {R S : B → A → Mem D X → Prop} (h : SimL m σ x R)
    (hrs : ∀ b a σ', x = .ok b → R b a σ' → S b a σ') : SimL m σ x S := by
  cases x with
  | error p => exact h
  | ok b => obtain ⟨a, σ', h1, h2⟩ := h; exact ⟨a, σ', h1, hrs b a σ' rfl h2⟩

theorem SimL.shift {m : Nat → H D X A} {σ : Mem D X} {x : P B} {R : B → A → Mem D X → Prop}
    (h : SimL (fun n => m (n+1)) σ x R) : SimL m σ x R := by
  cases x with
  | error p =>
    obtain ⟨f0, hf⟩ := h
    refine ⟨f0 + 1, fun n f hn hle => ?_⟩
    obtain ⟨n, rfl⟩ : ∃ k, n = k + 1 := ⟨n - 1, by omega⟩
    exact hf n f (by omega) (by omega)
  | ok b =>
    obtain ⟨a, σ', ⟨f0, hf⟩, hr⟩ := h
    refine ⟨a, σ', ⟨f0 + 1, fun n f hn hle => ?_⟩, hr⟩
    obtain ⟨n, rfl⟩ : ∃ k, n = k + 1 := ⟨n - 1, by omega⟩
    exact hf n f (by omega) (by omega)

theorem SimL.bind' {m0 : H D X A} {k : A → Nat → H D X C} {σ : Mem D X} {x : P B} {B' : Type}
    {kx : B → P B'} {R : B → A → Mem D X → Prop} {S : B' → C → Mem D X → Prop} (h : Sim m0 σ x R)
    (hk : ∀ b a σ', x = .ok b → R b a σ' → SimL (k a) σ' (kx b) S) :
    SimL (fun n => m0 >>= fun a => k a n) σ (x >>= kx) S := by
  cases x with
  | error p =>
    obtain ⟨f0, hf⟩ := h
    exact ⟨f0, fun n f hn hle => run_err (hf f (by omega))⟩
  | ok b =>
    obtain ⟨a, σ', ⟨f0, hf⟩, hr⟩ := h
    have h2 := hk b a σ' rfl hr
    have e1 : ∀ n f, f0 ≤ f → (m0 >>= fun a => k a n) f σ = k a n f σ' := fun n f hle => run_ok (hf f hle)
    show SimL _ σ (kx b) S
    cases hx : kx b with
    | error p =>
      rw [hx] at h2
      obtain ⟨f1, hf1⟩ := h2
      exact ⟨max f0 f1, fun n f hn hle => (e1 n f (by omega)).trans (hf1 n f (by omega) (by omega))⟩
    | ok c =>
      rw [hx] at h2
      obtain ⟨c', σ2, ⟨f1, hf1⟩, hs⟩ := h2
      exact ⟨c', σ2, ⟨max f0 f1, fun n f hn hle => (e1 n f (by omega)).trans (hf1 n f (by omega) (by omega))⟩, hs⟩

theorem SimL.step' {m0 : H D X A} {k : A → Nat → H D X C} {σ σ' : Mem D X} {a : A} {x : P B}
    {S : B → C → Mem D X → Prop} (h : ∀ f, m0 f σ = .ok (a, σ')) (hk : SimL (k a) σ' x S) :
    SimL (fun n => m0 >>= fun a => k a n) σ x S :=
  SimL.bind' (x := .ok ()) (kx := fun _ => x) (R := fun _ a' s => a' = a ∧ s = σ') ⟨a, σ', ⟨0, fun f _ => h f⟩, rfl, rfl⟩
    (by rintro - a' s - ⟨rfl, rfl⟩; exact hk)

theorem SimL.liftBind' {σ : Mem D X} {x : P A} {k : A → Nat → H D X C} {kx : A → P B} {S : B → C → Mem D X → Prop}
    (hk : ∀ b, x = .ok b → SimL (k b) σ (kx b) S) : SimL (fun n => liftP x >>= fun a => k a n) σ (x >>= kx) S := by
  refine SimL.bind' (Sim.lift x) ?_
  rintro b a σ' hx ⟨rfl, rfl⟩
  exact hk _ hx

/-! ### Names of cells -/

/-- The named cell behind a name: none with the functional engine. -/
def nm : Engine → Option Name → List Name
  | .naive, _ => []
  | .dcg, o => o.toList

/-- Named cells of a tree, in order. -/
def tN (e : Engine) : Tree D → List Name
  | .nil => []
  | .node _ n _ l r => tN e l ++ (nm e n ++ tN e r)

/-- Named cells of a left forest (with the branches that are part of the sequence). -/
def lN (e : Engine) : List (Bool × TNode D) → List Name
  | [] => []
  | (_, u) :: us => lN e us ++ (tN e u.l ++ nm e u.name)

/-- Named cells of a right forest. -/
def rN (e : Engine) : List (Bool × TNode D) → List Name
  | [] => []
  | (_, u) :: us => nm e u.name ++ (tN e u.r ++ rN e us)

/-- Named cells of a cursor, in order. -/
def cN (e : Engine) (c : Cursor D) : List Name := lN e c.lForest ++ (tN e c.tree ++ rN e c.rForest)

/-- No common name. -/
def Dis (a b : List Name) : Prop := ∀ x, x ∈ a → x ∉ b

theorem Dis.mono {a a' b b' : List Name} (h : Dis a b) (ha : a' ⊆ a) (hb : b' ⊆ b) : Dis a' b' :=
  fun x hx hb' => h x (ha hx) (hb hb')

theorem Dis.symm {a b : List Name} (h : Dis a b) : Dis b a := fun x hx hb' => h x hb' hx

theorem dis_app {a b : List Name} (h : (a ++ b).Nodup) : Dis a b := by
  intro x ha hb
  exact (List.nodup_append.1 h).2.2 x ha x hb rfl

/-! ### What a step leaves alone -/

/-- From `σ` to `σ'` only new anonymous cells and cells of the current namespace with a name in `N` were written. -/
structure Keeps (N : List Name) (σ σ' : Mem D X) : Prop where
  next : σ.next ≤ σ'.next
  path : σ'.path = σ.path
  anon : ∀ k, k < σ.next → σ'.cells (.anon k) = σ.cells (.anon k)
  named : ∀ n, n ∉ N → σ'.cells (.named n σ.path) = σ.cells (.named n σ.path)
  other : ∀ n q, q ≠ σ.path → σ'.cells (.named n q) = σ.cells (.named n q)

theorem Keeps.refl (N : List Name) (σ : Mem D X) : Keeps N σ σ :=
  ⟨Nat.le_refl _, rfl, fun _ _ => rfl, fun _ _ => rfl, fun _ _ _ => rfl⟩

theorem Keeps.trans {N : List Name} {σ σ' σ'' : Mem D X} (h : Keeps N σ σ') (h' : Keeps N σ' σ'') : Keeps N σ σ'' :=
  ⟨Nat.le_trans h.next h'.next, h'.path.trans h.path,
    fun k hk => (h'.anon k (Nat.lt_of_lt_of_le hk h.next)).trans (h.anon k hk),
    fun n hn => (h.path ▸ h'.named n hn).trans (h.named n hn),
    fun n q hq => (h'.other n q (h.path ▸ hq)).trans (h.other n q hq)⟩

theorem Keeps.mono {N N' : List Name} {σ σ' : Mem D X} (h : Keeps N σ σ') (hs : N ⊆ N') : Keeps N' σ σ' :=
  ⟨h.next, h.path, h.anon, fun n hn => h.named n (fun hm => hn (hs hm)), h.other⟩

/-- The namespaces, other than the current one, in which the structures at hand may have cells. -/
class Spaces where
  has : NsPath → Prop

/-- There are none, unless stated otherwise. -/
instance (priority := low) noSpaces : Spaces := ⟨fun _ => False⟩

variable [Spaces]

/-- The link of a node or stack cell with this name: with the incremental engine, a cell with that name in the current
namespace or one of the others. -/
def LinkOK (e : Engine) (σ : Mem D X) (n : Option Name) (l : Loc) : Prop :=
  match e, n with
  | .dcg, some x => ∃ q, (q = σ.path ∨ Spaces.has q) ∧ l = .named x q
  | _, _ => ∃ k, l = .anon k ∧ k < σ.next

theorem LinkOK.keep {e : Engine} {σ σ' : Mem D X} {n : Option Name} {l : Loc} {N : List Name} (h : LinkOK e σ n l)
    (hk : Keeps N σ σ') : LinkOK e σ' n l := by
  cases e <;> cases n <;> first
    | (simp only [LinkOK, hk.path] at h ⊢; exact h)
    | (obtain ⟨k, rfl, h⟩ := h; exact ⟨k, rfl, Nat.lt_of_lt_of_le h hk.next⟩)

theorem LinkOK.cell {e : Engine} {σ σ' : Mem D X} {n : Option Name} {l : Loc} {N : List Name} (h : LinkOK e σ n l)
    (hk : Keeps N σ σ') (hd : Dis (nm e n) N) : σ'.cells l = σ.cells l := by
  cases e <;> cases n <;> first
    | (obtain ⟨k, rfl, h⟩ := h; exact hk.anon k h)
    | (obtain ⟨q, -, rfl⟩ := h
       by_cases hq : q = σ.path
       · subst hq; exact hk.named _ (hd _ (by simp [nm]))
       · exact hk.other _ _ hq)

/-! ### Representation -/

/-- The handle `h` stands for the tree `t`. -/
def RepT (e : Engine) (σ : Mem D X) : Option Tr → Tree D → Prop
  | h, .nil => h = none
  | h, .node lv n d l r => ∃ k hl hr, h = some ⟨lv, n, k⟩ ∧ LinkOK e σ n k ∧ σ.cells k = some (.node d hl hr) ∧
      RepT e σ hl l ∧ RepT e σ hr r

/-- Equal for the purpose of `rebuild`. -/
def Same [TreeUpdate D] (a b : D) : Prop :=
  ∀ l lv n r, TreeUpdate.rebuild l a lv n r = TreeUpdate.rebuild l b lv n r

/-- Law of `rebuild`: rebuilt data rebuilds in the same way. -/
class LawfulUpdate (D : Type) [TreeUpdate D] : Prop where
  same : ∀ (l : Option D) d lv n r d', TreeUpdate.rebuild l d lv n r = .ok d' → Same d' d

/-- The entry of a left forest: its own cell and its left branch. -/
def RepLE [TreeUpdate D] (e : Engine) (σ : Mem D X) (h : Tr) (u : TNode D) : Prop :=
  h.level = u.level ∧ h.name = u.name ∧ LinkOK e σ u.name h.link ∧
    ∃ d hl hr, σ.cells h.link = some (.node d hl hr) ∧ Same d u.data ∧ RepT e σ hl u.l

/-- The entry of a right forest. -/
def RepRE [TreeUpdate D] (e : Engine) (σ : Mem D X) (h : Tr) (u : TNode D) : Prop :=
  h.level = u.level ∧ h.name = u.name ∧ LinkOK e σ u.name h.link ∧
    ∃ d hl hr, σ.cells h.link = some (.node d hl hr) ∧ Same d u.data ∧ RepT e σ hr u.r

/-- Left forests. -/
def RepL [TreeUpdate D] (e : Engine) (σ : Mem D X) : List (Bool × Tr) → List (Bool × TNode D) → Prop
  | hs, [] => hs = []
  | hs, (d, u) :: us => ∃ h hs', hs = (d, h) :: hs' ∧ RepLE e σ h u ∧ RepL e σ hs' us

/-- Right forests. -/
def RepR [TreeUpdate D] (e : Engine) (σ : Mem D X) : List (Bool × Tr) → List (Bool × TNode D) → Prop
  | hs, [] => hs = []
  | hs, (d, u) :: us => ∃ h hs', hs = (d, h) :: hs' ∧ RepRE e σ h u ∧ RepR e σ hs' us

/-- As long as the cursor is not dirty, the entry above still has the focused tree as its right branch. -/
def LinkL (σ : Mem D X) : Option Tr → Tree D → Bool → List (Bool × Tr) → List (Bool × TNode D) → Prop
  | below, T, false, (d, h) :: hs, (_, u) :: us =>
    (∃ hl, σ.cells h.link = some (.node u.data hl below)) ∧ u.r = T ∧ LinkL σ (some h) u.toTree d hs us
  | _, _, _, _, _ => True

/-- The same on the right. -/
def LinkR (σ : Mem D X) : Option Tr → Tree D → Bool → List (Bool × Tr) → List (Bool × TNode D) → Prop
  | below, T, false, (d, h) :: hs, (_, u) :: us =>
    (∃ hr, σ.cells h.link = some (.node u.data below hr)) ∧ u.l = T ∧ LinkR σ (some h) u.toTree d hs us
  | _, _, _, _, _ => True

theorem LinkL.dirty {σ : Mem D X} {b : Option Tr} {T : Tree D} {hs : List (Bool × Tr)} {us : List (Bool × TNode D)} :
    LinkL σ b T true hs us := by
  cases hs <;> cases us <;> exact trivial

theorem LinkR.dirty {σ : Mem D X} {b : Option Tr} {T : Tree D} {hs : List (Bool × Tr)} {us : List (Bool × TNode D)} :
    LinkR σ b T true hs us := by
  cases hs <;> cases us <;> exact trivial

/-- The store cursor `hc` stands for `c`. -/
structure RepC [TreeUpdate D] (e : Engine) (σ : Mem D X) (hc : Cur) (c : Cursor D) : Prop where
  dirty : hc.dirty = c.dirty
  l : RepL e σ hc.lForest c.lForest
  t : RepT e σ hc.tree c.tree
  r : RepR e σ hc.rForest c.rForest
  link : c.dirty = true ∨ (c.rForest = [] ∧ LinkL σ hc.tree c.tree c.dirty hc.lForest c.lForest) ∨
    (c.lForest = [] ∧ LinkR σ hc.tree c.tree c.dirty hc.rForest c.rForest)

/-! ### Frame lemmas -/

theorem RepT.keep {e : Engine} {σ σ' : Mem D X} {N : List Name} (hk : Keeps N σ σ') :
    ∀ {t : Tree D} {h : Option Tr}, RepT e σ h t → Dis (tN e t) N → RepT e σ' h t := by
  intro t
  induction t with
  | nil => intro h hr _; exact hr
  | node lv n d l r ihl ihr =>
    rintro h ⟨k, hl, hr, rfl, hlk, hc, h1, h2⟩ hd
    refine ⟨k, hl, hr, rfl, hlk.keep hk, ?_, ihl h1 (hd.mono (by simp [tN]) (List.Subset.refl _)),
      ihr h2 (hd.mono (fun x hx => by simp [tN, hx]) (List.Subset.refl _))⟩
    rw [hlk.cell hk (hd.mono (fun x hx => by simp [tN, hx]) (List.Subset.refl _)), hc]

section
variable [TreeUpdate D]

theorem RepLE.keep {e : Engine} {σ σ' : Mem D X} {N : List Name} (hk : Keeps N σ σ') {h : Tr} {u : TNode D}
    (hr : RepLE e σ h u) (hd : Dis (tN e u.l ++ nm e u.name) N) : RepLE e σ' h u := by
  obtain ⟨h1, h2, h3, d, hl, hrr, h4, h5, h6⟩ := hr
  refine ⟨h1, h2, h3.keep hk, d, hl, hrr, ?_, h5, h6.keep hk (hd.mono (by simp) (List.Subset.refl _))⟩
  rw [h3.cell hk (hd.mono (by simp) (List.Subset.refl _)), h4]

theorem RepRE.keep {e : Engine} {σ σ' : Mem D X} {N : List Name} (hk : Keeps N σ σ') {h : Tr} {u : TNode D}
    (hr : RepRE e σ h u) (hd : Dis (nm e u.name ++ tN e u.r) N) : RepRE e σ' h u := by
  obtain ⟨h1, h2, h3, d, hl, hrr, h4, h5, h6⟩ := hr
  refine ⟨h1, h2, h3.keep hk, d, hl, hrr, ?_, h5, h6.keep hk (hd.mono (by simp) (List.Subset.refl _))⟩
  rw [h3.cell hk (hd.mono (by simp) (List.Subset.refl _)), h4]

theorem RepL.keep {e : Engine} {σ σ' : Mem D X} {N : List Name} (hk : Keeps N σ σ') :
    ∀ {us : List (Bool × TNode D)} {hs : List (Bool × Tr)}, RepL e σ hs us → Dis (lN e us) N → RepL e σ' hs us := by
  intro us
  induction us with
  | nil => intro h hr _; exact hr
  | cons p us ih =>
    obtain ⟨d, u⟩ := p
    rintro hs ⟨h, hs', rfl, h1, h2⟩ hd
    exact ⟨h, hs', rfl, h1.keep hk (hd.mono (by simp [lN]) (List.Subset.refl _)),
      ih h2 (hd.mono (by simp [lN]) (List.Subset.refl _))⟩

theorem RepR.keep {e : Engine} {σ σ' : Mem D X} {N : List Name} (hk : Keeps N σ σ') :
    ∀ {us : List (Bool × TNode D)} {hs : List (Bool × Tr)}, RepR e σ hs us → Dis (rN e us) N → RepR e σ' hs us := by
  intro us
  induction us with
  | nil => intro h hr _; exact hr
  | cons p us ih =>
    obtain ⟨d, u⟩ := p
    rintro hs ⟨h, hs', rfl, h1, h2⟩ hd
    exact ⟨h, hs', rfl, h1.keep hk (hd.mono (by intro x; simp [rN]; tauto) (List.Subset.refl _)),
      ih h2 (hd.mono (by intro x; simp [rN]; tauto) (List.Subset.refl _))⟩

theorem LinkL.keep {e : Engine} {σ σ' : Mem D X} {N : List Name} (hk : Keeps N σ σ') :
    ∀ {us : List (Bool × TNode D)} {hs : List (Bool × Tr)} {b T d}, RepL e σ hs us → LinkL σ b T d hs us →
      Dis (lN e us) N → LinkL σ' b T d hs us := by
  intro us
  induction us with
  | nil => rintro hs b T d rfl _ _; cases d <;> exact trivial
  | cons p us ih =>
    obtain ⟨d', u⟩ := p
    rintro hs b T d ⟨h, hs', rfl, h1, h2⟩ hl hd
    cases d with
    | true => exact trivial
    | false =>
      obtain ⟨⟨hl', hc⟩, hT, hrest⟩ := hl
      refine ⟨⟨hl', ?_⟩, hT, ih h2 hrest (hd.mono (by simp [lN]) (List.Subset.refl _))⟩
      rw [h1.2.2.1.cell hk (hd.mono (by simp [lN]) (List.Subset.refl _)), hc]

theorem LinkR.keep {e : Engine} {σ σ' : Mem D X} {N : List Name} (hk : Keeps N σ σ') :
    ∀ {us : List (Bool × TNode D)} {hs : List (Bool × Tr)} {b T d}, RepR e σ hs us → LinkR σ b T d hs us →
      Dis (rN e us) N → LinkR σ' b T d hs us := by
  intro us
  induction us with
  | nil => rintro hs b T d rfl _ _; cases d <;> exact trivial
  | cons p us ih =>
    obtain ⟨d', u⟩ := p
    rintro hs b T d ⟨h, hs', rfl, h1, h2⟩ hl hd
    cases d with
    | true => exact trivial
    | false =>
      obtain ⟨⟨hl', hc⟩, hT, hrest⟩ := hl
      refine ⟨⟨hl', ?_⟩, hT, ih h2 hrest (hd.mono (by intro x; simp [rN]; tauto) (List.Subset.refl _))⟩
      rw [h1.2.2.1.cell hk (hd.mono (by intro x; simp [rN]; tauto) (List.Subset.refl _)), hc]

theorem RepC.keep {e : Engine} {σ σ' : Mem D X} {N : List Name} (hk : Keeps N σ σ') {hc : Cur} {c : Cursor D}
    (h : RepC e σ hc c) (hd : Dis (cN e c) N) : RepC e σ' hc c := by
  have dl : Dis (lN e c.lForest) N := hd.mono (by intro x; simp [cN]; tauto) (List.Subset.refl _)
  have dt : Dis (tN e c.tree) N := hd.mono (by intro x; simp [cN]; tauto) (List.Subset.refl _)
  have dr : Dis (rN e c.rForest) N := hd.mono (by intro x; simp [cN]; tauto) (List.Subset.refl _)
  refine ⟨h.dirty, h.l.keep hk dl, h.t.keep hk dt, h.r.keep hk dr, ?_⟩
  rcases h.link with h1 | ⟨h1, h2⟩ | ⟨h1, h2⟩
  · exact .inl h1
  · exact .inr (.inl ⟨h1, LinkL.keep hk h.l h2 dl⟩)
  · exact .inr (.inr ⟨h1, LinkR.keep hk h.r h2 dr⟩)

end

/-! ### Making and reading nodes -/

theorem newTree_run (e : Engine) (lv : Nat) (n : Option Name) (d : D) (l r : Option Tr) (σ : Mem D X) :
    ∃ k σ', (∀ f, newTree e lv n d l r f σ = .ok (⟨lv, n, k⟩, σ')) ∧ LinkOK e σ' n k ∧
      σ'.cells k = some (.node d l r) ∧ Keeps (nm e n) σ σ' := by
  cases n with
  | none =>
    refine ⟨.anon σ.next, _, fun f => rfl, ?_, by simp [Store.set], ?_⟩
    · cases e <;> exact ⟨σ.next, rfl, Nat.lt_succ_self _⟩
    · refine ⟨Nat.le_succ _, rfl, fun k hk => ?_, fun m _ => ?_, fun m q _ => ?_⟩
      · have : k ≠ σ.next := by omega
        simp [Store.set, this]
      · simp [Store.set]
      · simp [Store.set]
  | some m =>
    cases e with
    | naive =>
      refine ⟨.anon σ.next, _, fun f => rfl, ?_, by simp [Store.set], ?_⟩
      · exact ⟨σ.next, rfl, Nat.lt_succ_self _⟩
      · refine ⟨Nat.le_succ _, rfl, fun k hk => ?_, fun m _ => ?_, fun m q _ => ?_⟩
        · have : k ≠ σ.next := by omega
          simp [Store.set, this]
        · simp [Store.set]
        · simp [Store.set]
    | dcg =>
      refine ⟨.named m σ.path, _, fun f => rfl, ⟨_, .inl rfl, rfl⟩, by simp [Store.set], ?_⟩
      refine ⟨Nat.le_refl _, rfl, fun k hk => by simp [Store.set], fun x hx => ?_, fun x q hq => by simp [Store.set, hq]⟩
      have : x ≠ m := by simpa [nm] using hx
      simp [Store.set, this]

omit [Spaces] in
/-- Only one cell is written. -/
theorem newTree_only {e : Engine} {lv : Nat} {n : Option Name} {d : D} {l r : Option Tr} {f : Nat} {σ σ' : Mem D X} {h : Tr}
    (hr : newTree e lv n d l r f σ = .ok (h, σ')) {k : Loc} (hk : k ≠ h.link) : σ'.cells k = σ.cells k := by
  cases n <;> cases e <;> cases hr <;> exact if_neg hk

/-- A new node stands for the tree with the branches that its handles stand for. -/
theorem RepT.new {e : Engine} {σ σ' : Mem D X} {lv : Nat} {n : Option Name} {d : D} {hl hr : Option Tr} {l r : Tree D}
    {k : Loc} (h1 : LinkOK e σ' n k) (h2 : σ'.cells k = some (.node d hl hr)) (hk : Keeps (nm e n) σ σ')
    (hl' : RepT e σ hl l) (hr' : RepT e σ hr r) (dl : Dis (tN e l) (nm e n)) (dr : Dis (tN e r) (nm e n)) :
    RepT e σ' (some ⟨lv, n, k⟩) (.node lv n d l r) :=
  ⟨k, hl, hr, rfl, h1, h2, hl'.keep hk dl, hr'.keep hk dr⟩

theorem forceNode_run {k : Loc} {σ : Mem D X} {d : D} {l r : Option Tr} (h : σ.cells k = some (.node d l r)) :
    ∀ f, forceNode k f σ = .ok ((d, l, r), σ) := by
  intro f; simp [forceNode, h]

theorem lTree_run {h : Tr} {σ : Mem D X} {d : D} {l r : Option Tr} (hc : σ.cells h.link = some (.node d l r)) :
    ∀ f, h.lTree f σ = .ok (l, σ) := by
  intro f
  exact run_ok (forceNode_run hc f)

theorem rTree_run {h : Tr} {σ : Mem D X} {d : D} {l r : Option Tr} (hc : σ.cells h.link = some (.node d l r)) :
    ∀ f, h.rTree f σ = .ok (r, σ) := by
  intro f
  exact run_ok (forceNode_run hc f)

theorem peek_run {h : Tr} {σ : Mem D X} {d : D} {l r : Option Tr} (hc : σ.cells h.link = some (.node d l r)) :
    ∀ f, h.peek f σ = .ok (d, σ) := by
  intro f
  exact run_ok (forceNode_run hc f)

theorem peekOp_run {e : Engine} {σ : Mem D X} {h : Option Tr} {t : Tree D} (hr : RepT e σ h t) :
    ∀ f, peekOp h f σ = .ok (t.peek?, σ) := by
  intro f
  cases t with
  | nil => cases hr; rfl
  | node lv n d l r =>
    obtain ⟨k, hl, hr', rfl, h1, h2, h3, h4⟩ := hr
    exact run_ok (peek_run (h := ⟨lv, n, k⟩) h2 f)

theorem RepT.level {e : Engine} {σ : Mem D X} {h : Option Tr} {t : Tree D} (hr : RepT e σ h t) :
    h.map Tr.level = t.level? := by
  cases t with
  | nil => cases hr; rfl
  | node lv n d l r => obtain ⟨k, hl, hr', rfl, _⟩ := hr; rfl

theorem RepT.name {e : Engine} {σ : Mem D X} {h : Option Tr} {t : Tree D} (hr : RepT e σ h t) :
    h.bind Tr.name = t.name? := by
  cases t with
  | nil => cases hr; rfl
  | node lv n d l r => obtain ⟨k, hl, hr', rfl, _⟩ := hr; rfl

theorem RepT.isNone {e : Engine} {σ : Mem D X} {h : Option Tr} {t : Tree D} (hr : RepT e σ h t) :
    h.isNone = !t.isSome := by
  cases t with
  | nil => cases hr; rfl
  | node lv n d l r => obtain ⟨k, hl, hr', rfl, _⟩ := hr; rfl

end Iodyn.Heap
