import Verif.Proof.HeapNsGood
import Verif.Proof.HeapFuel
import Verif.Props.Heap
/-
C68 namespaces: editing a clone within a namespace leaves the original alone.
-/
namespace Iodyn.Heap
variable {E M : Type} [RazMeta E M]

/-- A program has one result. -/
theorem AnswersNs.unique {e : Engine} {cs : List (NsPath × Cmd E (RazMeta.Index E M))} {r r' : P (List (Out E))}
    (h : AnswersNs (M := M) e cs r) (h' : AnswersNs (M := M) e cs r') : r = r' := by
  obtain ⟨f, hf⟩ := h
  obtain ⟨g, hg⟩ := h'
  rw [← hf (max f g) (Nat.le_max_left _ _), hg (max f g) (Nat.le_max_right _ _)]

/-- **C68, functional engine.** Namespaces do not matter. -/
theorem C68_functional_engine (cs : List (NsPath × Cmd E (RazMeta.Index E M))) : AnswersNs (M := M) .naive cs (answers M (cs.map (·.2))) :=
  answersNs_plain fun c _ => naive_nil c.2

/-- **C68, no names.** Without names a program gives the functional answers whatever the namespaces and clones. -/
theorem C68_no_names (cs : List (NsPath × Cmd E (RazMeta.Index E M))) (h : NoNames (cs.map (·.2))) :
    AnswersNs (M := M) .dcg cs (answers M (cs.map (·.2))) :=
  answersNs_plain fun c hc => by
    unfold NoNames at h
    rw [List.flatMap_eq_nil_iff] at h
    exact noNames_nil c.2 (h c.2 (List.mem_map_of_mem hc))

/-- **C68, in general.** A program that never uses a sequence after one of its cells may have been replaced through another
sequence gives the functional answers. -/
theorem C68_owned {e : Engine} {cs : List (NsPath × Cmd E (RazMeta.Index E M))} (h : Owned M cs) :
    AnswersNs (M := M) e cs (answers M (cs.map (·.2))) := answersNs_of_owned h

/-- **C68, names used once.** Statements may run in any namespaces. -/
theorem C68_names_used_once (cs : List (NsPath × Cmd E (RazMeta.Index E M))) (h : GoodNames (cs.map (·.2))) (hc : NoClones (cs.map (·.2))) :
    AnswersNs (M := M) .dcg cs (answers M (cs.map (·.2))) := by
  refine C68_owned (owned_of_once ?_ (fun c hc' => hc c.2 (List.mem_map_of_mem hc')))
  have := cells_once (M := M) h hc
  rwa [List.flatMap_map] at this

/-- **C68.** "Editing a mutable structure within a namespace should produce a version whose edits do not affect the original"
(src/lib.rs:23-26): sequences are made in the namespaces `S` by `cs`; a clone of variable `i` becomes variable `k`; the clone
is edited by `es` in other namespaces; the program goes on with `fs`, in the namespaces `S` and not with the clone. All
answers are those of the functional semantics, in which each variable has its own value. The names within `cs` and `es` are
used once, and those within `cs` and `fs`; `es` and `fs` may use the same names. -/
theorem C68_version {S : List NsPath} {cs fs : List (NsPath × Cmd E (RazMeta.Index E M))} {es : List (NsPath × ApiOp E (RazMeta.Index E M))}
    {i k : Nat} {p : NsPath} (hk : ∀ r, Vars.run (M := M) [] (cs.map (·.2)) = .ok r → r.1.length = k)
    (hcs : ∀ c ∈ cs, c.1 ∈ S) (hfs : ∀ c ∈ fs, c.1 ∈ S ∧ c.2.uses k = false) (hes : ∀ c ∈ es, c.1 ∉ S)
    (hc1 : NoClones (cs.map (·.2))) (hc2 : NoClones (fs.map (·.2)))
    (hn1 : GoodNames (cs.map (·.2) ++ es.map (fun c => .op k c.2))) (hn2 : GoodNames (cs.map (·.2) ++ fs.map (·.2))) :
    AnswersNs (M := M) .dcg (cs ++ (p, .clone i) :: (es.map (fun c => (c.1, .op k c.2)) ++ fs))
      (answers M (cs.map (·.2) ++ .clone i :: (es.map (fun c => .op k c.2) ++ fs.map (·.2)))) := by
  have hc1' : ∀ c ∈ cs, c.2.isClone = false := fun c hc => hc1 c.2 (List.mem_map_of_mem hc)
  have hc2' : ∀ c ∈ fs, c.2.isClone = false := fun c hc => hc2 c.2 (List.mem_map_of_mem hc)
  have n1 := cells_once (M := M) hn1 (by
    intro c hc
    rcases List.mem_append.1 hc with hc | hc
    · exact hc1 c hc
    · obtain ⟨o, -, rfl⟩ := List.mem_map.1 hc; rfl)
  have n2 := cells_once (M := M) hn2 (by
    intro c hc
    rcases List.mem_append.1 hc with hc | hc
    · exact hc1 c hc
    · exact hc2 c hc)
  rw [List.flatMap_append, List.flatMap_map, List.flatMap_map] at n1 n2
  have := C68_owned (e := .dcg) (owned_version (M := M) (i := i) (p0 := p) hk (fun c hc => ⟨hcs c hc, hc1' c hc⟩)
    (fun c hc => ⟨(hfs c hc).1, hc2' c hc, (hfs c hc).2⟩) hes n1 n2)
  simpa [Function.comp_def] using this

/-- **C68, on plain lists.** The answers are those of plain lists, where a statement changes no variable but its own. -/
theorem C68_lists [LawfulMeta E M] {e : Engine} {cs : List (NsPath × Cmd E (RazMeta.Index E M))} (h : Owned M cs) (hl : ∀ c ∈ cs, c.2.LevelOK)
    {os : List (Out E)} (ha : AnswersNs (M := M) e cs (.ok os)) : ∃ vs, LVRun [] (cs.map (·.2)) os vs := by
  have := ha.unique (C68_owned h)
  unfold Iodyn.answers at this
  cases hr : Vars.run (M := M) [] (cs.map (·.2)) with
  | error p => rw [hr] at this; simp [Except.map] at this
  | ok x =>
    obtain ⟨vs, os'⟩ := x
    rw [hr] at this
    simp only [Except.map, Except.ok.injEq] at this
    subst this
    refine ⟨readVars vs, (lists_run _ (vs := []) (fun i s hi => by simp at hi) (fun c hc => ?_) hr).1⟩
    obtain ⟨d, hd, rfl⟩ := List.mem_map.1 hc
    exact hl d hd

/-- **C68, no panic.** A permitted program without `focus` runs to its end. -/
theorem C68_runs [LawfulMeta E M] {e : Engine} {cs : List (NsPath × Cmd E (RazMeta.Index E M))} (h : Owned M cs) (hl : ∀ c ∈ cs, c.2.LevelOK)
    (hf : ∀ c ∈ cs, ∀ i x, c.2 ≠ .op i (.focus x)) : ∃ os, AnswersNs (M := M) e cs (.ok os) := by
  obtain ⟨os, ho⟩ := C41_runs (M := M) (e := .naive) (cs := cs.map (·.2)) (.inl rfl)
    (fun c hc => by obtain ⟨d, hd, rfl⟩ := List.mem_map.1 hc; exact hl d hd)
    (fun c hc => by obtain ⟨d, hd, rfl⟩ := List.mem_map.1 hc; exact hf d hd)
  have h2 := ho.unique (C41_functional_engine (M := M) _)
  exact ⟨os, h2 ▸ C68_owned h⟩

/-! ### Cases -/

/-- A sequence 1, 2, 3 with named archive points between; the first is the higher one. -/
def exNsBase : List (Cmd Nat (RazMeta.Index Nat Count)) :=
  [.new, .op 0 (.pushL 1), .op 0 (.archL 3 (some (.usize 7))), .op 0 (.pushL 2), .op 0 (.archL 1 (some (.usize 8))), .op 0 (.pushL 3),
    .op 0 .unfocus]

/-- An edit of the clone at the front, with a new archive point. -/
def exNsEdits : List (ApiOp Nat (RazMeta.Index Nat Count)) := [.focusLeft, .pushL 99, .archL 2 (some (.usize 9)), .unfocus]

/-- An edit of the original, with an archive point of the same name, and what is in it then. -/
def exNsRest (r : Nat) : List (Cmd Nat (RazMeta.Index Nat Count)) :=
  [.op 0 (.focus (3 : Nat)), .op 0 (.pushL 55), .op 0 (.archL 1 (some (.usize 9))), .op 0 .unfocus,
    .op r .focusLeft, .op r .popR, .op r .popR, .op r .popR, .op r .popR, .op r .popR]

/-- The whole program, with the edits of the clone in the namespace `p`. -/
def exNs (p : NsPath) (r : Nat) : List (NsPath × Cmd Nat (RazMeta.Index Nat Count)) :=
  exNsBase.map (fun c => ([], c)) ++ ([], .clone 0) :: ((exNsEdits.map (fun o => (p, o))).map (fun c => (c.1, .op 1 c.2)) ++
    (exNsRest r).map (fun c => ([], c)))

example : AnswersNs (M := Count) .dcg (exNs [.str "v"] 0) (.ok [.unit, .count 1, .unit, .count 1, .unit, .count 1, .unit, .unit,
    .unit, .count 1, .unit, .unit, .found true, .count 2, .unit, .unit,
    .unit, .val (some 1), .val (some 2), .val (some 3), .val (some 55), .val none]) := by
  have h := C68_version (M := Count) (S := [[]]) (cs := exNsBase.map (fun c => ([], c))) (fs := (exNsRest 0).map (fun c => ([], c)))
    (es := exNsEdits.map (fun o => ([.str "v"], o))) (i := 0) (k := 1) (p := [])
    (by
      have hl : ((Vars.run (M := Count) [] ((exNsBase.map (fun c => (([] : NsPath), c))).map (·.2))).toOption.map (·.1.length)) = some 1 := by
        decide +kernel
      intro r hr
      rw [hr] at hl
      exact Option.some.inj hl)
    (by simp [exNsBase]) (by simp [exNsRest, Cmd.uses]) (by simp [exNsEdits])
    (by intro c; simp [exNsBase]; rintro (rfl | rfl | rfl | rfl | rfl | rfl | rfl) <;> rfl)
    (by intro c; simp [exNsRest]; rintro (rfl | rfl | rfl | rfl | rfl | rfl | rfl | rfl | rfl | rfl) <;> rfl)
    (by constructor <;> simp [exNsBase, exNsEdits, Cmd.names])
    (by constructor <;> simp [exNsBase, exNsRest, Cmd.names])
  have e1 : answers Count ((exNs [.str "v"] 0).map (·.2)) = .ok [.unit, .count 1, .unit, .count 1, .unit, .count 1, .unit, .unit,
    .unit, .count 1, .unit, .unit, .found true, .count 2, .unit, .unit,
    .unit, .val (some 1), .val (some 2), .val (some 3), .val (some 55), .val none] := by decide +kernel
  rw [← e1]
  exact h

/-- Two versions in namespaces of their own, one within the other; both stay usable as long as the original is not edited. -/
def exNsTwo : List (NsPath × Cmd Nat (RazMeta.Index Nat Count)) :=
  exNsBase.map (fun c => ([], c)) ++ ([([], .clone 0), ([.str "v"], .op 1 .focusLeft), ([.str "v"], .op 1 (.pushL 99)), ([.str "v"], .op 1 .unfocus),
    ([], .clone 1), ([.str "w", .str "v"], .op 2 .focusLeft), ([.str "w", .str "v"], .op 2 .popR), ([.str "w", .str "v"], .op 2 .unfocus),
    ([.str "v"], .op 2 .focusLeft), ([], .op 0 .focusLeft), ([], .op 0 .popR)])

example : Owned Count exNsTwo ∧ (∀ c ∈ exNsTwo, c.2.LevelOK) ∧ (∀ c ∈ exNsTwo, ∀ i x, c.2 ≠ .op i (.focus x)) ∧ ¬ NoClones (exNsTwo.map (·.2)) ∧
    ∃ os vs, AnswersNs .dcg (M := Count) exNsTwo (.ok os) ∧ LVRun [] (exNsTwo.map (·.2)) os vs := by
  have h : Owned Count exNsTwo := by unfold Owned; decide +kernel
  have hl : ∀ c ∈ exNsTwo, c.2.LevelOK := by simp [exNsTwo, exNsBase, Cmd.LevelOK, ApiOp.LevelOK]
  have hf : ∀ c ∈ exNsTwo, ∀ i x, c.2 ≠ .op i (.focus x) := by simp [exNsTwo, exNsBase]
  obtain ⟨os, ho⟩ := C68_runs (e := .dcg) h hl hf
  obtain ⟨vs, hv⟩ := C68_lists h hl ho
  exact ⟨h, hl, hf, fun hc => absurd (hc (.clone 0) (by simp [exNsTwo])) (by simp [Cmd.isClone]), os, vs, ho, hv⟩

/-- Names used once in several namespaces. -/
example : GoodNames (((exNsBase.zip [[], [], [Name.str "v"], [], [.str "w", .str "v"], [], [.str "w"]]).map (fun c => (c.2, c.1))).map (·.2)) ∧
    NoClones (((exNsBase.zip [[], [], [Name.str "v"], [], [.str "w", .str "v"], [], [.str "w"]]).map (fun c => (c.2, c.1))).map (·.2)) := by
  constructor
  · constructor <;> simp [exNsBase, Cmd.names]
  · intro c; simp [exNsBase]; rintro (rfl | rfl | rfl | rfl | rfl | rfl | rfl) <;> rfl

/-- A program without names, with clones in different namespaces. -/
example : NoNames ((exClones.map (fun c => ([Name.str "v"], c))).map (·.2)) := rfl

/-- The namespace is needed: with the edits of the clone in the namespace of the original, the original is changed. -/
theorem C68_same_namespace : ∃ os, AnswersNs (M := Count) .dcg (exNs [] 0) (.ok os) ∧ answers Count ((exNs [] 0).map (·.2)) ≠ .ok os ∧
    os.drop 16 = [.unit, .val (some 99), .val (some 1), .val (some 2), .val (some 55), .val (some 3)] := by
  exact ⟨[.unit, .count 1, .unit, .count 1, .unit, .count 1, .unit, .unit, .unit, .count 1, .unit, .unit, .found true, .count 2, .unit, .unit,
    .unit, .val (some 99), .val (some 1), .val (some 2), .val (some 55), .val (some 3)], .of_run 20 (by decide +kernel), by decide +kernel, rfl⟩

/-- The guarantee is one way: the version in the namespace still refers to cells of the original, so editing the original
changes the version (its last element is now 55). -/
theorem C68_version_follows_original : ∃ os, AnswersNs (M := Count) .dcg (exNs [.str "v"] 1) (.ok os) ∧
    answers Count ((exNs [.str "v"] 1).map (·.2)) ≠ .ok os ∧
    os.drop 16 = [.unit, .val (some 99), .val (some 1), .val (some 2), .val (some 3), .val (some 55)] := by
  exact ⟨[.unit, .count 1, .unit, .count 1, .unit, .count 1, .unit, .unit, .unit, .count 1, .unit, .unit, .found true, .count 2, .unit, .unit,
    .unit, .val (some 99), .val (some 1), .val (some 2), .val (some 3), .val (some 55)], .of_run 20 (by decide +kernel), by decide +kernel, rfl⟩

end Iodyn.Heap
