import Verif.Spec.Actions
import Verif.Props.Session
import Verif.Props.Adder
import Verif.Props.Entry
/-
C104: the tables of the test driver.
-/
namespace Iodyn.Eval
variable {D E G O R S T W τ : Type}

theorem tableLoop_ok {edit : Editor τ S D} {comp : Computor W S D O} : ∀ (n : Nat) (r r' : Table τ W O) (d : D) (s s' : S),
    tableLoop edit comp n r d s = .ok (r', s') ↔ ∃ rows, Rounds edit comp d s rows s' ∧ rows.length = n ∧
      r' = ⟨r.edits ++ rows.map (·.1), r.computes ++ rows.map (·.2.1), r.answers ++ rows.map (·.2.2)⟩ := by
  intro n
  induction n with
  | zero =>
    intro r r' d s s'
    simp only [tableLoop, Except.ok.injEq, Prod.mk.injEq]
    constructor
    · rintro ⟨rfl, rfl⟩
      exact ⟨[], .nil, rfl, by simp⟩
    · rintro ⟨rows, h1, h2, h3⟩
      rw [List.length_eq_zero_iff] at h2
      subst h2
      cases h1
      exact ⟨by simpa using h3.symm, rfl⟩
  | succ n ih =>
    intro r r' d s s'
    simp only [tableLoop, bind_ok, Prod.exists]
    constructor
    · rintro ⟨t, d1, s1, h1, w, o, s2, h2, h3⟩
      obtain ⟨rows, g1, g2, g3⟩ := (ih _ _ _ _ _).1 h3
      exact ⟨_, .cons h1 h2 g1, by simp [g2], by simpa using g3⟩
    · rintro ⟨rows, h1, h2, h3⟩
      cases h1 with
      | nil => cases h2
      | cons e1 e2 e3 =>
        exact ⟨_, _, _, e1, _, _, _, e2, (ih _ _ _ _ _).2 ⟨_, e3, by simpa using h2, by simpa using h3⟩⟩

/-- **C104.** The table of a session: the driver finishes with a table exactly if the creation, the first computation and all
changes go through, and then the table has the time of the creation and of each edit, and the times and answers of all computations,
in the order in which they were made; every computation sees the data of its time. -/
theorem C104_table (init : Creator τ S D) (edit : Editor τ S D) (comp : Computor W S D O) (n : Nat) (s s' : S) (r : Table τ W O) :
    testTable init edit comp n s = .ok (r, s') ↔ ∃ t d s1 w o s2 rows, init s = .ok (t, d, s1) ∧ comp d s1 = .ok (w, o, s2) ∧
      Rounds edit comp d s2 rows s' ∧ rows.length = n ∧
      r = ⟨t :: rows.map (·.1), w :: rows.map (·.2.1), o :: rows.map (·.2.2)⟩ := by
  simp only [testTable, bind_ok, Prod.exists, tableLoop_ok, List.nil_append, List.cons_append]
  constructor
  · rintro ⟨t, d, s1, h1, w, o, s2, h2, rows, h3⟩
    exact ⟨t, d, s1, w, o, s2, rows, h1, h2, h3⟩
  · rintro ⟨t, d, s1, w, o, s2, rows, h1, h2, h3⟩
    exact ⟨t, d, s1, h1, w, o, s2, h2, rows, h3⟩

/-- **C104.** So there is one entry more than there are changes, in each column. -/
theorem C104_rows {init : Creator τ S D} {edit : Editor τ S D} {comp : Computor W S D O} {n : Nat} {s s' : S} {r : Table τ W O}
    (h : testTable init edit comp n s = .ok (r, s')) :
    r.edits.length = n + 1 ∧ r.computes.length = n + 1 ∧ r.answers.length = n + 1 := by
  obtain ⟨t, d, s1, w, o, s2, rows, -, -, -, h4, rfl⟩ := (C104_table ..).1 h
  simp [h4]

theorem staged_length {D O : Type} {n : Nat} {c : Computor (List τ) S D O} (hc : Staged n c) :
    ∀ {d s ts o s'}, c d s = .ok (ts, o, s') → ts.length = n := by
  induction hc with
  | folder comp =>
    intro d s ts o s' h
    simp only [folder, bind_ok, Prod.exists, pure, Except.pure, Except.ok.injEq, Prod.mk.injEq] at h
    obtain ⟨_, _, _, -, rfl, -⟩ := h
    rfl
  | ffolder comp finish =>
    intro d s ts o s' h
    simp only [ffolder, bind_ok, Prod.exists, pure, Except.pure, Except.ok.injEq, Prod.mk.injEq] at h
    obtain ⟨_, _, _, -, _, _, -, rfl, -⟩ := h
    rfl
  | proj0 =>
    intro d s ts o s' h
    simp only [proj0, Except.ok.injEq, Prod.mk.injEq] at h
    rw [← h.1]
    rfl
  | compute2 ha hb iha ihb =>
    intro d s ts o s' h
    simp only [compute2, bind_ok, Prod.exists, pure, Except.pure, Except.ok.injEq, Prod.mk.injEq] at h
    obtain ⟨_, _, _, h1, _, _, _, h2, rfl, -⟩ := h
    simp [iha h1, ihb h2]

theorem Rounds.all {edit : Editor τ S D} {comp : Computor W S D O} {Q : W → Prop} (hQ : ∀ d s w o s', comp d s = .ok (w, o, s') → Q w)
    {d s rows s'} (h : Rounds edit comp d s rows s') : ∀ x ∈ rows, Q x.2.1 := by
  induction h with
  | nil => simp
  | cons _ h2 _ ih =>
    intro x hx
    rcases List.mem_cons.1 hx with rfl | hx
    · exact hQ _ _ _ _ _ h2
    · exact ih x hx

/-- **C104.** If the computation is made of `k` folds one after another, then every row of the table has exactly `k` times, so
that the rows of all changes, and of all experiments with as many folds, can be compared column by column. -/
theorem C104_stages {init : Creator τ S D} {edit : Editor τ S D} {comp : Computor (List τ) S D O} {k : Nat} (hk : Staged k comp)
    {n : Nat} {s s' : S} {r : Table τ (List τ) O} (h : testTable init edit comp n s = .ok (r, s')) : ∀ ts ∈ r.computes, ts.length = k := by
  obtain ⟨t, d, s1, w, o, s2, rows, -, h2, h3, -, rfl⟩ := (C104_table ..).1 h
  have hr := h3.all (Q := fun ts : List τ => ts.length = k) (fun _ _ _ _ _ h => staged_length hk h)
  intro ts hts
  rcases List.mem_cons.1 hts with rfl | hts
  · exact staged_length hk h2
  · obtain ⟨x, hx, rfl⟩ := List.mem_map.1 hts
    exact hr x hx

/-- **C104.** The times of two computations one after another: first those of the first, then those of the second, which gets the
answer of the first. -/
theorem C104_compute2 {I J K : Type} (a : Computor (List τ) S I J) (b : Computor (List τ) S J K) (d : I) (s s' : S) (ts : List τ) (o : K) :
    compute2 a b d s = .ok (ts, o, s') ↔
      ∃ ta j s1 tb, a d s = .ok (ta, j, s1) ∧ b j s1 = .ok (tb, o, s') ∧ ts = ta ++ tb := by
  simp only [compute2, bind_ok, Prod.exists, pure, Except.pure, Except.ok.injEq, Prod.mk.injEq, List.nil_append]
  constructor
  · rintro ⟨ta, j, s1, h1, tb, o', s2, h2, rfl, rfl, rfl⟩
    exact ⟨ta, j, s1, tb, h1, h2, rfl⟩
  · rintro ⟨ta, j, s1, tb, h1, h2, rfl⟩
    exact ⟨ta, j, s1, h1, tb, o, s', h2, rfl, rfl, rfl⟩

/-- **C104.** The time in the table is that of the fold alone: the final function gets the result of the fold, its time is not recorded. -/
theorem C104_folds {A : Type} (comp : D → S → P (τ × A × S)) (finish : A → S → P (O × S)) (d : D) (s s' : S) (ts : List τ) :
    (∀ a, folder comp d s = .ok (ts, a, s') ↔ ∃ t, comp d s = .ok (t, a, s') ∧ ts = [t]) ∧
    (∀ o, ffolder comp finish d s = .ok (ts, o, s') ↔ ∃ t a s1, comp d s = .ok (t, a, s1) ∧ finish a s1 = .ok (o, s') ∧ ts = [t]) := by
  constructor
  · intro a
    simp only [folder, bind_ok, Prod.exists, pure, Except.pure, Except.ok.injEq, Prod.mk.injEq, List.nil_append]
    constructor
    · rintro ⟨t, a, s1, h, rfl, rfl, rfl⟩
      exact ⟨t, h, rfl⟩
    · rintro ⟨t, h, rfl⟩
      exact ⟨t, a, s', h, rfl, rfl, rfl⟩
  · intro o
    simp only [ffolder, bind_ok, Prod.exists, pure, Except.pure, Except.ok.injEq, Prod.mk.injEq, List.nil_append]
    constructor
    · rintro ⟨t, a, s1, h, o', s2, h2, rfl, rfl, rfl⟩
      exact ⟨t, a, s1, h, h2, rfl⟩
    · rintro ⟨t, a, s1, h, h2, rfl⟩
      exact ⟨t, a, s1, h, o, s', h2, rfl, rfl, rfl⟩

/-- **C104.** With a clock that does not go back, no recorded time is negative, and the time is what has passed between two
successive readings. -/
theorem C104_span {X Q : Type} {read : Q → Int × Q} (hm : ∀ q, (read q).1 ≤ (read (read q).2).1) {body : S → P (X × S)} {w w' : S × Q} {t : Int} {x : X}
    (h : span read body w = .ok (t, x, w')) :
    0 ≤ t ∧ (read w.2).1 + t = (read (read w.2).2).1 ∧ w'.2 = (read (read w.2).2).2 ∧ body w.1 = .ok (x, w'.1) := by
  simp only [span, bind_ok, Prod.exists, pure, Except.pure, Except.ok.injEq, Prod.mk.injEq] at h
  obtain ⟨x', s', h1, h2, rfl, rfl⟩ := h
  have := hm w.2
  exact ⟨by omega, by omega, rfl, h1⟩

theorem untimed_ok {Q X Y : Type} {x : P (Y × X × (S × Q))} {a : X} {s : S} (h : untimed x = .ok (a, s)) :
    ∃ y q, x = .ok (y, a, (s, q)) := by
  rcases x with e | ⟨y, a', s', q⟩
  · cases h
  · cases h
    exact ⟨y, q, rfl⟩

theorem untimed_error {Q X Y : Type} {x : P (Y × X × (S × Q))} {e : Panic} (h : untimed x = .error e) : x = .error e := by
  rcases x with e' | y
  · cases h
    rfl
  · cases h

/-- **C104.** Taking times does not matter: if creation, edits and computations of the driver are, apart from clock and times, those
of the model without times, then the table has the answers of that model, and it panics when that does. -/
theorem C104_untimed {Q : Type} {init : Creator τ ((T × R) × Q) D} {edit : Editor τ ((T × R) × Q) D} {comp : Computor W ((T × R) × Q) D O}
    {create : R → P (D × R)} {edit' : D → R → P (D × R)} {compute : T → D → P (T × O)}
    (hi : ∀ σ rng q, untimed (init ((σ, rng), q)) = (create rng).map fun x => (x.1, (σ, x.2)))
    (he : ∀ d σ rng q, untimed (edit d ((σ, rng), q)) = (edit' d rng).map fun x => (x.1, (σ, x.2)))
    (hc : ∀ d σ rng q, untimed (comp d ((σ, rng), q)) = (compute σ d).map fun x => (x.2, (x.1, rng)))
    (n : Nat) (σ : T) (rng : R) (q : Q) :
    (testTable init edit comp n ((σ, rng), q)).map (fun x => (x.1.answers, x.2.1.2)) =
      (test create edit' compute n σ rng).map fun x => (x.1.map (·.2), x.2) := by
  have loop : ∀ (n : Nat) (r : Table τ W O) (d : D) (σ : T) (rng : R) (q : Q),
      (tableLoop edit comp n r d ((σ, rng), q)).map (fun x => (x.1.answers, x.2.1.2)) =
        (testLoop edit' compute n d σ rng).map fun x => (r.answers ++ x.1.map (·.2), x.2) := by
    intro n
    induction n with
    | zero =>
      intro r d σ rng q
      simp [tableLoop, testLoop, Except.map]
    | succ n ih =>
      intro r d σ rng q
      have h1 := he d σ rng q
      simp only [tableLoop, testLoop]
      rcases h2 : edit' d rng with e | ⟨d', rng'⟩
      · rw [h2] at h1
        rw [untimed_error h1]
        rfl
      · rw [h2] at h1
        obtain ⟨t, q', h3⟩ := untimed_ok h1
        have h4 := hc d' σ rng' q'
        simp only [h3, bind, Except.bind]
        rcases h5 : compute σ d' with e | ⟨σ', o⟩
        · rw [h5] at h4
          rw [untimed_error h4]
          rfl
        · rw [h5] at h4
          obtain ⟨w, q2, h6⟩ := untimed_ok h4
          simp only [h6]
          rw [ih]
          rcases testLoop edit' compute n d' σ' rng' with e | x
          · rfl
          · simp [Except.map, pure, Except.pure]
  have h1 := hi σ rng q
  simp only [testTable, test]
  rcases h2 : create rng with e | ⟨d', rng'⟩
  · rw [h2] at h1
    rw [untimed_error h1]
    rfl
  · rw [h2] at h1
    obtain ⟨t, q', h3⟩ := untimed_ok h1
    have h4 := hc d' σ rng' q'
    simp only [h3, bind, Except.bind]
    rcases h5 : compute σ d' with e | ⟨σ', o⟩
    · rw [h5] at h4
      rw [untimed_error h4]
      rfl
    · rw [h5] at h4
      obtain ⟨w, q2, h6⟩ := untimed_ok h4
      simp only [h6]
      rw [loop]
      rcases testLoop edit' compute n d' σ' rng' with e | x
      · rfl
      · simp [Except.map, pure, Except.pure]

theorem untimed_span {X Q : Type} (read : Q → Int × Q) (body : S → P (X × S)) (s : S) (q : Q) :
    untimed (span read body (s, q)) = body s := by
  simp only [span, bind, Except.bind]
  rcases body s with e | ⟨x, s'⟩
  · rfl
  · rfl

/-- The driver for any of the actions with a time around it. -/
theorem untimed_span_map {X Q : Type} (read : Q → Int × Q) (f : R → P (X × R)) (σ : T) (rng : R) (q : Q) :
    untimed (span read (fun w : T × R => (f w.2).map fun x => (x.1, (w.1, x.2))) ((σ, rng), q)) = (f rng).map fun x => (x.1, (σ, x.2)) :=
  untimed_span read _ _ _

namespace Adder

/-- **C104.** The two experiments of the adder: apart from times, the computation that is put together from folds is the program `inc`,
or `nonInc`, whose results are those of C47, C53 and C76; it takes two times. -/
theorem C104_adder {Q : Type} (read : Q → Int × Q) (datagauge namegauge : Nat) (coord : G) :
    (∀ (s : EvalRaz Char Count G) (w : S) (q : Q),
      untimed (incComp read datagauge namegauge coord s (w, q)) = (inc s datagauge namegauge coord).map fun a => (a, w)) ∧
    (∀ (s : EvalVec Char G) (w : S) (q : Q),
      untimed (nonIncComp read datagauge namegauge coord s (w, q)) = (nonInc s coord).map fun a => (a, w)) ∧
    Staged 2 (incComp (S := S) read datagauge namegauge coord) ∧ Staged 2 (nonIncComp (S := S) read datagauge namegauge coord) := by
  refine ⟨fun s w q => ?_, fun s w q => ?_, .compute2 (.ffolder _ _) (.ffolder _ _), .compute2 (.ffolder _ _) (.ffolder _ _)⟩
  · simp only [incComp, compute2, ffolder, span, inc, incrementalFrom, bind, Except.bind, pure, Except.pure]
    generalize s.compFoldMeta _ _ _ = x
    rcases x with e | (e | st)
    · rfl
    · rfl
    · simp only
      generalize (EvalRaz.incFromTail _ datagauge namegauge coord : P (EvalRaz Token Count G)) = x
      rcases x with e | toks
      · rfl
      · simp only
        generalize toks.compFoldMeta _ _ _ = x
        rcases x with e | (e | n)
        · rfl
        · rfl
        · rfl
  · simp only [nonIncComp, compute2, ffolder, span, nonInc, incrementalFrom, bind, Except.bind, pure, Except.pure]
    generalize s.compFold _ _ = x
    rcases x with e | st
    · rfl
    · simp only
      generalize (EvalVec.incFrom _ coord).compFold _ _ = x
      rcases x with e | n
      · rfl
      · rfl

end Adder

/-- **C104.** Sessions with any computation that takes a single time: for every clock the table has the answers of the session without
times, or the session panics as that does; so the sessions of C67 and C54 have these answers in the driver's order. -/
theorem C104_session {Q : Type} (read : Q → Int × Q) (create : R → P (D × R)) (edit : D → R → P (D × R)) (compute : T → D → P (T × O))
    (n : Nat) (σ : T) (rng : R) (q : Q) :
    (timedTable read create edit (single fun d => span read fun w => (compute w.1 d).map fun x => (x.2, (x.1, w.2))) n ((σ, rng), q)).map
        (fun x => (x.1.answers, x.2.1.2)) =
      (test create edit compute n σ rng).map fun x => (x.1.map (·.2), x.2) :=
  C104_untimed (fun σ rng q => untimed_span_map read create σ rng q) (fun d σ rng q => untimed_span_map read (edit d) σ rng q)
    (fun d σ rng q => untimed_span read (fun w : T × R => (compute w.1 d).map fun x => (x.2, (x.1, w.2))) (σ, rng) q) n σ rng q

/-- **C104.** Sessions of both experiments of the adder: the tables have the answers of the sessions without times, for every clock, and in
each row there are two times. -/
theorem C104_adder_session {Q : Type} (read : Q → Int × Q) (datagauge namegauge : Nat) (coord : G) (n : Nat)
    (create : R → P (EvalRaz Char Count G × R)) (edit : EvalRaz Char Count G → R → P (EvalRaz Char Count G × R))
    (create' : R → P (EvalVec Char G × R)) (edit' : EvalVec Char G → R → P (EvalVec Char G × R)) (rng : R) (q : Q) :
    ((timedTable read create edit (Adder.incComp read datagauge namegauge coord) n (((), rng), q)).map (fun x => (x.1.answers, x.2.1.2)) =
        (test create edit (plainly (T := Unit) fun s => Adder.inc s datagauge namegauge coord) n () rng).map (fun x => (x.1.map (·.2), x.2)) ∧
      ∀ r w, timedTable read create edit (Adder.incComp read datagauge namegauge coord) n (((), rng), q) = .ok (r, w) →
        r.edits.length = n + 1 ∧ r.computes.length = n + 1 ∧ r.answers.length = n + 1 ∧ ∀ ts ∈ r.computes, ts.length = 2) ∧
    ((timedTable read create' edit' (Adder.nonIncComp read datagauge namegauge coord) n (((), rng), q)).map (fun x => (x.1.answers, x.2.1.2)) =
        (test create' edit' (plainly (T := Unit) fun s => Adder.nonInc s coord) n () rng).map (fun x => (x.1.map (·.2), x.2)) ∧
      ∀ r w, timedTable read create' edit' (Adder.nonIncComp read datagauge namegauge coord) n (((), rng), q) = .ok (r, w) →
        r.edits.length = n + 1 ∧ r.computes.length = n + 1 ∧ r.answers.length = n + 1 ∧ ∀ ts ∈ r.computes, ts.length = 2) := by
  obtain ⟨h1, h2, h3, h4⟩ := Adder.C104_adder (S := Unit × R) read datagauge namegauge coord
  have plain : ∀ {D O : Type} (f : D → P O) (d : D) (rng : R),
      (f d).map (fun a => (a, ((), rng))) = (plainly (T := Unit) f () d).map fun x => (x.2, (x.1, rng)) := by
    intro D O f d rng
    simp only [plainly, bind, Except.bind, pure, Except.pure]
    rcases f d with e | a
    · rfl
    · rfl
  refine ⟨⟨C104_untimed (fun σ rng q => untimed_span_map read create σ rng q) (fun d σ rng q => untimed_span_map read (edit d) σ rng q)
    (fun d _ rng q => ?_) n () rng q, fun r w h => ?_⟩, C104_untimed (fun σ rng q => untimed_span_map read create' σ rng q)
    (fun d σ rng q => untimed_span_map read (edit' d) σ rng q) (fun d _ rng q => ?_) n () rng q, fun r w h => ?_⟩
  · rw [h1]
    exact plain (fun s => Adder.inc s datagauge namegauge coord) d rng
  · obtain ⟨a, b, c⟩ := C104_rows h
    exact ⟨a, b, c, C104_stages h3 h⟩
  · rw [h2]
    exact plain (fun s => Adder.nonInc s coord) d rng
  · obtain ⟨a, b, c⟩ := C104_rows h
    exact ⟨a, b, c, C104_stages h4 h⟩

/-! ### Single appends -/

/-- **C104.** `n` times `SingleAppend` and once `BatchAppend(n)` add the same elements and leave the same generator, although the
archive points may differ. -/
theorem C104_single_append {u : Usage} (C : Coord G E) (word : R → BitVec 64 × R) : ∀ (n : Nat) {s : EvalRaz E Count G} {t : RazTree E Count}
    (_ : s.raztree = some t) (_ : t.Reachable u) (rng : R) (_ : s.datagauge ≠ 0) (_ : s.namegauge ≠ 0)
    (_ : s.namegauge * s.datagauge ≤ usizeMax) (_ : t.elems.length + n < usizeMax) (_ : s.counter + n < usizeMax) (_ : s.names + 2 * n < usizeMax),
    ∃ s1 t1 r1 s2 t2 r2, singles C word n s rng = .ok (s1, r1) ∧
      batchAppend (fun s b rng => (EvalIRaz.append C word s b rng).map fun x => ((), x)) n s rng = .ok ((), s2, r2) ∧
      s1.raztree = some t1 ∧ s2.raztree = some t2 ∧ t1.Reachable u ∧ t2.Reachable u ∧
      t1.elems = t.elems ++ draws C.elem s.coord n ∧ t2.elems = t1.elems ∧ s2.coord = s1.coord ∧ s2.counter = s1.counter := by
  intro n s t ht hr rng hd hn hq hl hc hm
  have hdv := Nat.div_le_self n (s.namegauge * s.datagauge)
  have key : ∀ (n : Nat) {s : EvalRaz E Count G} {t : RazTree E Count} (_ : s.raztree = some t) (_ : t.Reachable u) (rng : R)
      (_ : s.datagauge ≠ 0) (_ : s.namegauge ≠ 0) (_ : s.namegauge * s.datagauge ≤ usizeMax) (_ : t.elems.length + n < usizeMax)
      (_ : s.counter + n < usizeMax) (_ : s.names + 2 * n < usizeMax),
      ∃ s1 t1 r1, singles C word n s rng = .ok (s1, r1) ∧ s1.raztree = some t1 ∧ t1.Reachable u ∧
        t1.elems = t.elems ++ draws C.elem s.coord n ∧ s1.coord = after C.elem s.coord n ∧ s1.counter = s.counter + n := by
    intro n
    induction n with
    | zero =>
      intro s t ht hr rng _ _ _ _ _ _
      exact ⟨s, t, rng, rfl, ht, hr, by simp [draws], rfl, rfl⟩
    | succ n ih =>
      intro s t ht hr rng hd hn hq hl hc hm
      have hdv := Nat.div_le_self 1 (s.namegauge * s.datagauge)
      obtain ⟨s', t', h1, h2, h3, h4, h5, h6, h7, h8⟩ := C45_append C word ht hr (by omega) 1 rng ⟨hd, hn, hq, by omega, by simp [usizeMax], by omega⟩
      simp only [Edit.spec, Prod.mk.injEq] at h4
      have hlen : t'.elems.length = t.elems.length + 1 := by rw [h4.1]; simp [draws]
      obtain ⟨s1, t1, r1, g1, g2, g3, g4, g5, g6⟩ := ih h2 h3 (after word rng (1 / s.datagauge + 1)) (by rw [h7]; exact hd) (by rw [h8]; exact hn)
        (by rw [h7, h8]; exact hq) (by omega) (by omega) (by omega)
      refine ⟨s1, t1, r1, ?_, g2, g3, ?_, ?_, by omega⟩
      · simp only [singles, singleAppend, h1, Except.map, bind, Except.bind, g1]
      · rw [g4, h4.1, h4.2, List.append_assoc]
        congr 1
        simp only [draws, List.range_succ_eq_map, List.range_zero, List.map_cons, List.map_nil, List.map_map, List.singleton_append]
        rfl
      · rw [g5, h4.2]
        rfl
  obtain ⟨s1, t1, r1, a1, a2, a3, a4, a5, a6⟩ := key n ht hr rng hd hn hq hl hc hm
  obtain ⟨s2, t2, b1, b2, b3, b4, b5, b6, b7, b8⟩ := C45_append C word ht hr (by omega) n rng ⟨hd, hn, hq, by omega, by omega, by omega⟩
  simp only [Edit.spec, Prod.mk.injEq] at b4
  exact ⟨s1, t1, r1, s2, t2, after word rng (n / s.datagauge + 1), a1, by simp only [batchAppend, b1, Except.map], a2, b2, a3, b3, a4, by rw [a4, b4.1], by rw [a5, b4.2], by rw [a6, b6]⟩

/-- **C104.** For the vector harness `BatchExtend` does what `BatchAppend` does: it adds the generated elements at the end. -/
theorem C104_extend (C : Coord G E) (n : Nat) (s : EvalVec E G) (w : S) :
    batchExtend (fun (s : EvalVec E G) b (w : S) => .ok ((), s.extend C b, w)) n s w =
      batchAppend (fun (s : EvalVec E G) b (w : S) => .ok ((), s.append C b, w)) n s w ∧
    ∃ s', batchExtend (fun (s : EvalVec E G) b (w : S) => .ok ((), s.extend C b, w)) n s w = .ok ((), s', w) ∧
      s'.vec = s.vec ++ draws C.elem s.coord n ∧ s'.coord = after C.elem s.coord n := by
  obtain ⟨h1, h2, h3⟩ := C50_extend C s n
  exact ⟨by simp only [batchExtend, batchAppend, h3], _, rfl, h1, h2⟩

/-- **C104.** `IncrementalEmpty` creates an empty sequence, `IncrementalFrom` of a stack one with the elements of the stack from bottom to
top; both have the gauges and the generator of the action. -/
theorem C104_create {M : Type} [RazMeta E M] (dg ng : Nat) (coord : G) (w : S) {d : AStack E Nat} (h : d.Built (fun n => 1 ≤ n ∧ n < u32Max)) :
    (∃ (s : EvalRaz E M G) (t : RazTree E M), incrementalEmpty (fun dg ng c w => (EvalRaz.incEmpty dg ng c).map fun s => ((), s, w)) dg ng coord w = .ok ((), s, w) ∧
      s.raztree = some t ∧ t.elems = [] ∧ s.datagauge = dg ∧ s.namegauge = ng ∧ s.coord = coord) ∧
    ∃ (s : EvalRaz E M G) (t : RazTree E M), incrementalFrom (fun d dg ng c w => (EvalRaz.incFromTail d dg ng c).map fun s => ((), s, w)) d dg ng coord w = .ok ((), s, w) ∧
      s.raztree = some t ∧ t.elems = d.elems.reverse ∧ s.datagauge = dg ∧ s.namegauge = ng ∧ s.coord = coord := by
  constructor
  · obtain ⟨s, t, h1, h2, -, h4, -, h6, h7, -, -, h10⟩ := C44_empty (E := E) (M := M) (u := .any) dg ng coord
    exact ⟨s, t, by simp only [incrementalEmpty, h1, Except.map], h2, h4, h6, h7, h10⟩
  · obtain ⟨s, t, h1, h2, -, h4, h6, h7, -, -, h10⟩ := C44_from_tail (M := M) h dg ng coord
    exact ⟨s, t, by simp only [incrementalFrom, h1, Except.map], h2, h4, h6, h7, h10⟩

/-! ### Examples -/

example : ∃ (s : EvalRaz Nat Count Nat) (t : RazTree Nat Count),
    incrementalFrom (fun d dg ng c w => (EvalRaz.incFromTail d dg ng c).map fun s => ((), s, w))
      ((((AStack.new : AStack Nat Nat).push 1).archive none 1).1.push 2) 2 3 10 () = .ok ((), s, ()) ∧ s.raztree = some t ∧ t.elems = [1, 2] := by
  obtain ⟨-, s, t, h1, h2, h4, -⟩ := C104_create (M := Count) 2 3 10 () (.push 2 (.archive none 1 (by decide) (.push 1 .new)))
  exact ⟨s, t, h1, h2, h4⟩

/-- A clock that goes on by its own reading. -/
def exClock (q : Nat) : Int × Nat := (q * q, q + 1)

/-- Two folds one after another: the sum of the elements, then its last digit. -/
def exComp : Computor (List Int) ((Unit × Nat) × Nat) (EvalRaz Nat Count Nat) Nat :=
  compute2 (ffolder (fun s => span exClock fun w => (s.compFold 0 (· + ·)).map fun a => (a, w)) (fun a w => .ok ((a, "sum"), w))) <|
    compute2 proj0 (folder fun n => span exClock fun w => .ok (n % 10, w))

example (q : Nat) : (exClock q).1 ≤ (exClock (exClock q).2).1 := by
  show ((q : Int) * (q : Int)) ≤ ((q + 1 : Nat) : Int) * ((q + 1 : Nat) : Int)
  exact_mod_cast Nat.mul_le_mul (Nat.le_succ q) (Nat.le_succ q)

example : Staged 2 exComp := .compute2 (.ffolder _ _) (.compute2 .proj0 (.folder _))

/-- A session of three elements, to which two are appended twice: its table. -/
example : (timedTable exClock (createRaz (M := Count) exCoord exWord ⟨3, 1, 1, 2, 2⟩ 4) (appendRaz exCoord exWord ⟨3, 1, 1, 2, 2⟩) exComp 2 (((), 0), 0)).map
      (fun x => (x.1.edits, x.1.computes, x.1.answers)) = .ok ([1, 13, 25], [[5, 9], [17, 21], [29, 33]], [5, 0, 9]) := by decide +kernel

/-- The adder without increments on a text. -/
example : (Adder.nonIncComp exClock 1 1 () ⟨"23+4+4,23,54,123,5++".toList, ()⟩ ((), 0)).map (fun x => (x.1, x.2.1)) =
    .ok ([1, 5], [27, 4, 23, 182]) := rfl

example : ∃ s1 t1 r1 s2 t2 r2, singles exCoord exWord 3 (exEval Count) 0 = .ok (s1, r1) ∧
    batchAppend (fun s b rng => (EvalIRaz.append exCoord exWord s b rng).map fun x => ((), x)) 3 (exEval Count) 0 = .ok ((), s2, r2) ∧
    s1.raztree = some t1 ∧ s2.raztree = some t2 ∧ t1.elems = [1, 2, 3, 4, 5, 6, 10, 11, 12] ∧ t2.elems = t1.elems := by
  obtain ⟨s1, t1, r1, s2, t2, r2, h1, h2, h3, h4, -, -, h7, h8, -⟩ := C104_single_append (u := .edit) exCoord exWord 3 (s := exEval Count) rfl
    (exTree_reach Count .edit) 0 (by decide) (by decide) (by decide) (by decide) (by decide) (by decide)
  exact ⟨s1, t1, r1, s2, t2, r2, h1, h2, h3, h4, h7, h8⟩

end Iodyn.Eval
