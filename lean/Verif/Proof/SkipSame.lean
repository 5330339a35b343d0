import Verif.Spec.SkipCost
import Verif.Proof.MovesSame
/-
Counting the cells that the skip list forces changes no result.
-/
namespace Iodyn.Skip
variable {K V : Type}

theorem force_same (σ : Store (Path K V)) (a : Loc) : Same (forceC σ a) (σ.force a) := (Same.still _).move

theorem rec_same (σ : Store (Path K V)) (L : Nat) (key : Word) : ∀ (n : Nat) (a : Loc) (cur : List (Option Loc)),
    Same (buildPathRecC σ L key n a cur) (buildPathRec σ L key n a cur)
  | 0, _, _ => Same.still _
  | n+1, a, cur => by
    unfold buildPathRecC buildPathRec
    refine (force_same σ a).bind fun path => (Same.still _).bind fun res => ?_
    dsimp only
    rcases res.kvs with _ | kvs
    · rcases res.next with _ | b
      · exact (Same.still _).bind fun _ => Same.pure _
      · exact rec_same σ L key n b _
    · exact (Same.still _).bind fun _ => Same.pure _

theorem search_same (σ : Store (Path K V)) (s : Skiplist) (key : Word) : Same (s.searchC σ key) (s.search σ key) := by
  unfold Skiplist.searchC Skiplist.search
  rcases s.head with _ | a
  · exact Same.pure _
  · exact rec_same _ _ _ _ _ _

variable [DecidableEq K]

theorem ext_same (e : Engine) (hash : K → Word) (σ : Store (Path K V)) (s : Skiplist) (k : K) (v : Option V) : Same (s.extC e hash σ k v) (s.ext e hash σ k v) := by
  unfold Skiplist.extC Skiplist.ext
  exact (Same.still _).bind fun mask => (search_same _ _ _).bind fun ⟨cur, old⟩ => Same.pure _

theorem put_same (e : Engine) (hash : K → Word) (σ : Store (Path K V)) (s : Skiplist) (k : K) (v : V) : Same (s.putC e hash σ k v) (s.put e hash σ k v) :=
  (ext_same _ _ _ _ _ _).bind fun _ => Same.pure _

theorem get_same (hash : K → Word) (σ : Store (Path K V)) (s : Skiplist) (k : K) : Same (s.getC hash σ k) (s.get hash σ k) := by
  unfold Skiplist.getC Skiplist.get
  refine (Same.still _).bind fun mask => (search_same _ _ _).bind fun ⟨cur, old⟩ => ?_
  rcases old with _ | kvs
  · exact Same.pure _
  · exact Same.pure _

theorem step_same (e : Engine) (hash : K → Word) (σ : Store (Path K V)) (pool : List Skiplist) (op : MapOp K V) :
    Same (mapStepC e hash σ pool op) (mapStep e hash σ pool op) := by
  cases op with
  | emp l nm => exact Same.pure _
  | clone i => exact (Same.still _).bind fun _ => Same.pure _
  | archive i nm => exact (Same.still _).bind fun _ => Same.pure _
  | ext i k v => exact (Same.still _).bind fun s => (ext_same _ _ _ _ _ _).bind fun _ => Same.pure _
  | put i k v => exact (Same.still _).bind fun s => (put_same _ _ _ _ _ _).bind fun _ => Same.pure _
  | rem i k => exact (Same.still _).bind fun s => (ext_same _ _ _ _ _ _).bind fun _ => Same.pure _
  | get i k => exact (Same.still _).bind fun s => (get_same _ _ _ _).bind fun _ => Same.pure _

theorem run_same (e : Engine) (hash : K → Word) : ∀ (ops : List (MapOp K V)) (σ : Store (Path K V)) (pool : List Skiplist),
    (mapRunC e hash σ pool ops).map (fun l => l.map Prod.fst) = mapRun e hash σ pool ops
  | [], _, _ => rfl
  | op :: ops, σ, pool => by
    have h := step_same e hash σ pool op 0
    simp only [mapRunC, mapRun]
    cases hm : mapStepC e hash σ pool op 0 with
    | error q =>
      rw [hm] at h
      rw [← h]
      rfl
    | ok x =>
      obtain ⟨⟨σ', pool', out⟩, n⟩ := x
      rw [hm] at h
      rw [← h]
      have ih := run_same e hash ops σ' pool'
      simp only [bind, Except.bind, Except.map]
      rw [← ih]
      cases mapRunC e hash σ' pool' ops <;> rfl

end Iodyn.Skip
