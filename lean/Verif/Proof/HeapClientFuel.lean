import Verif.Proof.HeapFuel
import Verif.Spec.HeapClient
/-
As in `HeapFuel`, for clients that map and convert.
-/
namespace Iodyn.Heap
variable {E M C : Type} [RazMeta E M]

theorem upto_mapTree {D X : Type} (e : Engine) (g : Incr.MapFn D D) : ∀ (n n' : Nat), n ≤ n' → ∀ t, Upto (mapTree e g n t : H D X _) (mapTree e g n' t) := by
  intro n
  induction n with
  | zero => intro n' _ t; exact Upto.diverge _
  | succ n ih =>
    intro n' hn t
    obtain ⟨m, rfl⟩ : ∃ m, n' = m + 1 := ⟨n' - 1, by omega⟩
    have hopt : ∀ o : Option Tr, Upto (mapOpt (mapTree e g n) o : H D X _) (mapOpt (mapTree e g m) o) := by
      intro o
      cases o with
      | none => exact (Settles.pure _).upto
      | some t => exact Upto.bind (ih m (by omega) t) fun _ => (Settles.pure _).upto
    exact Upto.bind (settles_forceNode _).upto fun x => Upto.bind (hopt _) fun _ => Upto.bind (hopt _) fun _ =>
      Upto.bind (settles_peekOp _).upto fun _ => Upto.bind (settles_peekOp _).upto fun _ => Upto.bind (settles_liftP _).upto fun _ =>
        (settles_newTree _ _ _ _ _ _).upto

theorem settles_map (e : Engine) (f : E → E) (t : HTree M) : Settles (t.map e f : HR E M _) := by
  refine Settles.loop (m := fun n => (do
    let tree ← mapOpt (mapTree e (Incr.razMapFn f) n) t.tree
    mkTree tree : HR E M (HTree M))) (fun n n' hn => ?_)
  refine Upto.bind ?_ fun _ => (settles_mkTree _).upto
  cases t.tree with
  | none => exact (Settles.pure _).upto
  | some t => exact Upto.bind (upto_mapTree e _ n n' hn t) fun _ => (Settles.pure _).upto

theorem settles_leaf (e : Engine) (v : List E) (nm : Option Name) : Settles (leaf e v nm : HR E M _) := by unfold leaf; settle []

theorem settles_fromTail (e : Engine) (s : ASt E) (l : Nat) (nm : Option Name) (t : Tr) (mx : Nat) :
    Settles (fun f => fromStackTailN e f s l nm t mx f : HR E M _) := by
  refine Settles.loop (m := fun n => fromStackTailN e n s l nm t mx) (fun n => ?_)
  induction n generalizing s l nm t mx with
  | zero => intro n' _; exact Upto.diverge _
  | succ n ih =>
    intro n' hn
    obtain ⟨m, rfl⟩ : ∃ m, n' = m + 1 := ⟨n' - 1, by omega⟩
    refine Upto.bind (settles_liftP _).upto fun _ => Upto.bind (settles_liftP _).upto fun _ => Upto.bind (settles_nextArchive _).upto fun x => ?_
    obtain ⟨s', o⟩ := x
    cases o with
    | none => exact (settles_liftP _).upto
    | some o =>
      obtain ⟨vec, nl⟩ := o
      refine Upto.bind (settles_leaf _ _ _).upto fun lt => Upto.bind ?_ fun y => ?_
      · cases nl with
        | none => exact (Settles.pure _).upto
        | some lev =>
          show Upto (if _ then _ else _) (if _ then _ else _)
          split
          · exact ih _ _ _ _ _ m (by omega)
          · exact (Settles.pure _).upto
      · obtain ⟨sh, fl, fnm, small⟩ := y
        refine Upto.bind (settles_bin _ _ _ _ _).upto fun nt => ?_
        cases fl with
        | none => exact (Settles.pure _).upto
        | some lev =>
          show Upto (if _ then _ else _) (if _ then _ else _)
          split
          · exact ih _ _ _ _ _ m (by omega)
          · exact (Settles.pure _).upto

theorem settles_fromHead (e : Engine) (s : ASt E) (l : Nat) (nm : Option Name) (t : Tr) (mx : Nat) :
    Settles (fun f => fromStackHeadN e f s l nm t mx f : HR E M _) := by
  refine Settles.loop (m := fun n => fromStackHeadN e n s l nm t mx) (fun n => ?_)
  induction n generalizing s l nm t mx with
  | zero => intro n' _; exact Upto.diverge _
  | succ n ih =>
    intro n' hn
    obtain ⟨m, rfl⟩ : ∃ m, n' = m + 1 := ⟨n' - 1, by omega⟩
    refine Upto.bind (settles_liftP _).upto fun _ => Upto.bind (settles_liftP _).upto fun _ => Upto.bind (settles_nextArchive _).upto fun x => ?_
    obtain ⟨s', o⟩ := x
    cases o with
    | none => exact (settles_liftP _).upto
    | some o =>
      obtain ⟨vec, nl⟩ := o
      refine Upto.bind (settles_leaf _ _ _).upto fun lt => Upto.bind ?_ fun y => ?_
      · cases nl with
        | none => exact (Settles.pure _).upto
        | some lev =>
          show Upto (if _ then _ else _) (if _ then _ else _)
          split
          · exact ih _ _ _ _ _ m (by omega)
          · exact (Settles.pure _).upto
      · obtain ⟨sh, fl, fnm, small⟩ := y
        refine Upto.bind (settles_bin _ _ _ _ _).upto fun nt => ?_
        cases fl with
        | none => exact (Settles.pure _).upto
        | some lev =>
          show Upto (if _ then _ else _) (if _ then _ else _)
          split
          · exact ih _ _ _ _ _ m (by omega)
          · exact (Settles.pure _).upto

theorem settles_finishFrom (r : FromRes E) : Settles (finishFrom r : HR E M _) := by unfold finishFrom; settle [settles_mkTree]

theorem settles_conv (e : Engine) (w : End) (s : ASt E) : Settles (convH e w s : HR E M _) := by
  cases w with
  | tail => show Settles (memoFromTail e s); unfold memoFromTail; settle [settles_nextArchive, settles_leaf, settles_mkTree, settles_fromTail, settles_finishFrom]
  | head => show Settles (memoFromHead e s); unfold memoFromHead; settle [settles_nextArchive, settles_leaf, settles_mkTree, settles_fromHead, settles_finishFrom]

theorem settles_cev (e : Engine) (fn : C → E → E) (st : HSSt E M) (ev : CEv E (RazMeta.Index E M) C) : Settles (st.cev e fn ev) := by
  unfold HSSt.cev HSSt.step
  settle [settles_vars, settles_archive, settles_conv, settles_map]

theorem settles_cevs (e : Engine) (fn : C → E → E) : ∀ (l : List (NsPath × CEv E (RazMeta.Index E M) C)) (st : HSSt E M), Settles (st.cevs e fn l) := by
  intro l
  induction l with
  | nil => intro st; exact Settles.pure _
  | cons c l ih => intro st; exact ((settles_cev e fn st c.2).inNs c.1).bind fun _ => (ih _).bind fun _ => Settles.pure _

theorem CEvAnswers.of_run {e : Engine} {fn : C → E → E} {l : List (NsPath × CEv E (RazMeta.Index E M) C)} (f : Nat) {os : List (Out E)}
    (h : (HSSt.cevs (M := M) e fn ⟨[], []⟩ l f Store.empty).map (fun x => x.1.2) = .ok os) : CEvAnswers (M := M) e fn l (.ok os) := by
  refine ⟨f, fun f' hf => ?_⟩
  cases hr : HSSt.cevs (M := M) e fn ⟨[], []⟩ l f Store.empty with
  | error p => rw [hr] at h; cases h
  | ok r => rw [hr] at h; rw [(settles_cevs e fn l _).upto f f' _ r hf hr]; exact h

end Iodyn.Heap
