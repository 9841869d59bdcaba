import Verif.Props.MapReduce
import Verif.Props.Fold
import Verif.Proofs.SaysMerge

/-! # C61 and C118 for the sequential version of cru_mapreduced -/

namespace Cru.MapReduce

open Cru.Fold

variable {N X : Type} {o : Ops N X}

/-- The destructor, if there is one. -/
def Ops.mFree (o : Ops N X) : Option Nat := if o.free then some 0 else none

private theorem mapAct_good : Good o.mFree (mapAct o) := by
  intro m w
  have h := applied_account (fun t => o.map t m) o.mFree w
  unfold mapAct
  dsimp only
  by_cases he : (applied (fun t => o.map t m) (if o.free then some 0 else none) w).2.err ≠ 0
  · rw [if_pos he]
    exact (owned_none (V := X) o.mFree).symm ▸ destroy_account (fun _ _ => 0) _ _ (by rw [zero_add]; exact h)
  · rw [if_neg he]
    exact h

private theorem mapAct_says (m : N) (w : World) : Says w (mapAct o m w).2 := by
  have h := applied_says (fun t => o.map t m) o.mFree w
  unfold mapAct
  dsimp only
  by_cases he : (applied (fun t => o.map t m) (if o.free then some 0 else none) w).2.err ≠ 0
  · rw [if_pos he]
    exact Says.trans h (destroy_says (fun _ _ => 0) o.mFree (applied (fun t => o.map t m) o.mFree w).1 (applied (fun t => o.map t m) o.mFree w).2)
  · rw [if_neg he]
    exact h

/-- **C61** for one lane: each result of a callback is an object of its own, and has been destroyed exactly once, except for the one that's returned,
which hasn't been; with an error there is none. -/
theorem C61_sequential (m : N) (ms : List N) :
    let r := sequential o (m :: ms)
    (r.2.made.map Prod.fst).Nodup ∧ r.2.freed + owned o.mFree r.1 = r.2.made ∧ (r.2.err ≠ 0 → r.1 = none) := by
  intro r
  have h := foldWith_account (fun _ _ => 0) ⟨o.vacuous, none, none, some o.red, o.mFree, o.mFree⟩ (mapAct o) (mapAct o) (-1280) (-1281)
    mapAct_good mapAct_good (by decide) (m :: ms) Cru.Fold.start
  refine ⟨(h.1.wf Cru.Fold.start_wf).nodup, ?_, h.2 (by simp)⟩
  have := h.1.ledger
  simp only [Cru.Fold.start, add_zero, zero_add] at this
  exact this.symm

/-- **C118** for one lane: if the map, the reduction or the vacuous case fails at any call, then an error is reported. -/
theorem C118_sequential (ns : List N) : Says Cru.Fold.start (sequential o ns).2 :=
  foldWith_says (fun _ _ => 0) _ mapAct_says mapAct_says _ _ ns Cru.Fold.start

/-- The map fails at the second vertex, where it returns something nevertheless. -/
def tripOps : Ops Nat Nat where
  map t m := ⟨some m, if m = 2 then 9 else 0⟩
  red _ x y := ⟨some (x.getD 0 + y.getD 0), 0⟩
  vacuous := none
  free := true

/-- Non-vacuity: the error is reported, both results of the map have been destroyed, and nothing is returned. -/
example : (sequential tripOps [1, 2, 3]).1 = none ∧ (sequential tripOps [1, 2, 3]).2.err = 9 ∧ (sequential tripOps [1, 2, 3]).2.upset = true ∧
    (sequential tripOps [1, 2, 3]).2.made.card = 2 ∧ (sequential tripOps [1, 2, 3]).2.freed.card = 2 := by decide

/-- Without the error, five results have been made, of which one is returned. -/
example : (sequential tripOps [1, 4, 3]).1.map Obj.val = some 8 ∧ (sequential tripOps [1, 4, 3]).2.made.card = 5 ∧
    (sequential tripOps [1, 4, 3]).2.freed.card = 4 := by decide

end Cru.MapReduce
