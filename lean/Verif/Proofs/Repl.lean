import Verif.Spec.Repl
import Verif.Proofs.Calls
import Verif.Props.MapReduce
import Verif.Props.Filter

namespace Cru.Repl

open Infer

theorem word_ptr (w : Word) : word (ptr w) = w := by
  unfold ptr
  split
  · rename_i h; rw [h]; rfl
  · rfl

theorem ptr_word (x : Option Value) : ptr (word x) = x := by
  rcases x with _ | ⟨w, h⟩
  · rfl
  · unfold ptr word; rw [dif_neg h]

theorem least_min {ws : List Word} {w : Word} (h : Least ws w) (x : Word) : Least (ws ++ [x]) (minimizingBop x w) := by
  unfold minimizingBop
  split
  · rename_i hc
    refine ⟨by simp, fun y hy => ?_⟩
    rcases List.mem_append.1 hy with hy | hy
    · exact hc.le.trans (h.2 y hy)
    · rw [List.mem_singleton.1 hy]
  · rename_i hc
    refine ⟨List.mem_append_left _ h.1, fun y hy => ?_⟩
    rcases List.mem_append.1 hy with hy | hy
    · exact h.2 y hy
    · rw [List.mem_singleton.1 hy]; omega

theorem least_single (w : Word) : Least [w] w := ⟨by simp, fun x hx => by rw [List.mem_singleton.1 hx]⟩

theorem least_unique {ws : List Word} {v w : Word} (h : Least ws v) (h' : Least ws w) : v = w :=
  BitVec.eq_of_toNat_eq (Nat.le_antisymm (h.2 _ h'.1) (h'.2 _ h.1))

/-- The operator on results. -/
def minOp (x y : Option Value) : Option Value := ptr (minimizingBop (word x) (word y))

theorem min_comm (x y : Word) : minimizingBop x y = minimizingBop y x := by
  refine BitVec.eq_of_toNat_eq ?_
  unfold minimizingBop
  split_ifs <;> omega

theorem min_assoc (x y z : Word) : minimizingBop (minimizingBop x y) z = minimizingBop x (minimizingBop y z) := by
  refine BitVec.eq_of_toNat_eq ?_
  unfold minimizingBop
  split_ifs <;> omega

theorem combined_least (f : List (Option Value)) {v : Option Value} (h : MapReduce.combined minOp f = some v) :
    Least (f.map word) (word v) := by
  rcases f with _ | ⟨x, l⟩
  · cases h
  · simp only [MapReduce.combined, Option.some.injEq] at h
    subst h
    suffices ∀ (l : List (Option Value)) (ws : List Word) (x : Option Value), Least ws (word x) →
        Least (ws ++ l.map word) (word (l.foldl (fun acc z => minOp z acc) x)) from this l [word x] x (least_single _)
    intro l
    induction l with
    | nil => intro ws x h; simpa using h
    | cons y l ih =>
      intro ws x h
      have := ih (ws ++ [word y]) (minOp y x) (by rw [minOp, word_ptr]; exact least_min h _)
      simpa using this

/-! ## Folds over edges -/

theorem maps {u : Env} {f f' : Fold} (hu : f.FromUser) (h : filledFold f = .ok f') (v : Word) (e : Word × Word) :
    seed u f' v e = .ok (image u f v e) ∧ next u f' v e = .ok (image u f v e) ∧ (f'.map.isNone && f'.bmap.isNone) = false := by
  obtain ⟨map, bmap, red, vac, rf, mf⟩ := f
  obtain ⟨h1, h2, h3, h4, h5, h6⟩ := hu
  simp only [FromUser] at h1 h2 h3 h4 h5 h6
  rcases h1 with rfl | ⟨_, rfl⟩ <;> rcases h2 with rfl | ⟨_, rfl⟩ <;> rcases h3 with rfl | ⟨_, rfl⟩ <;>
    rcases h4 with rfl | ⟨_, rfl⟩ <;> rcases h5 with rfl | ⟨_, rfl⟩ <;> rcases h6 with rfl | ⟨_, rfl⟩ <;>
    simp [filledFold, fillMap, fillReduction, fillFrees, allow, Field.given, bind, Except.bind] at h <;>
    first
      | (subst h; simp [seed, next, image, Env.callBop, Env.callTop, identityTop]; done)
      | (split_ifs at h; cases h; simp [seed, next, image, Env.callBop, Env.callTop, identityTop])

theorem loop_least {u : Env} {f f' : Fold} (hu : f.FromUser) (h : filledFold f = .ok f') (v : Word) (es : List (Word × Word)) :
    ∀ {ws : List Word} {r : Word}, Least ws r →
      ∃ w, loop u f' .minimizingBop v es r = .ok w ∧ Least (ws ++ es.map (image u f v)) w := by
  induction es with
  | nil => intro ws r hl; exact ⟨r, rfl, by simpa using hl⟩
  | cons e es ih =>
    intro ws r hl
    obtain ⟨w, hw, hl'⟩ := ih (least_min hl (image u f v e))
    refine ⟨w, ?_, by simpa using hl'⟩
    unfold loop
    rw [(maps hu h v e).2.1]
    exact hw

theorem rest_least {u : Env} {f f' : Fold} (hu : f.FromUser) (h : filledFold f = .ok f') (hr : f'.reduction = some .minimizingBop) (v : Word)
    (es : List (Word × Word)) {ws : List Word} {r : Word} (hl : Least ws r) :
    ∃ w, rest u f' v es r = .ok w ∧ Least (ws ++ es.map (image u f v)) w := by
  rcases es with _ | ⟨e, es⟩
  · exact ⟨r, by simp [rest], by simpa using hl⟩
  · unfold rest
    rw [hr]
    exact loop_least hu h v _ hl

end Cru.Repl
