import Verif.Spec.Mutate
import Verif.Proofs.Walk
import Mathlib.Tactic.SplitIfs

/-! # Mutating nodes, one at a time -/

namespace Cru.Mutate

open Net

variable {n : Nat} {N V L : Type} [DecidableEq N]

/-! ## Labels -/

omit [DecidableEq N] in
theorem permeate_ok {f : V → L → V → Except Failure L} {v : V} {vertex : N → V} :
    ∀ {es es' : List (L × N)}, permeate f v vertex es = .ok es' →
      List.Forall₂ (fun e e' => f v e.1 (vertex e.2) = .ok e'.1 ∧ e'.2 = e.2) es es' := by
  intro es
  induction es with
  | nil => intro es' h; simp only [permeate] at h; cases h; exact .nil
  | cons e es ih =>
    intro es' h
    simp only [permeate] at h
    split at h
    · cases h
    · rename_i l hl
      split at h
      · cases h
      · rename_i es₁ he
        cases h
        exact .cons ⟨hl, rfl⟩ (ih he)

omit [DecidableEq N] in
theorem permeate_error {f : V → L → V → Except Failure L} {v : V} {vertex : N → V} :
    ∀ {es : List (L × N)} {x : Failure}, permeate f v vertex es = .error x → ∃ l w, f v l w = .error x := by
  intro es
  induction es with
  | nil => intro x h; simp only [permeate] at h; cases h
  | cons e es ih =>
    intro x h
    simp only [permeate] at h
    split at h
    · rename_i y hy
      cases h
      exact ⟨_, _, hy⟩
    · split at h
      · rename_i y hy
        cases h
        exact ih hy
      · cases h

omit [DecidableEq N] in
theorem Relabelled.targets {k : Kernel V L} {v : V} {vertex : N → V} {es es' : List (L × N)} (h : Relabelled k v vertex es es') :
    es'.map Prod.snd = es.map Prod.snd := by
  unfold Relabelled at h
  split at h
  · rw [h]
  · induction h with
    | nil => rfl
    | cons h1 _ ih => simp only [List.map_cons, h1.2, ih]

theorem relabel_nil (m : N) (fs : List (L × N)) : relabel m [] fs = fs := by cases fs <;> rfl

theorem relabel_ne {m : N} {f : L × N} (h : f.2 ≠ m) (ls : List L) (fs : List (L × N)) :
    relabel m ls (f :: fs) = f :: relabel m ls fs := by
  cases ls with
  | nil => rw [relabel_nil, relabel_nil]
  | cons l ls => simp only [relabel, if_neg h]

theorem relabel_targets (m : N) : ∀ (ls : List L) (fs : List (L × N)), (relabel m ls fs).map Prod.snd = fs.map Prod.snd := by
  intro ls fs
  induction fs generalizing ls with
  | nil => cases ls <;> rfl
  | cons f fs ih =>
    by_cases h : f.2 = m
    · cases ls with
      | nil => rw [relabel_nil]
      | cons l ls => simp only [relabel, if_pos h, List.map_cons, ih]
    · rw [relabel_ne h]; simp only [List.map_cons, ih]

theorem patch_none {f : N → Option (List L)} : ∀ {es : List (L × N)}, (∀ e ∈ es, f e.2 = none) → patch f es = es := by
  intro es
  induction es with
  | nil => intro _; rfl
  | cons e es ih =>
    intro h
    simp only [patch, h e (by simp)]
    rw [ih fun e he => h e (by simp [he])]

theorem patch_congr : ∀ {es : List (L × N)} {f g : N → Option (List L)}, (∀ e ∈ es, f e.2 = g e.2) → patch f es = patch g es := by
  intro es
  induction es with
  | nil => intro f g _; rfl
  | cons e es ih =>
    intro f g h
    have he := h e (by simp)
    have ht : ∀ e ∈ es, f e.2 = g e.2 := fun e he => h e (by simp [he])
    rcases hf : f e.2 with _ | _ | ⟨l, ls⟩
    · simp only [patch, ← he, hf, ih ht]
    · simp only [patch, ← he, hf, ih ht]
    · simp only [patch, ← he, hf]
      rw [ih (f := Function.update f e.2 (some ls)) (g := Function.update g e.2 (some ls))]
      intro e' he'
      by_cases c : e'.2 = e.2
      · rw [c, Function.update_self, Function.update_self]
      · rw [Function.update_of_ne c, Function.update_of_ne c, ht e' he']

theorem relabel_patch (m : N) : ∀ (fs : List (L × N)) (f : N → Option (List L)) (ls : List L), f m = none →
    relabel m ls (patch f fs) = patch (Function.update f m (some ls)) fs := by
  intro fs
  induction fs with
  | nil => intro f ls _; cases ls <;> rfl
  | cons e fs ih =>
    intro f ls hf
    by_cases he : e.2 = m
    · have h1 : patch f (e :: fs) = e :: patch f fs := by simp only [patch, he, hf]
      rw [h1]
      cases ls with
      | nil =>
        rw [relabel_nil]
        have h2 : Function.update f m (some []) e.2 = some [] := by rw [he, Function.update_self]
        simp only [patch, h2]
        rw [← ih f [] hf, relabel_nil]
      | cons l ls =>
        simp only [relabel, if_pos he]
        have h2 : Function.update f m (some (l :: ls)) e.2 = some (l :: ls) := by rw [he, Function.update_self]
        simp only [patch, h2]
        rw [ih f ls hf, he, Function.update_idem]
    · have h2 : ∀ x, Function.update f m x e.2 = f e.2 := fun x => Function.update_of_ne he _ _
      rcases hfe : f e.2 with _ | _ | ⟨k, ks⟩
      · simp only [patch, h2, hfe]
        rw [relabel_ne he, ih f ls hf]
      · simp only [patch, h2, hfe]
        rw [relabel_ne he, ih f ls hf]
      · simp only [patch, h2, hfe]
        rw [relabel_ne (by exact he), ih _ ls (by rw [Function.update_of_ne (fun h => he h.symm)]; exact hf),
          Function.update_comm (fun h => he h.symm)]

theorem patch_targets : ∀ (es : List (L × N)) (f : N → Option (List L)), (patch f es).map Prod.snd = es.map Prod.snd := by
  intro es
  induction es with
  | nil => intro f; rfl
  | cons e es ih =>
    intro f
    rcases hf : f e.2 with _ | _ | ⟨l, ls⟩ <;> simp only [patch, hf, List.map_cons, ih]

/-! ## One node -/

/-- The edges of a node in the direction of its prerequisites, and in the other one. -/
def Job.pre (p : Plan) (s : Job n N V L) (m : N) : List (L × N) := if p.forward then s.inn m else s.out m

def Job.post (p : Plan) (s : Job n N V L) (m : N) : List (L × N) := if p.forward then s.out m else s.inn m

omit [DecidableEq N] in
theorem dependants_eq (p : Plan) (s : Job n N V L) (m : N) : p.dependants (s.out m) (s.inn m) = s.post p m := rfl

omit [DecidableEq N] in
theorem prerequisites_eq (p : Plan) (s : Job n N V L) (m : N) :
    p.prerequisites (s.out m) (s.inn m) = if p.unordered then [] else s.pre p m := rfl

theorem forward_iff (p : Plan) : p.forward = true ↔ p.backwards = p.remoteFirst := by
  rcases p with ⟨_ | _, _, _ | _⟩ <;> simp [Plan.forward]

/-- What has changed after a node has been mutated. -/
structure Fired (k : Kernel V L) (p : Plan) (s : Job n N V L) (m : N) (v : V) (es : List (L × N)) (s' : Job n N V L) : Prop where
  vertex : s'.vertex = Function.update s.vertex m v
  mark : s'.mark = Function.update s.mark m .mutated
  log : s'.log = m :: s.log
  started : s'.started = s.started
  err : s'.err = s.err
  stop : s'.stop = s.stop
  killed : s'.killed = s.killed
  post : s'.post p = Function.update (s.post p) m es
  pre : s'.pre p = if k.eop.isSome then fun t => relabel m (labelsTo t es) (s.pre p t) else s.pre p

theorem mutate_ok {k : Kernel V L} {p : Plan} {s s' : Job n N V L} {m : N} (h : mutate k p s m = .ok s') :
    ∃ v es, Revised k (s.vertex m) ((s.inn m).map fun e => (e.1, s.vertex e.2)) ((s.out m).map fun e => (e.1, s.vertex e.2)) v ∧
      Relabelled k v s.vertex (s.post p m) es ∧ Fired k p s m v es s' := by
  unfold mutate at h
  split at h
  · cases h
  · rename_i v hv
    have hr : Revised k (s.vertex m) ((s.inn m).map fun e => (e.1, s.vertex e.2)) ((s.out m).map fun e => (e.1, s.vertex e.2)) v := by
      unfold revised at hv
      unfold Revised
      split at hv
      · rename_i hk
        cases hv
        simp only [hk]
      · rename_i f hk
        simp only [hk]
        exact hv
    split at h
    · rename_i he
      cases h
      refine ⟨v, s.post p m, hr, by unfold Relabelled; rw [he], rfl, rfl, rfl, rfl, rfl, rfl, rfl, ?_, ?_⟩
      · rw [Function.update_eq_self]; rfl
      · rw [he]; rfl
    · rename_i f he
      by_cases hf : p.forward = true
      · rw [if_pos hf] at h
        split at h
        · cases h
        · rename_i es hes
          cases h
          refine ⟨v, es, hr, ?_, rfl, rfl, rfl, rfl, rfl, rfl, rfl, ?_, ?_⟩
          · unfold Relabelled
            simp only [he]
            have := permeate_ok hes
            unfold Job.post
            rw [if_pos hf]
            exact this
          · funext t
            simp only [Job.post, if_pos hf]
            by_cases ht : t = m
            · subst ht; rw [Function.update_self, Function.update_self]
            · rw [Function.update_of_ne ht, Function.update_of_ne ht]; simp only [Job.post, if_pos hf]
          · rw [he]
            funext t
            simp only [Job.pre, if_pos hf]
            rfl
      · rw [if_neg hf] at h
        split at h
        · cases h
        · rename_i es hes
          cases h
          refine ⟨v, es, hr, ?_, rfl, rfl, rfl, rfl, rfl, rfl, rfl, ?_, ?_⟩
          · unfold Relabelled
            simp only [he]
            have := permeate_ok hes
            unfold Job.post
            rw [if_neg hf]
            exact this
          · funext t
            simp only [Job.post, if_neg hf]
            by_cases ht : t = m
            · subst ht; rw [Function.update_self, Function.update_self]
            · rw [Function.update_of_ne ht, Function.update_of_ne ht]; simp only [Job.post, if_neg hf]
          · rw [he]
            funext t
            simp only [Job.pre, if_neg hf]
            rfl

theorem mutate_error {k : Kernel V L} {p : Plan} {s : Job n N V L} {m : N} {x : Failure} (h : mutate k p s m = .error x) :
    Raised k x.1 := by
  unfold mutate at h
  split at h
  · rename_i y hy
    cases h
    unfold revised at hy
    split at hy
    · cases hy
    · rename_i f hk
      exact .inl ⟨f, _, _, _, _, hk, hy, rfl⟩
  · split at h
    · cases h
    · rename_i f he
      split at h
      · split at h
        · rename_i y hy
          cases h
          obtain ⟨l, w, hl⟩ := permeate_error hy
          exact .inr ⟨f, _, _, _, _, he, hl, rfl⟩
        · cases h
      · split at h
        · rename_i y hy
          cases h
          obtain ⟨l, w, hl⟩ := permeate_error hy
          exact .inr ⟨f, _, _, _, _, he, hl, rfl⟩
        · cases h

end Cru.Mutate
