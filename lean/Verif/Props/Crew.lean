import Verif.Proofs.Crew
import Mathlib.Algebra.BigOperators.Group.Finset.Piecewise

/-! # C134: the crew reserve -/

namespace Cru.Crew

variable {T : Type} [DecidableEq T]

/-- **C134.** There are never more than eight crews in reserve, the counter is right, and no internal error is detected. -/
theorem C134_internal {as : List (Action T)} {s : State T} (h : Exec init as s) :
    s.reserve.length = s.count ∧ s.reserve.length ≤ 8 ∧
      (∀ t mem, s.used t = none → (step s (.recruit t mem)).isSome) ∧ (∀ t, s.used t ≠ none → (step s (.dismiss t)).isSome) := by
  have hi := exec_inv init_inv h
  refine ⟨hi.count.symm, by have := hi.small; rw [hi.count] at this; exact this, ?_, ?_⟩
  · intro t mem hu
    cases mem with
    | true => simp [step, hu]
    | false =>
      cases hr : s.reserve with
      | nil => simp [step, hu, hr]
      | cons c r =>
        have : s.count ≠ 0 := by rw [hi.count, hr]; simp
        simp [step, hu, hr, this]
  · intro t hu
    cases hx : s.used t with
    | none => exact absurd hx hu
    | some x =>
      obtain ⟨c, b⟩ := x
      have := (hi.lone t c b hx).1
      simp only [step, hx]
      split_ifs <;> simp_all

/-- **C134.** No crew is used by two launches at a time, or while it's in reserve or freed. -/
theorem C134_exclusive {as : List (Action T)} {s : State T} (h : Exec init as s) (t u : T) (c : Nat) (b b' : Bool)
    (ht : s.used t = some (c, b)) : c ∉ s.reserve ∧ c ∉ s.freed ∧ (s.used u = some (c, b') → t = u) := by
  have hi := exec_inv init_inv h
  exact ⟨(hi.lone t c b ht).1, (hi.lone t c b ht).2, fun hu => hi.own t u c b b' ht hu⟩

/-- **C134.** If the library is closed while no launch is under way, then each crew ever allocated is freed exactly once, and no
internal error is thrown. -/
theorem C134_closed {as : List (Action T)} {s : State T} (h : Exec init as s) (hu : ∀ t, s.used t = none) :
    close s = (Multiset.range s.made, false) := by
  have hi := exec_inv init_inv h
  have h2 : decide (s.reserve.length ≠ s.count) = false := by simp [hi.count]
  unfold close
  rw [h2]
  congr 1
  refine (Multiset.Nodup.ext ?_ (Multiset.nodup_range _)).mpr ?_
  · rw [Multiset.nodup_add]
    refine ⟨Multiset.coe_nodup.mpr hi.rnodup, hi.fnodup, ?_⟩
    rw [Multiset.disjoint_left]
    intro c hc
    exact hi.apart c (by simpa using hc)
  · intro c
    rw [Multiset.mem_range, hi.all c]
    simp [hu]

/-- **C134.** An API function goes on from its entry only if there are eight crews in reserve by then. -/
theorem C134_entry {as : List (Action T)} {s s' : State T} (h : Exec init as s) (t : T) (l : Nat)
    (hs : step s (.replenish t l) = some s') : error s (.replenish t l) = 0 ↔ s'.reserve.length = 8 := by
  have hi := exec_inv init_inv h
  simp only [step] at hs
  split_ifs at hs
  injection hs with hs
  subst hs
  have := refill_count l s hi.small
  rw [← (refill_inv l hi).count, this]
  have hsm := hi.small
  simp only [error]
  simp only [limit] at *
  split_ifs <;> omega

/-- **C134.** Once any API function has gone on from its entry, a launch gets a crew even if the heap is exhausted, as long as there are
fewer than eight others under way that have had to borrow theirs as well.  All the same an error of `ENOMEM` is reported. -/
theorem C134_ample [Fintype T] {as bs : List (Action T)} {s₁ s₂ s : State T} (h₁ : Exec init as s₁) (u : T) (l : Nat)
    (hl : error s₁ (.replenish u l) = 0) (h₂ : step s₁ (.replenish u l) = some s₂) (h : Exec s₂ bs s) (t : T) (ht : s.used t = none)
    (hb : (Finset.univ.filter fun v => (s.used v).map Prod.snd = some true).card < 8) :
    ∃ s' c, step s (.recruit t false) = some s' ∧ s'.used t = some (c, true) ∧ c ∈ s.reserve ∧ error s (.recruit t false) = 12 := by
  have hi₁ := exec_inv init_inv h₁
  have hi₂ := step_inv hi₁ h₂
  have hi := exec_inv hi₂ h
  have hc₂ : s₂.count = limit := by rw [hi₂.count]; exact (C134_entry h₁ u l h₂).mp hl
  have hst := exec_stock (by unfold stock; omega) h
  have hsum : ∑ v, borrowed (s.used v) = (Finset.univ.filter fun v => (s.used v).map Prod.snd = some true).card := by
    rw [Finset.card_filter]; rfl
  unfold stock at hst
  rw [hsum] at hst
  simp only [limit] at hst
  cases hr : s.reserve with
  | nil =>
    have := hi.count
    rw [hr, List.length_nil] at this
    omega
  | cons c r =>
    have h0 : s.count ≠ 0 := by rw [hi.count, hr]; simp
    exact ⟨{ s with reserve := r, count := s.count - 1, used := Function.update s.used t (some (c, true)) }, c, by
      simp [step, ht, hr, h0], by simp, List.mem_cons_self, rfl⟩

/-- Two threads: one passes its entry and borrows a crew, and so does the other, which then returns it. -/
def demoActs : List (Action Bool) :=
  [.replenish false 9, .recruit false false, .replenish true 9, .recruit true false, .dismiss false]

/-- Any sequence of possible steps is an execution. -/
theorem exec_of {s₀ s s' : State T} {as : List (Action T)} (bs : List (Action T)) (h : Exec s₀ as s) (hs : bs.foldlM step s = some s') :
    Exec s₀ (as ++ bs) s' := by
  induction bs generalizing as s with
  | nil =>
    injection hs with hs
    subst hs
    simpa using h
  | cons b bs ih =>
    rw [List.foldlM_cons] at hs
    cases hb : step s b with
    | none => rw [hb] at hs; cases hs
    | some t =>
      rw [hb] at hs
      simpa using ih (h.snoc hb) hs

/-- Non-vacuity: in a state like that, the first thread is able to borrow another. -/
example : ∃ s s' c, Exec (init : State Bool) demoActs s ∧ step s (.recruit false false) = some s' ∧ s'.used false = some (c, true) := by
  have h1 : Exec (init : State Bool) [] init := .nil
  cases h2 : step (init : State Bool) (.replenish false 9) with
  | none => exact absurd h2 (by decide)
  | some s₂ =>
    cases h3 : [Action.recruit false false, .replenish true 9, .recruit true false, .dismiss false].foldlM step s₂ with
    | none =>
      have : (step (init : State Bool) (.replenish false 9)).bind
        (fun s => [Action.recruit false false, .replenish true 9, .recruit true false, .dismiss false].foldlM step s) = none := by
        rw [h2]; exact h3
      exact absurd (congrArg Option.isNone this) (by decide)
    | some s =>
      have he := exec_of _ (Exec.nil (s₀ := s₂)) h3
      have hall : (step (init : State Bool) (.replenish false 9)).bind
        (fun s => [Action.recruit false false, .replenish true 9, .recruit true false, .dismiss false].foldlM step s) = some s := by
        rw [h2]; exact h3
      have hu : ((some s).map fun s => ((s.used false).isNone, (s.used true).isSome)) = some (true, true) := by
        rw [← hall]; decide
      have hb : ((some s).map fun s => (Finset.univ.filter fun v => (s.used v).map Prod.snd = some true).card) = some 1 := by
        rw [← hall]; decide
      simp only [Option.map_some, Option.some.injEq, Prod.mk.injEq, Option.isNone_iff_eq_none] at hu hb
      obtain ⟨s', c, h, h', _, _⟩ := C134_ample h1 false 9 rfl h2 he false hu.1 (by omega)
      exact ⟨s, s', c, exec_of demoActs h1 (by rw [demoActs, List.foldlM_cons, h2]; exact h3), h, h'⟩

end Cru.Crew
