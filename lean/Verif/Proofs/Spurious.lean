import Verif.Proofs.FairDone

/-! # Executions with one spurious wake-up -/

namespace Cru.Net

variable {n : Nat} {P G E : Type}

/-- A state reached with exactly one spurious wake-up, before and after which only the threads move, and that as they should. -/
def Once (T : Task n P G E) (i₀ : P) (g₀ : G) (s : State n P G) : Prop :=
  ∃ s₁ a s₂, Relation.ReflTransGen (ThreadStep T i₀) (init g₀) s₁ ∧ ¬ a.proper ∧ step T i₀ a s₁ = some s₂ ∧
    Relation.ReflTransGen (ThreadStep T i₀) s₂ s

theorem threadSteps_reach {T : Task n P G E} {i₀ : P} {g₀ : G} {s s' : State n P G} (h : Reach T i₀ g₀ s)
    (hs : Relation.ReflTransGen (ThreadStep T i₀) s s') : Reach T i₀ g₀ s' := by
  induction hs with
  | refl => exact h
  | tail _ h2 ih => exact threadStep_reach ih h2

/-- The calling thread gets to assign the initial packet, with all workers asleep and nothing done. -/
theorem exists_start (hn : 0 < n) (T : Task n P G E) (i₀ : P) (g₀ : G) :
    ∃ s, Relation.ReflTransGen (ThreadStep T i₀) (init g₀) s ∧ s.main = .start ∧ s.quiescent = false ∧ s.g = g₀ ∧
      s.misplaced = false ∧
      ∀ i, (s.worker i).pc = .sleep ∧ (s.port i).assigned = [] ∧ (s.port i).waiting = true ∧ (s.port i).signalled = false := by
  have key : ∀ k (s : State n P G), nu s = k → Relation.ReflTransGen (ThreadStep T i₀) (init g₀) s → s.g = g₀ →
      (s.main = .boot ∨ s.main = .reset ∨ s.main = .start) →
      ∃ s', Relation.ReflTransGen (ThreadStep T i₀) (init g₀) s' ∧ s'.g = g₀ ∧ s'.main = .start := by
    intro k
    induction k using Nat.strong_induction_on with
    | _ k ih =>
      intro s hk hr hg hm
      have hR := threadSteps_reach (.init (g₀ := g₀)) hr
      by_cases hst : s.main = .start
      · exact ⟨s, hr, hg, hst⟩
      have hne : s.main ≠ .done := by rcases hm with h | h | h <;> simp [h]
      have hidle := fun i => boot_idle hn hR hm i
      rcases enabled_of_inv T i₀ (reach_inv hn hR) hne with h | ⟨i, h⟩
      · obtain ⟨s', hs⟩ := Option.isSome_iff_exists.1 h
        have hs : mainStep T i₀ s = some s' := hs
        have hlt := mainStep_nu hs
        refine ih (nu s') (by omega) s' rfl (hr.tail (.inl hs)) ?_ ?_
        · rw [(mainStep_sim (reach_inv hn hR) hs).1, hg]
        · unfold mainStep at hs
          rcases hm with h0 | h0 | h0
          · simp only [h0] at hs
            split at hs
            · cases hs; exact .inr (.inl rfl)
            · cases hs
          · simp only [h0] at hs
            cases hs; exact .inr (.inr rfl)
          · exact absurd h0 hst
      · obtain ⟨s', hs⟩ := Option.isSome_iff_exists.1 h
        have hs : workerStep T i s = some s' := hs
        have hlt := (workerStep_nu hs).resolve_left (hidle i)
        have hro := inv_routed (reach_inv hn hR) i
        refine ih (nu s') (by omega) s' rfl (hr.tail (.inr ⟨i, hs⟩)) ?_ ?_
        · rw [(workerStep_still (i₀ := i₀) hro (hidle i) hs).1, hg]
        · rw [(workerStep_sim (i₀ := i₀) hro hs).1]; exact hm
  obtain ⟨s, hr, hg, hm⟩ := key _ (init g₀) rfl .refl rfl (.inl rfl)
  have hi := reach_inv hn (threadSteps_reach (.init (g₀ := g₀)) hr)
  unfold Inv at hi
  simp only [hm] at hi
  obtain ⟨he, h0, hq⟩ := hi
  refine ⟨s, hr, hm, hq, hg, he.placed, fun i => ?_⟩
  have ha : act (s.port i) (s.worker i) = 0 := by
    rw [he.running] at h0
    exact (Finset.sum_eq_zero_iff.1 h0) i (Finset.mem_univ i)
  have hs : (s.worker i).pc = .sleep ∧ (s.port i).assigned = [] := by
    unfold act at ha
    by_contra hc
    rw [if_neg hc] at ha
    cases ha
  refine ⟨hs.1, hs.2, (he.waiting i).2 hs.1, ?_⟩
  by_contra hc
  exact ((he.signalled i).1 (by simpa using hc)).2 hs.2

/-- All workers end when all have been signalled with nothing to do. -/
theorem all_leave (T : Task n P G E) (i₀ : P) : ∀ (s : State n P G), s.main = .join →
    (∀ i, (s.worker i).pc = .gone ∨ (s.worker i).pc = .sleep ∧ (s.port i).signalled = true ∧ (s.port i).assigned = []) →
    ∃ s', Relation.ReflTransGen (ThreadStep T i₀) s s' ∧ s'.main = .done ∧ s'.g = s.g ∧ s'.misplaced = s.misplaced := by
  classical
  have key : ∀ k (s : State n P G), (Finset.univ.filter fun i => (s.worker i).pc ≠ .gone).card = k → s.main = .join →
      (∀ i, (s.worker i).pc = .gone ∨ (s.worker i).pc = .sleep ∧ (s.port i).signalled = true ∧ (s.port i).assigned = []) →
      ∃ s', Relation.ReflTransGen (ThreadStep T i₀) s s' ∧ s'.main = .done ∧ s'.g = s.g ∧ s'.misplaced = s.misplaced := by
    intro k
    induction k with
    | zero =>
      intro s hk hm hw
      refine ⟨{ s with main := .done }, .single (.inl ?_), rfl, rfl, rfl⟩
      have : ∀ i, (s.worker i).pc = .gone := by
        intro i
        by_contra hc
        have := Finset.card_eq_zero.1 hk
        have hmem : i ∈ (Finset.univ.filter fun i => (s.worker i).pc ≠ .gone) := by simp [hc]
        rw [this] at hmem
        simp at hmem
      simp [mainStep, hm, this]
    | succ k ih =>
      intro s hk hm hw
      obtain ⟨i, hi⟩ := Finset.card_pos.1 (by omega : 0 < (Finset.univ.filter fun i => (s.worker i).pc ≠ .gone).card)
      have hi : (s.worker i).pc ≠ .gone := by simpa using hi
      obtain ⟨h1, h2, h3⟩ := (hw i).resolve_left hi
      have hstep : workerStep T i s = some (wake s i) := by simp [workerStep, h1, h2]
      have hw' : ∀ j, (wake s i).worker j = if j = i then { s.worker i with pc := .gone } else s.worker j := by
        intro j
        by_cases hj : j = i
        · subst hj; simp [wake, State.setPc, State.setWorker, State.setPort, h3, gotten]
        · simp [wake, State.setPc, State.setWorker, State.setPort, hj]
      have hp' : ∀ j, j ≠ i → (wake s i).port j = s.port j := by
        intro j hj
        simp [wake, State.setPc, State.setWorker, State.setPort, hj]
      obtain ⟨s', hr, hd, hg, hmi⟩ := ih (wake s i) (by
        have : (Finset.univ.filter fun j => ((wake s i).worker j).pc ≠ .gone) =
            (Finset.univ.filter fun j => (s.worker j).pc ≠ .gone).erase i := by
          ext j
          by_cases hj : j = i
          · subst hj; simp [hw']
          · simp [hw', hj]
        rw [this, Finset.card_erase_of_mem (by simp [hi])]
        omega) hm (by
        intro j
        by_cases hj : j = i
        · subst hj; left; simp [hw']
        · rw [hw', if_neg hj, hp' j hj]; exact hw j)
      exact ⟨s', .head (.inr ⟨i, hstep⟩) hr, hd, hg, hmi⟩
  intro s
  exact key _ s rfl

/-- Ports are dismissed one after another. -/
theorem all_dismissed (T : Task n P G E) (i₀ : P) : ∀ (k j : Nat) (s : State n P G), n - j = k → j ≤ n → s.main = .dismiss j →
    (∀ i, (s.worker i).pc = .sleep ∧ (s.port i).waiting = true) →
    (∀ i : Fin n, i.1 < j → (s.port i).signalled = true ∧ (s.port i).assigned = []) →
    ∃ s', Relation.ReflTransGen (ThreadStep T i₀) s s' ∧ s'.main = .done ∧ s'.g = s.g ∧
      (s'.misplaced = true ↔ s.misplaced = true ∨ ∃ i : Fin n, j ≤ i.1 ∧ (s.port i).assigned ≠ []) := by
  intro k
  induction k with
  | zero =>
    intro j s hk hj hm hw hb
    have hjn : j = n := by omega
    subst hjn
    have hstep : mainStep T i₀ s = some { s with main := .join } := by simp [mainStep, hm]
    obtain ⟨s', hr, hd, hg, hmi⟩ := all_leave T i₀ { s with main := .join } rfl fun i =>
      .inr ⟨(hw i).1, (hb i i.2).1, (hb i i.2).2⟩
    refine ⟨s', .head (.inl hstep) hr, hd, hg, ?_⟩
    rw [hmi]
    constructor
    · exact .inl
    · rintro (h | ⟨i, hi, _⟩)
      · exact h
      · exact absurd i.2 (by omega)
  | succ k ih =>
    intro j s hk hj hm hw hb
    have hjn : j < n := by omega
    have hstep : mainStep T i₀ s = some { dismiss1 s ⟨j, hjn⟩ with main := .dismiss (j + 1) } := by simp [mainStep, hm, hjn]
    have hwk : (dismiss1 s ⟨j, hjn⟩).worker = s.worker := by simp only [dismiss1, State.setPort]; split <;> rfl
    have hgk : (dismiss1 s ⟨j, hjn⟩).g = s.g := by simp only [dismiss1, State.setPort]; split <;> rfl
    have hmk : (dismiss1 s ⟨j, hjn⟩).misplaced = true ↔ s.misplaced = true ∨ (s.port ⟨j, hjn⟩).assigned ≠ [] := by
      simp only [dismiss1, State.setPort]; split <;> simp_all
    have hpk : (dismiss1 s ⟨j, hjn⟩).port = Function.update s.port ⟨j, hjn⟩ { s.port ⟨j, hjn⟩ with
        assigned := [], signalled := (s.port ⟨j, hjn⟩).signalled || (s.port ⟨j, hjn⟩).waiting,
        dismissed := (s.port ⟨j, hjn⟩).dismissed || !(s.port ⟨j, hjn⟩).waiting } := by
      simp only [dismiss1, State.setPort]; split <;> rfl
    obtain ⟨s', hr, hd, hg, hmi⟩ := ih (j + 1) { dismiss1 s ⟨j, hjn⟩ with main := .dismiss (j + 1) } (by omega) hjn rfl (by
      intro i
      show ((dismiss1 s ⟨j, hjn⟩).worker i).pc = .sleep ∧ ((dismiss1 s ⟨j, hjn⟩).port i).waiting = true
      rw [hwk, hpk]
      by_cases e : i = ⟨j, hjn⟩
      · subst e; simpa using hw _
      · simpa [e] using hw i) (by
      intro i hi
      show ((dismiss1 s ⟨j, hjn⟩).port i).signalled = true ∧ ((dismiss1 s ⟨j, hjn⟩).port i).assigned = []
      rw [hpk]
      by_cases e : i = ⟨j, hjn⟩
      · subst e; simp [(hw _).2]
      · have : i.1 ≠ j := fun h => e (Fin.ext h)
        simpa [e] using hb i (by omega))
    refine ⟨s', .head (.inl hstep) hr, hd, hg.trans hgk, hmi.trans ?_⟩
    show ((dismiss1 s ⟨j, hjn⟩).misplaced = true ∨ ∃ i : Fin n, j + 1 ≤ i.1 ∧ ((dismiss1 s ⟨j, hjn⟩).port i).assigned ≠ []) ↔ _
    rw [hmk, hpk]
    constructor
    · rintro ((h | h) | ⟨i, hi, h⟩)
      · exact .inl h
      · exact .inr ⟨_, le_refl _, h⟩
      · have e : i ≠ ⟨j, hjn⟩ := fun h => by rw [h] at hi; simp at hi
        exact .inr ⟨i, by omega, by simpa [e] using h⟩
    · rintro (h | ⟨i, hi, h⟩)
      · exact .inl (.inl h)
      · by_cases e : i = ⟨j, hjn⟩
        · subst e; exact .inl (.inr h)
        · have : i.1 ≠ j := fun h => e (Fin.ext h)
          exact .inr ⟨i, by omega, by simpa [e] using h⟩

end Cru.Net
