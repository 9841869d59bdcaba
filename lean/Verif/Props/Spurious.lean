import Verif.Proofs.Spurious
import Verif.Props.Net

/-! # C05: what a spurious wake-up does to any operation -/

namespace Cru.Net

variable {n : Nat} {P G E : Type}

/-- **C05 (negative).** Every operation, on any number of lanes, has an execution with just one spurious wake-up after which no thread
can move and the call hasn't returned: nothing has been done to the graph and nothing ever will. -/
theorem C05_any_operation_hangs (hn : 0 < n) (T : Task n P G E) (i₀ : P) (g₀ : G) :
    ∃ s, Once T i₀ g₀ s ∧ s.main = .wait ∧ s.g = g₀ ∧ step T i₀ .main s = none ∧ ∀ i, step T i₀ (.worker i) s = none := by
  obtain ⟨s, hr, hm, hq, hg, _, hw⟩ := exists_start hn T i₀ g₀
  set d := T.dest i₀ with hd
  have hwk : ∀ j, (wake s d).worker j = if j = d then { s.worker d with pc := .gone } else s.worker j := by
    intro j
    by_cases hj : j = d
    · rw [hj]; simp [wake, State.setPc, State.setWorker, State.setPort, (hw d).2.1, gotten]
    · simp [wake, State.setPc, State.setWorker, State.setPort, hj]
  have hpk : (wake s d).port = Function.update s.port d { s.port d with assigned := [], waiting := false, signalled := false } := rfl
  have ha : assign (wake s d) d [i₀] =
      { wake s d with port := Function.update s.port d { s.port d with assigned := [i₀], waiting := false, signalled := false } } := by
    simp [assign, State.setPort, hpk]
  refine ⟨{ assign (wake s d) d [i₀] with main := .wait },
    ⟨s, .spurious d, wake s d, hr, id, by simp [step, spuriousStep, (hw d).1], .single (.inl ?_)⟩, rfl, ?_, ?_, ?_⟩
  · show mainStep T i₀ (wake s d) = _
    have : (wake s d).main = .start := hm
    simp only [mainStep, this]
    rfl
  · rw [ha]; exact hg
  · have : (wake s d).quiescent = false := hq
    simp only [step, mainStep, ha, this]
    rfl
  · intro i
    rw [ha]
    simp only [step, workerStep, hwk]
    by_cases hi : i = d
    · simp [hi]
    · simp [hi, (hw i).1, (hw i).2.2.2]

/-- **C05 (negative).** Every operation, on any number of lanes, has an execution with just one spurious wake-up in which the call returns
although nothing has been done, the initial packet having been thrown away. -/
theorem C05_any_operation_does_nothing (hn : 0 < n) (T : Task n P G E) (i₀ : P) (g₀ : G) :
    ∃ s, Once T i₀ g₀ s ∧ s.main = .done ∧ s.g = g₀ ∧ s.misplaced = true := by
  obtain ⟨s, hr, hm, hq, hg, _, hw⟩ := exists_start hn T i₀ g₀
  set d := T.dest i₀ with hd
  have ha : assign s d [i₀] =
      { s with port := Function.update s.port d { s.port d with assigned := [i₀], signalled := true }, running := s.running + 1 } := by
    simp [assign, State.setPort, (hw d).2.1, (hw d).2.2.1, (hw d).2.2.2]
  have h1 : mainStep T i₀ s = some { assign s d [i₀] with main := .wait } := by
    simp only [mainStep, hm]
    rfl
  obtain ⟨s', hr', hd', hg', hm'⟩ := all_dismissed T i₀ n 0 { assign s d [i₀] with main := .dismiss 0 } rfl (Nat.zero_le _) rfl (by
    rw [ha]
    intro i
    by_cases hi : i = d
    · subst hi; simp [(hw _).1, (hw _).2.2.1]
    · simp [hi, (hw i).1, (hw i).2.2.1]) (by intro i hi; exact absurd hi (Nat.not_lt_zero _))
  refine ⟨s', ⟨_, .spuriousMain, _, hr.tail (.inl h1), id, rfl, hr'⟩, hd', hg'.trans ?_, hm'.2 (.inr ⟨d, Nat.zero_le _, ?_⟩)⟩
  · rw [ha]; exact hg
  · rw [ha]; simp

/-- Both hold of the demonstration task, which handles three packets otherwise. -/
example : (∃ s, Once demo 1 0 s ∧ s.main = .done ∧ s.g = 0 ∧ s.misplaced = true) ∧
    ∃ s, Reach demo 1 0 s ∧ s.main = .done ∧ s.g = 3 :=
  ⟨C05_any_operation_does_nothing (by decide) demo 1 0, by
    have h : ((run demo 1 demoSchedule (init 0)).map fun s => (s.main, s.g)) = some (.done, 3) := by decide
    cases hs : run demo 1 demoSchedule (init 0) with
    | none => rw [hs] at h; cases h
    | some s =>
      rw [hs] at h
      simp at h
      exact ⟨s, run_reach _ (by simp [demoSchedule, Action.proper]) _ _ Reach.init hs, h⟩⟩

end Cru.Net
