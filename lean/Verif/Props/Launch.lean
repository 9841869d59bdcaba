import Verif.Proofs.LaunchEnd
import Verif.Props.Net

/-! # C133: operations that can't be started -/

namespace Cru.Launch

open Cru.Net

variable {n : Nat} {P G E : Type}

/-- With all threads and an initial packet, this model is the one that C01 to C05 are about. -/
theorem C133_usual (hn : 0 < n) (T : Task n P G E) (i₀ : P) (g : G) :
    (init n g : State n P G) = Net.init g ∧ ∀ a s, step T n (some i₀) a s = Net.step T i₀ a s := by
  refine ⟨?_, ?_⟩
  · simp only [init, Net.init, Fin.is_lt, if_true]
    congr
    rw [if_neg (by omega)]
  · intro a s
    cases a with
    | main =>
      simp only [step, Net.step, mainStep, Net.mainStep, if_true]
      cases s.main <;> rfl
    | spuriousMain =>
      simp only [step, Net.step, spuriousMainStep, Net.spuriousMainStep, if_true]
      cases s.main <;> rfl
    | _ => rfl

/-- **C133.** If a thread can't be created, or there's no storage for the initial packet, then no packet is ever handled: whatever the
schedule, the job state is changed only by others, and no packet is thrown away. -/
theorem C133_untouched (T : Task n P G E) (k : Nat) (hk : k ≤ n) (p : Option P) (hkp : k < n ∨ p = none) (g₀ : G)
    (as : List (Action n E)) (ha : Steady as) (s : State n P G) (h : run T k p as (init k g₀) = some s) :
    s.g = (events as).foldl (fun g e => T.env e g) g₀ ∧ s.misplaced = false := by
  obtain ⟨h1, _, h3⟩ := run_spec hk hkp as ha _ s (init_inv k hk g₀) h
  exact ⟨h3, h1.placed⟩

/-- **C133.** The call returns: no schedule has more than a certain number of steps, and there's always a step to take until the calling
thread has finished. -/
theorem C133_returns (T : Task n P G E) (k : Nat) (hk : k ≤ n) (p : Option P) (hkp : k < n ∨ p = none) (g₀ : G)
    (as : List (Action n E)) (ha : Steady as) (s : State n P G) (h : run T k p as (init k g₀) = some s) :
    moves as ≤ n + 7 + k * (2 * n + 6) ∧
      ((∀ i, step T k p (.worker i) s = none) → step T k p .main s = none → s.main = .done) := by
  obtain ⟨h1, h2, _⟩ := run_spec hk hkp as ha _ s (init_inv k hk g₀) h
  have := total_init (P := P) k hk g₀
  exact ⟨by omega, fun hw hm => inv_stuck h1 hw hm⟩

/-- **C133.** When the call has returned, all threads that were created have ended. -/
theorem C133_ended (T : Task n P G E) (k : Nat) (hk : k ≤ n) (p : Option P) (hkp : k < n ∨ p = none) (g₀ : G)
    (as : List (Action n E)) (ha : Steady as) (s : State n P G) (h : run T k p as (init k g₀) = some s) (hd : s.main = .done) :
    ∀ i, (s.worker i).pc = .gone := by
  obtain ⟨h1, _, _⟩ := run_spec hk hkp as ha _ s (init_inv k hk g₀) h
  have := h1.phase
  simpa only [Phase, hd] using this

/-- **C133 (negative).** If some threads but not all have been created, a single spurious wake-up of the calling thread may leave it
waiting forever, whatever the threads do from then on.  This is the defect. -/
theorem C133_hangs (T : Task n P G E) (k : Nat) (h0 : 0 < k) (hk : k < n) (p : Option P) (g₀ : G) :
    ∃ as s, run T k p (.spuriousMain :: as) (init k g₀) = some s ∧ Steady as ∧
      ∀ bs s', Steady bs → run T k p bs s = some s' → s'.main = .wait := by
  have hb : (init k g₀ : State n P G).main = .boot := by simp [init]; omega
  have hkn : ¬ k = n := by omega
  have hst : step T k p .spuriousMain (init k g₀ : State n P G) = some { (init k g₀ : State n P G) with main := .dismiss 0 } := by
    simp only [step, spuriousMainStep, hb, hkn, if_false]
  have hinv := init_inv (P := P) k hk.le g₀
  obtain ⟨s, hs, hh⟩ := dismissals T k h0 hk p n le_rfl { (init k g₀ : State n P G) with main := .dismiss 0 } hinv.idle (by simp) rfl
    (by simp [init]; omega) (by
      intro i
      refine ⟨?_, rfl⟩
      by_cases h : i.val < k
      · left; simp [init, h, Awake]
      · right; simp [init, h]) (by intro i hi; omega)
  refine ⟨List.replicate (n + 1) .main, s, ?_, ?_, ?_⟩
  · rw [run, hst]; exact hs
  · intro h
    cases List.eq_of_mem_replicate h
  · intro bs s' hbs hr
    exact (hung_run bs hbs s s' hh hr).main

/-- One thread of two: the worker goes to sleep, the calling thread dismisses both ports, and the worker ends. -/
def demoSchedule : List (Action 2 Unit) :=
  List.replicate 9 (.worker 0) ++ [.main, .main, .main, .main, .main, .worker 0, .main]

/-- Non-vacuity: the call returns with one thread of two, and nothing done. -/
example : ((run demo 1 (some 1) demoSchedule (init 1 0)).map fun s => (s.main, s.g)) = some (.done, 0) ∧ Steady demoSchedule := by
  refine ⟨by decide, by simp [Steady, demoSchedule]⟩

/-- Non-vacuity: likewise with both threads but no packet. -/
example : ((run demo 2 none (List.replicate 9 (.worker 0) ++ List.replicate 9 (.worker 1) ++ List.replicate 6 .main ++ [.worker 0, .worker 1, .main])
    (init 2 0)).map fun s => (s.main, s.g)) = some (.done, 0) := by decide

end Cru.Launch
