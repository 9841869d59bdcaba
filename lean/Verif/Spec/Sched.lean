import Verif.Model.Net

/-! # Schedules

What an operating system's scheduler decides: whose turn it is next.  A thread that can't go on when its turn comes,
because it waits for a condition variable or has ended, lets the turn pass. -/

namespace Cru.Net

variable {n : Nat} {P G E : Type}

/-- A turn of a worker, or of the calling thread. -/
def turn (T : Task n P G E) (i₀ : P) (t : Option (Fin n)) (s : State n P G) : Option (State n P G) :=
  match t with
  | none => mainStep T i₀ s
  | some i => workerStep T i s

/-- The state after a number of turns. -/
def scheduled (T : Task n P G E) (i₀ : P) (who : Nat → Option (Fin n)) (s : State n P G) : Nat → State n P G
  | 0 => s
  | k + 1 => (turn T i₀ (who k) (scheduled T i₀ who s k)).getD (scheduled T i₀ who s k)

/-- No thread is starved: each one gets a turn again and again. -/
def FairSchedule (who : Nat → Option (Fin n)) : Prop := ∀ t k, ∃ k', k ≤ k' ∧ who k' = t

end Cru.Net
