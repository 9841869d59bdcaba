import Verif.Model.Net

/-!
# Operations that can't be started (crew.c:254-294, launch.c:38-375)

The same workers, ports and router as in `Model/Net.lean`, but the calling thread may find that it can't create all of its threads
(`_cru_crewed`, crew.c:277-281) or that there's no storage for the initial packet (launch.c:63, 107, 156, 204, 250, 294, 344).

Left out: errors of mutexes, condition variables and `pthread_join`, which are internal errors, and reports of error codes, which are
in `Model/Errs.lean`.
-/

namespace Cru.Launch

open Cru.Net

variable {n : Nat} {P G E : Type}

/-- The state when `_cru_crewed` has created `k` workers of `n` and released `r->lock` (crew.c:275-281).  Workers that get this far
earlier have to wait for the lock, because they need it to stop running (sync.c:154).  A thread that hasn't been created counts as one
that has ended.  If no thread has been created there's nothing to wait for (crew.c:281). -/
def init (k : Nat) (g : G) : State n P G where
  port := fun _ => {}
  worker := fun i => if i.val < k then {} else { pc := .gone }
  running := k
  quiescent := false
  main := if k = 0 then .join else .boot
  misplaced := false
  g := g

/-- One step of the calling thread, with `k` threads created and the initial packet `p` if there's storage for it.  With all threads
and a packet this is as in `Model/Net.lean` (`C133_usual`).
* `boot`: crew.c:283-284.  Without a full crew, go on to dismiss it (crew.c:290).
* `start`: launch.c:61-66.  Without a packet, go on to dismiss the crew (launch.c:67).
* `wait`: launch.c:66, or crew.c:291 without a full crew, followed by joining (launch.c:60, 68).
* `dismiss`: launch.c:67, followed by joining, or crew.c:290 without a full crew, followed by waiting. -/
def mainStep (T : Task n P G E) (k : Nat) (p : Option P) (s : State n P G) : Option (State n P G) :=
  match s.main with
  | .boot => if s.quiescent then some { s with main := if k = n then .reset else .dismiss 0 } else none
  | .reset => some { s with main := .start, quiescent := false }
  | .start =>
    match p with
    | some i₀ => some { assign s (T.dest i₀) [i₀] with main := .wait }
    | none => some { s with main := .dismiss 0 }
  | .wait => if s.quiescent then some { s with main := if k = n then .dismiss 0 else .join } else none
  | .dismiss j =>
    if h : j < n then some { dismiss1 s ⟨j, h⟩ with main := .dismiss (j + 1) }
    else some { s with main := if k = n then .join else .wait }
  | .join => if ∀ i, ((s.worker i).pc matches .gone) then some { s with main := .done } else none
  | .done => none

/-- A spurious wake-up of the calling thread leaves `_cru_wait_for_quiescence` (sync.c:234). -/
def spuriousMainStep (k : Nat) (s : State n P G) : Option (State n P G) :=
  match s.main with
  | .boot => some { s with main := if k = n then .reset else .dismiss 0 }
  | .wait => some { s with main := if k = n then .dismiss 0 else .join }
  | _ => none

/-- One step of any thread. -/
def step (T : Task n P G E) (k : Nat) (p : Option P) (a : Action n E) (s : State n P G) : Option (State n P G) :=
  match a with
  | .worker i => workerStep T i s
  | .main => mainStep T k p s
  | .env e => some { s with g := T.env e s.g }
  | .spurious i => spuriousStep i s
  | .spuriousMain => spuriousMainStep k s

/-- A sequence of steps, each of which is possible. -/
def run (T : Task n P G E) (k : Nat) (p : Option P) : List (Action n E) → State n P G → Option (State n P G)
  | [], s => some s
  | a :: as, s => (step T k p a s).bind (run T k p as)

end Cru.Launch
