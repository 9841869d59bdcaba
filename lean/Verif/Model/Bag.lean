import Verif.Model.Net
import Mathlib.Algebra.BigOperators.Fin
import Mathlib.Algebra.Order.BigOperators.Group.Finset
import Mathlib.Data.Multiset.AddSub
import Mathlib.Algebra.Order.Group.Multiset

/-!
# The bag machine: what the worker protocol is supposed to implement

The state is the job state and the multiset of packets sent and not yet handled.  A step
picks any pending packet, removes it, and runs the task's packet handler on it *at the lane
its hash selects*; what the handler sends is added, and the packet itself is put back if the
handler defers it.  There are no threads, ports, pods or signals here.
-/

namespace Cru.Bag

open Net

variable {n : Nat} {P G E : Type}

/-- Packets added by handling `p` in state `g`. -/
def produced (T : Task n P G E) (g : G) (p : P) : Multiset P :=
  ((T.handle (T.dest p) g p).2.1 : Multiset P) + (if (T.handle (T.dest p) g p).2.2 then {p} else 0)

inductive Step (T : Task n P G E) : G × Multiset P → G × Multiset P → Prop
  | handle (g : G) (p : P) (rest : Multiset P) :
      Step T (g, p ::ₘ rest) ((T.handle (T.dest p) g p).1, produced T g p + rest)
  | env (e : E) (g : G) (m : Multiset P) : Step T (g, m) (T.env e g, m)

/-- A step that handles a packet (no interference from other threads). -/
def Handles (T : Task n P G E) (x y : G × Multiset P) : Prop :=
  ∃ p rest, x.2 = p ::ₘ rest ∧ y = ((T.handle (T.dest p) x.1 p).1, produced T x.1 p + rest)

/-- States of the bag machine reachable from job state `g₀` and one pending packet `i₀`. -/
inductive Reach (T : Task n P G E) (i₀ : P) (g₀ : G) : G × Multiset P → Prop
  | init : Reach T i₀ g₀ (g₀, {i₀})
  | step {x y} : Reach T i₀ g₀ x → Step T x y → Reach T i₀ g₀ y

end Cru.Bag

namespace Cru.Net

variable {n : Nat} {P G E : Type}

/-- The private incoming list of a worker. -/
def Pc.incoming : Pc P → List P
  | .run l => l
  | _ => []

/-- The packets held by lane `i`: shared port, incoming list, pod, deferrals. -/
def laneBag (p : Port P) (w : Worker n P) : Multiset P :=
  (p.assigned : Multiset P) + p.deferred + w.pc.incoming + w.deferrals + ∑ j, (w.pod j : Multiset P)

/-- The initial packet while the calling thread has not assigned it yet. -/
def MPc.held (i₀ : P) : MPc → Multiset P
  | .boot | .reset | .start => {i₀}
  | _ => 0

/-- All packets sent and not yet handled, wherever they are. -/
def pending (i₀ : P) (s : State n P G) : Multiset P :=
  s.main.held i₀ + ∑ i, laneBag (s.port i) (s.worker i)

end Cru.Net
