import Verif.Model.BuildAcc

/-!
# Workers that can not begin (ports.c:118-218)

Before its loop, every worker stores pointers by `pthread_setspecific` (getset.c:132-230), which may fail for lack of memory (internal errors 1004 to 1009).
A worker that fails nevertheless keeps on exchanging packets until it is dismissed, and disposes of every packet it gets.  It doesn't kill the job, although
the comments in ports.c:172 and 202 say so.

Simplified: the failure of a worker, if any, is given beforehand.  Other reasons for a worker to abort are internal errors that are not modelled.
-/

namespace Cru.Abort

open Net Fold
open Request (Env)
open BuildAcc (Pkt Job Ops own store)
open SpawnAcc (Node)

variable {n : Nat} {V : Type}

/-- Any task where the workers with a non-zero code abort, and dispose of packets by `dispose` (ports.c:118-218).  A packet is neither kept nor answered. -/
def task {P G E : Type} (T : Task n P G E) (dead : Fin n → Int) (dispose : Fin n → G → P → G) : Task n P G E where
  dest := T.dest
  handle i g p := if dead i ≠ 0 then (dispose i g p, [], false) else T.handle i g p
  env := T.env

/-- The body of the loop in `_cru_abort_packets` with a destructor for vertices (ports.c:177-179, pack.c:222-223) in a build, whose packets are fresh
ones, and of that in `_cru_abort_new_packets` (ports.c:211-213) if `incoming->receiver` is evaluated before `_cru_popped_packet (&incoming, err)`. -/
def dispose (c : Env) (i : Fin n) (s : Job n V) : Pkt V → Job n V
  | .fresh v _ => store i s (destroy c.fails c.vFree v (own i s))
  | .known _ _ _ => s

/-- The workers of a build or a spread, some of which can not begin (build.c:263-268, 301-302; spread.c:391-394, 433-436).  There's no queue yet
to be freed. -/
def building (c : Env) (o : Ops V) (ends : Fin n → List (Nat × Nat)) (hn : 0 < n) (dead : Fin n → Int) : Task n (Pkt V) (Job n V) Unit :=
  task (BuildAcc.task c o ends hn) dead (dispose c)

/-- The state when workers begin or fail to. -/
def start (dead : Fin n → Int) (given : Fin n → List (Node V)) (tab : Fin n → Nat → List Nat) (w : World) : Job n V :=
  { BuildAcc.start given tab w with err := dead }

/-- The destructor passed to `_cru_free_packets` in ports.c:213, depending on the packet found in the variable `incoming` when it is dereferenced; `none` if
that's a null pointer. -/
def destructor (c : Env) : Option (Pkt V) → Option (Option Nat)
  | none => none
  | some (.fresh _ _) => some c.vFree
  | some (.known _ _ _) => some none

/-- The payload of a packet. -/
def payload : Pkt V → Option (Obj V)
  | .fresh v _ => v
  | .known _ _ _ => none

/-- The loop in `_cru_abort_new_packets` over a list of packets received together (ports.c:211-213).  The order of evaluation of the arguments is
unspecified: with `popFirst`, the packet has been removed from the list when `incoming->receiver` is evaluated.  The result is `none` if a null pointer is
dereferenced. -/
def abortNew (c : Env) (popFirst : Bool) : List (Pkt V) → World → Option World
  | [], w => some w
  | p :: ps, w => do
    let d ← destructor c (if popFirst then ps.head? else some p)
    abortNew c popFirst ps (destroy c.fails d (payload p) w)

end Cru.Abort
