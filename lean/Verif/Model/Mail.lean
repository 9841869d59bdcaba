import Mathlib.Data.Fintype.Card
import Verif.Model.Pool

/-!
# How packets get from one worker to another, one access of memory at a time (ports.c:235-425, 493-559, sync.c:179-208)

Packets are in linked lists.  A list is either in a local variable of a worker, which includes the lists in its pod, or in one of the
fields `assigned` and `deferred` of a port, which other workers have access to under the protection of the port's mutex.

Left out: the fields `waiting`, `dismissed` and `backoff` of ports and the counters in the router, which the model of the network is about
(`Verif.Model.Net`); the allocation and the disposal of packets, which can be thought of as being taken from a local variable and put there;
internal errors.
-/

namespace Cru.Mail

open Cru.Pool

/-- The fields of ports with lists of packets (ports.h:52-56): `assigned` and `deferred`. -/
inductive Cell (I : Type) where
  | assigned (i : I)
  | deferred (i : I)
  deriving DecidableEq

/-- The port that a field belongs to, whose mutex `suspension` is the one that protects it. -/
def Cell.port {I : Type} : Cell I → I
  | .assigned i => i
  | .deferred i => i

/-- Places in memory accessible to more than one worker: fields of ports, and the field `next_packet` of a packet (pack.h:51).  There's a
pointer to a packet in each, or null. -/
inductive Loc (I P : Type) where
  | cell (d : Cell I)
  | next (p : P)
  deriving DecidableEq

/-- What a worker does with packets, where `R` are its local variables, `I` are the ports and `P` are the packets.  There are no restrictions
to how it decides on that.  In particular, what to do next can depend on the packet that is next in a list, or on there being none.  If it
depends on anything else, such as the value returned by `assigned` (ports.c:304), then each execution is still one of workers that have their
decisions laid down beforehand. -/
inductive Client (R I P : Type) where
  /-- No more packets are handled. -/
  | done
  /-- `_cru_recycled` (pods.c:110-124): get the list in `r` into `r'`, unless there's something in `r'`. -/
  | shift (r r' : R) (k : Client R I P)
  /-- `assignment` (ports.c:235-260): get the list from a port into `r`, unless there's something in `r`. -/
  | take (r : R) (d : Cell I) (k : Client R I P)
  /-- `blocking_assignment` (ports.c:493-525). -/
  | wait (r : R) (d : Cell I) (k : Client R I P)
  /-- `_cru_popped_packet` and `_cru_push_packet` (pack.c:350-385): move the first packet in `r` to the list in `into p`. -/
  | move (r : R) (into : P → R) (k : Option P → Client R I P)
  /-- `assigned` (ports.c:271-308) and `expose` (ports.c:398-425): hand over the list in `r`. -/
  | send (r : R) (d : Cell I) (k : Client R I P)
  /-- The body of the loop in `_cru_undefer` (sync.c:193-207). -/
  | undefer (i : I) (k : Client R I P)

variable {R I P : Type} [DecidableEq R] [DecidableEq P]

/-- The loop at ports.c:288-289 and 416-417, for at most `n` packets.  It's shown that it never gets to a number of packets that don't
exist. -/
def walk : Nat → P → (P → Code (Loc I P) (Option P) I) → Code (Loc I P) (Option P) I
  | 0, _, _ => .done
  | n + 1, p, k => .load (.next p) fun x =>
    match x with
    | none => k p
    | some q => walk n q k

/-- The worker as a sequence of accesses and locks, where `h` has the values of its local variables.

* `shift`: pods.c:121-122
* `take`: ports.c:253-257
* `wait`: ports.c:506-524, where line 517 releases the mutex and acquires it some time later
* `move`: pack.c:381-383, 357-360
* `send`: ports.c:288-301, 416-422
* `undefer`: sync.c:186, 197-205 -/
def compile (n : Nat) : Client R I P → (R → Option P) → Code (Loc I P) (Option P) I
  | .done, _ => .done
  | .shift r r' k, h =>
    match h r' with
    | some _ => compile n k h
    | none => compile n k (Function.update (Function.update h r' (h r)) r none)
  | .take r d k, h =>
    match h r with
    | some _ => compile n k h
    | none =>
      .wrlock d.port <| .load (.cell d) fun x => .store (.cell d) none <| .unlock d.port (compile n k (Function.update h r x))
  | .wait r d k, h =>
    match h r with
    | some _ => compile n k h
    | none =>
      .wrlock d.port <| .load (.cell d) fun x =>
        match x with
        | some _ => .store (.cell d) none <| .unlock d.port (compile n k (Function.update h r x))
        | none =>
          .unlock d.port <| .wrlock d.port <| .load (.cell d) fun y =>
            .store (.cell d) none <| .unlock d.port (compile n k (Function.update h r y))
  | .move r into k, h =>
    match h r with
    | none => compile n (k none) h
    | some p =>
      .load (.next p) fun x => .store (.next p) none <| .load (.next p) fun y =>
        match y with
        | some _ => .done
        | none =>
          .store (.next p) (Function.update h r x (into p))
            (compile n (k (some p)) (Function.update (Function.update h r x) (into p) (some p)))
  | .send r d k, h =>
    match h r with
    | none => compile n k h
    | some p => walk n p fun q =>
      .wrlock d.port <| .load (.cell d) fun x => .store (.next q) x <| .store (.cell d) (some p) <|
        .unlock d.port (compile n k (Function.update h r none))
  | .undefer i k, h =>
    .wrlock i <| .load (.cell (.assigned i)) fun x =>
      match x with
      | some _ => .unlock i (compile n k h)
      | none => .load (.cell (.deferred i)) fun y => .store (.cell (.assigned i)) y <|
        match y with
        | none => .unlock i (compile n k h)
        | some _ => .store (.cell (.deferred i)) none <| .unlock i (compile n k h)

/-- All workers at the beginning, where `h` has the values of the local variables of each of them, and `m` is the memory. -/
def start [Fintype P] (cs : List (Client R I P)) (h : Nat → R → Option P) (m : Loc I P → Option P) : State (Loc I P) (Option P) I :=
  Pool.init (cs.mapIdx fun t c => compile (Fintype.card P) c (h t)) m

/-- `assignment` as it would be with `CK_F_PR_FAS_PTR` defined (ports.c:249-252), where the steps are understood to happen at once. -/
def fetchAndStore (i : I) (k : Option P → Code (Loc I P) (Option P) I) : Code (Loc I P) (Option P) I :=
  .load (.cell (.assigned i)) fun x => .store (.cell (.assigned i)) none (k x)

end Cru.Mail
