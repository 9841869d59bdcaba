import Mathlib.Data.Multiset.AddSub

/-!
# Memory, locks and conditions that an operation needs (route.c:96-185, 487-515, 641-694, ports.c:41-110, pods.c:33-93,
cthread.c:176-221, classes.c:78-102, 392-427, killers.c:82-99, 296-314, launch.c:39-73)

Before an operation on a graph is started, a router is made for it, with a port for each worker, a pod for each port, and locks and
conditions in them.  Each of these takes a request to the system that may be refused.  A lock or condition is identified with the
block of memory it's in, since no block has two of a kind.

Left out: `WRAP` and `NOMEM`, which are for testing; sizes of arrays, which don't overflow with 64 bit sizes; the operation's
specification, which is copied into the router (route.c:149-172), and exactly one of which is given by all callers or none; failures
to destroy a lock or condition, which are internal errors; packets and sets of vertices left in a port or pod, which are empty when a
router is freed (`C05`), and classes left in a partition, which `Model/Reclaim.lean` is about.
-/

namespace Cru.Resource

/-- What the system is asked for: memory, or to initialize a lock or condition of one of three kinds. -/
inductive Kind
  | memory | mutex | cond | rwlock
  deriving DecidableEq

/-- A block of memory, or a lock or condition in it.  The number is the time when the block was allocated. -/
structure Res where
  block : Nat
  kind : Kind
  deriving DecidableEq

/-- The error code `*err`, everything obtained from the system and not given back, and whether something has been given back that
isn't the caller's to give back, or a lock or condition has been used that's in a block that isn't allocated. -/
structure World where
  clock : Nat
  err : Int
  live : Multiset Res
  wrong : Bool

/-- `RAISE` (errs.h:36, without `WRAP`). -/
def World.raise (w : World) (e : Int) : World := { w with err := if w.err ≠ 0 then w.err else e }

/-- `_cru_malloc` with `RAISE(ENOMEM)` unless there's a block, as it's always used here.  `sys t` is the code with which the `t`-th
request is refused, or zero if it isn't. -/
def malloc (sys : Nat → Int) (w : World) : Option Nat × World :=
  if sys w.clock = 0 then (some w.clock, { w with clock := w.clock + 1, live := ⟨w.clock, .memory⟩ ::ₘ w.live })
  else (none, { w with clock := w.clock + 1 }.raise 12)

/-- Initialize a lock or condition in block `b`, and raise `code e` if it's refused with the code `e`. -/
def setup (sys : Nat → Int) (k : Kind) (code : Int → Int) (b : Nat) (w : World) : Int × World :=
  let w' := { w with clock := w.clock + 1, wrong := w.wrong || decide (Res.mk b .memory ∉ w.live) }
  if sys w.clock = 0 then (0, { w' with live := ⟨b, k⟩ ::ₘ w.live }) else (sys w.clock, w'.raise (code (sys w.clock)))

/-- `_cru_mutex_init` (cthread.c:176-193). -/
def mutexInit (sys : Nat → Int) : Nat → World → Int × World :=
  setup sys .mutex fun e => if e = 12 then e else if e = 11 then e else if e = 1 then e else -797

/-- `_cru_cond_init` (cthread.c:205-221). -/
def condInit (sys : Nat → Int) : Nat → World → Int × World :=
  setup sys .cond fun e => if e = 12 then e else if e = 11 then e else -798

/-- `pthread_rwlock_init (l, NULL) ? IER(i) : 0`. -/
def rwlockInit (sys : Nat → Int) (i : Int) : Nat → World → Int × World := setup sys .rwlock fun _ => -i

/-- Free a block, or destroy a lock or condition in a block. -/
def release (r : Res) (w : World) : World :=
  if r ∈ w.live ∧ Res.mk r.block .memory ∈ w.live then { w with live := w.live.erase r } else { w with wrong := true }

/-- `_cru_free` or `free`. -/
def free (b : Nat) : World → World := release ⟨b, .memory⟩

/-- `packet_pod` (pods.h): where it is, and where the array of packet lists is. -/
structure Pod where
  id : Nat
  pod : Nat
  arity : Nat

/-- `port` (ports.h). -/
structure Port where
  id : Nat
  own : Nat
  peers : Pod

/-- `router` (route.h): where it is, where the arrays of threads and ports are if they've been allocated, the ports, the status, the
kill flag, and the number of shared copies. -/
structure Router where
  id : Nat
  lanes : Nat
  threads : Option Nat
  ports : Option (Nat × List (Option Port))
  status : Int
  killed : Bool
  shared : Nat

/-- `_cru_pod_of` (pods.c:33-66). -/
def podOf (sys : Nat → Int) (a : Nat) (w : World) : Option Pod × World :=
  if a = 0 then (none, w.raise (-1307))
  else
    match malloc sys w with
    | (none, w) => (none, w)
    | (some d, w) =>
      match malloc sys w with
      | (none, w) => (none, free d w)
      | (some p, w) => (some ⟨p, d, a⟩, w)

/-- `_cru_new_port` (ports.c:41-77) of the `o`-th worker of `lanes`. -/
def newPort (sys : Nat → Int) (o lanes : Nat) (w : World) : Option Port × World :=
  if lanes ≤ o then (none, w.raise (-1314))
  else
    match malloc sys w with
    | (none, w) => (none, w)
    | (some p, w) =>
      match mutexInit sys p w with
      | (e, w) =>
        if e ≠ 0 then (none, free p w)
        else
          match condInit sys p w with
          | (e, w) =>
            if e ≠ 0 then (none, free p (release ⟨p, .mutex⟩ w))
            else
              match rwlockInit sys 1315 p w with
              | (e, w) =>
                if e ≠ 0 then (none, free p (release ⟨p, .mutex⟩ (release ⟨p, .cond⟩ w)))
                else
                  match podOf sys lanes w with
                  | (none, w) => (none, free p (release ⟨p, .mutex⟩ (release ⟨p, .cond⟩ (release ⟨p, .rwlock⟩ w))))
                  | (some d, w) => (some ⟨p, o, d⟩, w)

/-- `_cru_free_pod` (pods.c:73-93) with all packet lists empty. -/
def freePod (p : Pod) (w : World) : World := free p.id (free p.pod w)

/-- `_cru_free_port` (ports.c:87-110) with no packets or sets of vertices left in the port. -/
def freePort (p : Option Port) (w : World) : World :=
  match p with
  | none => w
  | some p => free p.id (freePod p.peers (release ⟨p.id, .rwlock⟩ (release ⟨p.id, .cond⟩ (release ⟨p.id, .mutex⟩ w))))

/-- Free the array of threads if there is one (route.c:669-674). -/
def freeThreads (t : Option Nat) (w : World) : World :=
  match t with
  | none => w
  | some t => free t w

/-- Free the ports and the array of ports if there is one (route.c:675-683). -/
def freePorts (p : Option (Nat × List (Option Port))) (w : World) : World :=
  match p with
  | none => w
  | some (a, ps) => free a (ps.foldl (fun w p => freePort p w) w)

/-- Raise the errors of the operation (route.c:688-690). -/
def report (status : Int) (killed : Bool) (w : World) : World :=
  let w := w.raise status
  if w.err = 0 ∧ killed = true then w.raise (-528) else w

/-- `_cru_free_router` (route.c:658-694).  The result is the router if it still exists. -/
def freeRouter (r : Router) (w : World) : Option Router × World :=
  if r.shared ≠ 0 then (some { r with shared := r.shared - 1 }, w)
  else (none, free r.id (report r.status r.killed
    (release ⟨r.id, .cond⟩ (release ⟨r.id, .mutex⟩ (freePorts r.ports (freeThreads r.threads w))))))

/-- The loop in `router_of` (route.c:175-177) from the `o`-th port on, with `k` to go.  The result is the ports made and whether they
are all there. -/
def newPorts (sys : Nat → Int) (lanes : Nat) : Nat → Nat → World → List Port × Bool × World
  | _, 0, w => ([], true, w)
  | o, k + 1, w =>
    match newPort sys o lanes w with
    | (none, w) => ([], false, w)
    | (some p, w) =>
      match newPorts sys lanes (o + 1) k w with
      | (ps, b, w) => (p :: ps, b, w)

/-- The number of workers (route.c:125-128), where `nproc` is the number of processors, or zero if it isn't known. -/
def capped (nproc lanes : Nat) : Nat :=
  if nproc ≠ 0 then if nproc < lanes then nproc else lanes else if 1024 < lanes then 1024 else lanes

/-- The array of ports, of which the ones not made are null (route.c:148). -/
def slots (lanes : Nat) (ps : List Port) : List (Option Port) := ps.map some ++ List.replicate (lanes - ps.length) none

/-- `router_of` (route.c:95-185). -/
def routerOf (sys : Nat → Int) (nproc lanes : Nat) (w : World) : Option Router × World :=
  let lanes := capped nproc lanes
  if w.err ≠ 0 then (none, w)
  else if lanes = 0 then (none, w.raise (-1442))
  else
    match malloc sys w with
    | (none, w) => (none, w)
    | (some r, w) =>
      match mutexInit sys r w with
      | (e, w) =>
        if e ≠ 0 then (none, free r w)
        else
          match condInit sys r w with
          | (e, w) =>
            if e ≠ 0 then (none, free r (release ⟨r, .mutex⟩ w))
            else
              match malloc sys w with
              | (none, w) => (none, (freeRouter ⟨r, lanes, none, none, 0, false, 0⟩ w).2)
              | (some t, w) =>
                match malloc sys w with
                | (none, w) => (none, (freeRouter ⟨r, lanes, some t, none, 0, false, 0⟩ w).2)
                | (some a, w) =>
                  match newPorts sys lanes 0 lanes w with
                  | (ps, true, w) => (some ⟨r, lanes, some t, some (a, slots lanes ps), 0, false, 0⟩, w)
                  | (ps, false, w) => (none, (freeRouter ⟨r, lanes, some t, some (a, slots lanes ps), 0, false, 0⟩ w).2)

/-- `_cru_shared` (route.c:640-649). -/
def share (r : Router) : Router := { r with shared := r.shared + 1 }

/-- `_cru_reset` (route.c:487-515), leaving out the ports' flags and the task. -/
def reset (r : Router) : Router := { r with status := 0, killed := false }

/-- What comes of running the workers: the status left in the router, whether it was killed, and errors in starting or joining
threads. -/
structure Run where
  status : Int
  killed : Bool
  dblx : Int

/-- `_cru_launched` (launch.c:38-73): the router is consumed. -/
def launched (x : Run) (r : Option Router) (w : World) : Option Router × World :=
  match r with
  | none => (none, w)
  | some r =>
    let w := w.raise x.status
    match freeRouter { r with status := x.status, killed := x.killed } { w with err := x.dblx } with
    | (r, w') => (r, { w' with err := w.err }.raise w'.err)

/-- What's done with the router of an operation from when it's made until it's freed.
* `shared`: `_cru_launched (k, b, _cru_shared (_cru_reset (r, t, err)), err)`, as in compose.c:437, 441, mutate.c:798, props.c:296 and
  others.
* `plain`: `_cru_status_launched (k, b, h, _cru_reset (r, t, err), err)`, as in filters.c:614, duplex.c:385 and others, which doesn't
  consume the router (launch.c:84-115).
* `extra`: `_cru_launched (k, b, z, err)` with another router `z` made for the purpose by `_cru_razing_router` or `_cru_router`, as in
  compose.c:431-433, props.c:294, 302-304, filters.c:616 and others. -/
inductive Stage
  | shared (x : Run)
  | plain (x : Run)
  | extra (x : Run)

/-- Perform a stage.  In case of `plain` the errors are raised (launch.c:112-113). -/
def perform (sys : Nat → Int) (nproc : Nat) (s : Stage) (r : Option Router) (w : World) : Option Router × World :=
  match s with
  | .shared x => launched x (r.map fun r => share (reset r)) w
  | .plain x => (r.map fun r => { reset r with status := x.status, killed := x.killed }, (w.raise x.status).raise x.dblx)
  | .extra x =>
    match r with
    | none => (none, w)
    | some r' =>
      match routerOf sys nproc r'.lanes w with
      | (z, w) => (r, (launched x z w).2)

/-- An operation: the router is made, some stages are performed unless there's no router, and the router is freed
(`_cru_free_router` or `_cru_sweep`, route.c:751-780). -/
def operation (sys : Nat → Int) (nproc lanes : Nat) (stages : List Stage) (w : World) : Option Router × World :=
  match routerOf sys nproc (if lanes ≠ 0 then lanes else if nproc ≠ 0 then nproc else 1) w with
  | (none, w) => (none, w)
  | (some r, w) =>
    match stages.foldl (fun x s => perform sys nproc s x.1 x.2) (some r, w) with
    | (none, w) => (none, w)
    | (some r, w) => freeRouter r w

/-- `cru_partition` (classes.c:36-48): where it is, and where the array of maps is. -/
structure Partition where
  id : Nat
  maps : Nat
  plurality : Nat

/-- `_cru_partition` (classes.c:77-102).  If there's no room for the maps, the lock isn't destroyed (classes.c:96, 100). -/
def partition (sys : Nat → Int) (p : Nat) (w : World) : Option Partition × World :=
  if p = 0 then (none, w.raise (-603))
  else if w.err ≠ 0 then (none, w)
  else
    match malloc sys w with
    | (none, w) => (none, w)
    | (some h, w) =>
      match rwlockInit sys 607 h w with
      | (e, w) =>
        if e ≠ 0 then (none, free h w)
        else
          match malloc sys w with
          | (none, w) => (none, free h w)
          | (some m, w) => (some ⟨h, m, p⟩, w)

/-- `cru_free_partition` (classes.c:392-427) with no classes in it, when done at once. -/
def freePartition (p : Partition) (w : World) : World := free p.id (release ⟨p.id, .rwlock⟩ (free p.maps w))

/-- `_cru_classifying_router` (route.c:407-435): a partition and a router.  The number of maps isn't limited as the number of workers
is. -/
def classifyingRouter (sys : Nat → Int) (nproc lanes : Nat) (w : World) : Option (Router × Partition) × World :=
  match partition sys lanes w with
  | (none, w) => (none, w)
  | (some h, w) =>
    match routerOf sys nproc lanes w with
    | (none, w) => (none, freePartition h w)
    | (some r, w) => (some (r, h), w)

/-- `_cru_new_kill_switch` (killers.c:81-99), called by `cru_new_kill_switch` (entry.c:166-178) without an error pending. -/
def newKillSwitch (sys : Nat → Int) (w : World) : Option Nat × World :=
  match malloc sys w with
  | (none, w) => (none, w)
  | (some k, w) =>
    match mutexInit sys k w with
    | (e, w) => if e ≠ 0 ∨ w.err ≠ 0 then (none, free k w) else (some k, w)

/-- `cru_free_kill_switch` (killers.c:296-314) of a valid one. -/
def freeKillSwitch (k : Nat) (w : World) : World := free k (release ⟨k, .mutex⟩ w)

end Cru.Resource
