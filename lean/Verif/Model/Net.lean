import Mathlib.Logic.Function.Basic

/-!
# The worker protocol (ports.c, sync.c, crew.c, launch.c, pods.c)

One router with `n` lanes.  Lane `i` has a port (shared, protected by the port's
`suspension` mutex) and a worker thread (private pod and incoming list).  The main
thread is the one that called the API function.  A `step` is one critical section, or
one piece of code touching only thread-private data.  Nested critical sections
(`suspension` held while `r->lock` is taken, as in `_cru_dwindled` called from
`blocking_assignment`) are one step, because nobody can see the port in between.

Left out: allocation failure, mutex failure, invalid magic numbers (all of them raise
internal errors), the exponential back-off sleep (ports.c:470-481, timing only), the
optional CK lock-free path (ports.c:249-252), partial crews (crew.c:290-291), which are in `Model/Launch.lean`.
-/

namespace Cru.Net

/-- What a worker task does with one packet.  `dest p` is the lane selected by the packet's
hash, `MOD(hash, lanes)` (ports.h:31-34, scatter.c:44-62).  `handle i g p` is the body of a
task's packet loop run by lane `i` on packet `p` in the shared job state `g`: it returns the
new job state, the packets sent (buffered in the pod by `_cru_scatter`, first sent first) and
whether the packet itself is deferred (pushed on `destinations->deferrals`, induce.c:147-152).
`env` is anything another thread may do to the job state at any time, such as setting the
kill flag (killers.c:260-286). -/
structure Task (n : Nat) (P G E : Type) where
  dest : P → Fin n
  handle : Fin n → G → P → G × List P × Bool
  env : E → G → G

/-- The fields of `struct port_s` (ports.h) that the protocol uses.  `signalled` is the state of
the condition variable `resumable`: a signal sent while the worker waits and not yet consumed. -/
structure Port (P : Type) where
  assigned : List P := []
  deferred : List P := []
  waiting : Bool := false
  dismissed : Bool := false
  signalled : Bool := false
deriving DecidableEq

/-- Program counter of a worker inside its packet loop.
* `run l`: processing the private incoming list `l`
* `take`: about to call `assignment` (ports.c:555, 235-260)
* `expose`: about to call `expose` from `circulate` (ports.c:463)
* `send j e`: in `circulate`'s loop at index `j` with `enabled = e` (ports.c:464-467)
* `undefer j`: in `_cru_undefer`'s loop at index `j` (sync.c:193-207)
* `block`: about to call `blocking_assignment` (ports.c:558)
* `sleep`: inside `pthread_cond_wait` (ports.c:517)
* `gone`: the task's loop has ended because `_cru_exchanged` returned NULL -/
inductive Pc (P : Type) where
  | run (incoming : List P)
  | take
  | expose
  | send (j : Nat) (enabled : Bool)
  | undefer (j : Nat)
  | block
  | sleep
  | gone
deriving DecidableEq

/-- Thread-private data of a worker: program counter, pod of outgoing packet lists
(`struct packet_pod_s`, pods.c) and the pod's `deferrals`. -/
structure Worker (n : Nat) (P : Type) where
  pc : Pc P := .take
  pod : Fin n → List P := fun _ => []
  deferrals : List P := []

/-- Program counter of the calling thread.
* `boot`: waiting for the initial quiescence (crew.c:283)
* `reset`: about to clear `quiescent` (crew.c:286)
* `start`: about to assign the initial packet (launch.c:61-64)
* `wait`: waiting for quiescence (launch.c:66, sync.c:221-239)
* `dismiss j`: in `_cru_dismiss`'s loop at index `j` (sync.c:264-276)
* `join`: waiting for the workers to end (crew.c:307-498)
* `done`: returned -/
inductive MPc where
  | boot | reset | start | wait
  | dismiss (j : Nat)
  | join | done
deriving DecidableEq

/-- The router (`running`, `quiescent` of `struct router_s`), its ports, the workers, the calling
thread and the job state.  `misplaced` records that `_cru_dismiss` found assigned packets and
discarded them, raising internal error 1707 (sync.c:269-271). -/
structure State (n : Nat) (P G : Type) where
  port : Fin n → Port P
  worker : Fin n → Worker n P
  running : Nat
  quiescent : Bool
  main : MPc
  misplaced : Bool
  g : G

variable {n : Nat} {P G E : Type}

/-- State when `_cru_crewed` has created all workers and released `r->lock` (crew.c:277-281):
every worker is at the start of its loop and `running = lanes`. -/
def init (g : G) : State n P G where
  port := fun _ => {}
  worker := fun _ => {}
  running := n
  quiescent := false
  main := .boot
  misplaced := false
  g := g

/-- Buffer packets in the pod, pushing each at the front of its destination's list
(scatter.c:44-62 with pack.c:350-362). -/
def podPush (dest : P → Fin n) (pod : Fin n → List P) (sends : List P) : Fin n → List P :=
  sends.foldl (fun pod p => Function.update pod (dest p) (p :: pod (dest p))) pod

def State.setPort (s : State n P G) (i : Fin n) (p : Port P) : State n P G :=
  { s with port := Function.update s.port i p }

def State.setWorker (s : State n P G) (i : Fin n) (w : Worker n P) : State n P G :=
  { s with worker := Function.update s.worker i w }

def State.setPc (s : State n P G) (i : Fin n) (c : Pc P) : State n P G :=
  s.setWorker i { s.worker i with pc := c }

/-- `assigned` (ports.c:271-308): put a non-empty list in front of the destination's assigned
packets; if its worker is waiting and had nothing assigned, count it as running (`_cru_swell`,
sync.c:119-136) and signal it.  An empty list is ignored (ports.c:284). -/
def assign (s : State n P G) (j : Fin n) (more : List P) : State n P G :=
  if more = [] then s else
    let d := s.port j
    let wake := d.waiting && d.assigned.isEmpty
    let s := s.setPort j { d with assigned := more ++ d.assigned, signalled := d.signalled || wake }
    if wake then { s with running := s.running + 1 } else s

/-- One port's turn in `_cru_undefer` (sync.c:195-206): when nothing is assigned and something is
deferred, the deferred packets become the assigned ones, and a waiting worker is resumed. -/
def undefer1 (s : State n P G) (j : Fin n) : State n P G :=
  let d := s.port j
  if d.assigned = [] ∧ d.deferred ≠ [] then
    let s := s.setPort j { d with assigned := d.deferred, deferred := [], signalled := d.signalled || d.waiting }
    if d.waiting then { s with running := s.running + 1 } else s
  else s

/-- One port's turn in `_cru_dismiss` (sync.c:265-276). -/
def dismiss1 (s : State n P G) (j : Fin n) : State n P G :=
  let d := s.port j
  let s := if d.assigned = [] then s else { s with misplaced := true }
  s.setPort j { d with
    assigned := []
    signalled := d.signalled || d.waiting
    dismissed := d.dismissed || !d.waiting }

/-- A list of packets obtained by `_cru_exchanged`: the loop goes on with a non-empty list and
ends with an empty one (e.g. build.c:247 `incoming ? incoming : (incoming = _cru_exchanged ...)`). -/
def gotten : List P → Pc P
  | [] => .gone
  | l => .run l

/-- The wake-up half of `blocking_assignment` (ports.c:519-524). -/
def wake (s : State n P G) (i : Fin n) : State n P G :=
  let d := s.port i
  (s.setPort i { d with assigned := [], waiting := false, signalled := false }).setPc i (gotten d.assigned)

/-- One step of worker `i`; `none` when it is asleep and not signalled, or has ended. -/
def workerStep (T : Task n P G E) (i : Fin n) (s : State n P G) : Option (State n P G) :=
  let w := s.worker i
  let d := s.port i
  match w.pc with
  | .run (p :: ps) =>                       -- body of the task's loop
    let r := T.handle i s.g p
    some { s.setWorker i { pc := .run ps, pod := podPush T.dest w.pod r.2.1,
                           deferrals := if r.2.2 then p :: w.deferrals else w.deferrals } with g := r.1 }
  | .run [] =>                              -- ports.c:555 `_cru_recycled` (pods.c:110-124)
    if w.pod i = [] then some (s.setPc i .take)
    else some (s.setWorker i { w with pc := .run (w.pod i), pod := Function.update w.pod i [] })
  | .take =>                                -- ports.c:555 `assignment` (ports.c:253-259)
    if d.assigned = [] then some (s.setPc i .expose)
    else some ((s.setPort i { d with assigned := [] }).setPc i (.run d.assigned))
  | .expose =>                              -- ports.c:463, 398-425
    some ((s.setPort i { d with deferred := w.deferrals ++ d.deferred }).setWorker i
      { w with pc := .send 0 false, deferrals := [] })
  | .send j e =>                            -- ports.c:464-469
    if h : j < n then
      let l := w.pod ⟨j, h⟩
      some (assign (s.setWorker i { w with pc := .send (j + 1) (e || !l.isEmpty),
                                           pod := Function.update w.pod ⟨j, h⟩ [] }) ⟨j, h⟩ l)
    else some (s.setPc i (if e then .block else .undefer 0))
  | .undefer j =>                           -- sync.c:193-207
    if h : j < n then some (undefer1 (s.setPc i (.undefer (j + 1))) ⟨j, h⟩)
    else some (s.setPc i .block)
  | .block =>                               -- ports.c:506-517 with sync.c:143-167
    if d.assigned ≠ [] then
      some ((s.setPort i { d with assigned := [] }).setPc i (.run d.assigned))
    else if d.dismissed then some (s.setPc i .gone)
    else if s.running = 0 then some (s.setPc i .gone)
    else
      let s := (s.setPort i { d with waiting := true, signalled := false }).setPc i .sleep
      some { s with running := s.running - 1, quiescent := s.quiescent || s.running - 1 == 0 }
  | .sleep => if d.signalled then some (wake s i) else none
  | .gone => none

/-- One step of the calling thread; `none` when it must wait.  `i₀` is the initial packet. -/
def mainStep (T : Task n P G E) (i₀ : P) (s : State n P G) : Option (State n P G) :=
  match s.main with
  | .boot => if s.quiescent then some { s with main := .reset } else none          -- crew.c:283
  | .reset => some { s with main := .start, quiescent := false }                   -- crew.c:286
  | .start => some { assign s (T.dest i₀) [i₀] with main := .wait }                -- launch.c:61-64
  | .wait => if s.quiescent then some { s with main := .dismiss 0 } else none      -- launch.c:66
  | .dismiss j =>                                                                  -- launch.c:67
    if h : j < n then some { dismiss1 s ⟨j, h⟩ with main := .dismiss (j + 1) }
    else some { s with main := .join }
  | .join => if ∀ i, ((s.worker i).pc matches .gone) then some { s with main := .done } else none
  | .done => none

/-- Who moves next.  `spurious i` is a spurious return of worker `i`'s `pthread_cond_wait`,
`spuriousMain` one of the calling thread's; POSIX allows both. -/
inductive Action (n : Nat) (E : Type) where
  | worker (i : Fin n)
  | main
  | env (e : E)
  | spurious (i : Fin n)
  | spuriousMain

/-- A spurious wake-up runs the same code as a signalled one. -/
def spuriousStep (i : Fin n) (s : State n P G) : Option (State n P G) :=
  match (s.worker i).pc with
  | .sleep => some (wake s i)
  | _ => none

/-- A spurious wake-up of the calling thread leaves `_cru_wait_for_quiescence` (sync.c:234). -/
def spuriousMainStep (s : State n P G) : Option (State n P G) :=
  match s.main with
  | .boot => some { s with main := .reset }
  | .wait => some { s with main := .dismiss 0 }
  | _ => none

def step (T : Task n P G E) (i₀ : P) (a : Action n E) (s : State n P G) : Option (State n P G) :=
  match a with
  | .worker i => workerStep T i s
  | .main => mainStep T i₀ s
  | .env e => some { s with g := T.env e s.g }
  | .spurious i => spuriousStep i s
  | .spuriousMain => spuriousMainStep s

/-- Actions of a system whose condition variables have no spurious wake-ups. -/
def Action.proper : Action n E → Prop
  | .spurious _ | .spuriousMain => False
  | _ => True

/-- States reachable by proper actions. -/
inductive Reach (T : Task n P G E) (i₀ : P) (g₀ : G) : State n P G → Prop
  | init : Reach T i₀ g₀ (init g₀)
  | step {s s'} (a : Action n E) : a.proper → Reach T i₀ g₀ s → step T i₀ a s = some s' → Reach T i₀ g₀ s'

/-- States reachable by all actions, spurious wake-ups included. -/
inductive ReachAny (T : Task n P G E) (i₀ : P) (g₀ : G) : State n P G → Prop
  | init : ReachAny T i₀ g₀ (init g₀)
  | step {s s'} (a : Action n E) : ReachAny T i₀ g₀ s → step T i₀ a s = some s' → ReachAny T i₀ g₀ s'

end Cru.Net
