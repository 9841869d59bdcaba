import Mathlib.Data.List.Basic
import Mathlib.Logic.Function.Basic

/-!
# Kill switches (killers.c, killers.h)

One kill switch, any number of threads `T` that call `cru_kill`, and one thread that performs operations on graphs
one after the other with this switch.  An operation is identified by the router whose `killed` field the switch is
connected to.  Each critical section is one step, so all interleavings of critical sections are covered.
-/

namespace Cru.Kill

/-- Where the thread performing operations is: outside, between the critical section of `_cru_enable_killing`
(killers.c:121-127) and its end, with the value of `t`, or waiting for the operation to finish (sync.c:234). -/
inductive OpPc
  | outside
  | enabling (r : Nat) (t : Bool)
  | running (r : Nat)
  deriving DecidableEq

/-- Where a thread in `cru_kill` is: outside, past the critical section with `dblx` = 0 (killers.c:281), or having evaluated
the argument `k->killed` of `_cru_kill` at killers.c:283. -/
inductive KillPc
  | outside
  | observed
  | pointer (p : Option Nat)
  deriving DecidableEq

/-- The switch (killers.h:46-52), the `killed` fields of routers, which routers have been freed, and the threads. -/
structure State (T : Type) where
  killed : Option Nat
  killable : Bool
  flag : Nat → Bool
  freed : Nat → Bool
  op : OpPc
  kill : T → KillPc

/-- Steps. -/
inductive Action (T : Type)
  | attach (r : Nat)
  | enabled
  | detach
  | free (r : Nat)
  | request (t : T)
  | evaluate (t : T)
  | write (t : T)

variable {T : Type} [DecidableEq T]

/-- Initially (`_cru_new_kill_switch`, killers.c:81-99). -/
def init : State T := ⟨none, false, fun _ => false, fun _ => false, .outside, fun _ => .outside⟩

/-- The outcome of an attempted step: the step is not possible in this state, it is undefined, or the next state. -/
inductive Outcome (σ : Type)
  | disabled
  | undefined
  | next (s : σ)

/-- One step.
* `attach r`: the critical section of `_cru_enable_killing` (killers.c:121-127) for a new router.
* `enabled`: the rest of it (killers.c:128-129): set the field if `t`.
* `detach`: `_cru_disable_killing` (killers.c:139-153).
* `free r`: `_cru_free_router` (route.c:693), after the switch has been disconnected.
* `request t`: the critical section of `cru_kill` (killers.c:276-282).
* `evaluate t`: reading `k->killed` without the lock (killers.c:283).
* `write t`: `_cru_kill` (killers.c:162-175); nothing if the pointer is null, undefined if the router has been freed. -/
def step (s : State T) : Action T → Outcome (State T)
  | .attach r =>
    if s.op = .outside ∧ s.freed r = false ∧ s.flag r = false then
      .next { s with killed := some r, killable := false, op := .enabling r s.killable }
    else .disabled
  | .enabled =>
    match s.op with
    | .enabling r t => .next { s with flag := if t then Function.update s.flag r true else s.flag, op := .running r }
    | _ => .disabled
  | .detach =>
    match s.op with
    | .running _ => .next { s with killed := none, op := .outside }
    | _ => .disabled
  | .free r =>
    if s.killed = some r then .disabled else .next { s with freed := Function.update s.freed r true }
  | .request t =>
    match s.kill t with
    | .outside =>
      match s.killed with
      | none => .next { s with killable := true }
      | some _ => .next { s with killable := false, kill := Function.update s.kill t .observed }
    | _ => .disabled
  | .evaluate t =>
    match s.kill t with
    | .observed => .next { s with kill := Function.update s.kill t (.pointer s.killed) }
    | _ => .disabled
  | .write t =>
    match s.kill t with
    | .pointer none => .next { s with kill := Function.update s.kill t .outside }
    | .pointer (some r) =>
      if s.freed r then .undefined
      else .next { s with flag := Function.update s.flag r true, kill := Function.update s.kill t .outside }
    | _ => .disabled

/-- Executions. -/
inductive Exec : State T → List (Action T) → State T → Prop
  | nil (s) : Exec s [] s
  | cons {s s' s'' a as} : step s a = .next s' → Exec s' as s'' → Exec s (a :: as) s''

/-! ## Polling (killers.h:33-36) -/

/-- `KILLED` (killers.h:36): increment the unsigned sample counter (modulo 2^32) and poll the field when the last five
bits are zero.  Returns the counter and the value of the expression. -/
def poll (sample : Nat) (field : Bool) : Nat × Bool :=
  let s := (sample + 1) % 2 ^ 32
  (s, if s &&& 0x1f ≠ 0 then false else field)

/-- The loop of a task over its messages (e.g. mapreduce.c:117-121): `killed = (killed ? 1 : KILLED)`.  `field i` is the
value of the router's field at the time of message `i`.  The state after `n` messages. -/
def loop (sample : Nat) (field : Nat → Bool) : Nat → Nat × Bool
  | 0 => (sample, false)
  | n + 1 =>
    let x := loop sample field n
    if x.2 then x else poll x.1 (field n)

end Cru.Kill
