import Verif.Model.Pool
import Verif.Model.Induce

/-!
# Induction, one access of memory at a time (induce.c:47-165, zones.c:250-349, cthread.c:323-336)

What the workers do to the accumulators of nodes and to the fields of ports that other workers look at, in terms of the machine in
`Model/Pool.lean`, where the lock of port `i`, its field `p_lock`, is just `i`.  The exchange of packets isn't modelled here; nodes arrive
at their workers in any order and as often as you like, and a packet that is deferred (induce.c:149) is one that arrives again.

Left out: the sets `seen`, which no other worker has access to; the sets `reachable`, which aren't written meanwhile and include all nodes
in question (`Model/Induce`); the exponential back-off (zones.c:313-318), which is up to the port's own worker alone; errors of locks.
-/

namespace Cru.PoolInduce

open Cru.Pool Cru.Induce

/-- Places in memory: the field `accumulator` of a node, the fields `visited` and `disabled` of a port, and the result of a worker.  A set
of nodes counts as a single place, whatever is accessed in it. -/
inductive Loc (N : Type) where
  | acc (n : N)
  | visited (i : Nat)
  | disabled (i : Nat)
  | result (i : Nat)
  deriving DecidableEq

/-- What's there: a value, a set, a flag, or a null pointer. -/
inductive Val (N A : Type) where
  | value (a : A)
  | nodes (S : List N)
  | flag (b : Bool)
  | null

variable {N V L A : Type}

/-- What's found in a set; a null pointer is the empty one. -/
def Val.set : Val N A → List N
  | .nodes S => S
  | _ => []

/-- Whether a flag is set. -/
def Val.on : Val N A → Bool
  | .flag b => b
  | _ => false

/-- A value, where `nil` is the null pointer in the eyes of the user. -/
def Val.get (nil : A) : Val N A → A
  | .value a => a
  | _ => nil

/-- What may go wrong with a packet: a kill request or an error that comes up before the node is evaluated (induce.c:135, 141-144), and one
when its value is to be recorded (induce.c:77, 83). -/
inductive Fault where
  | none
  | before
  | after
  deriving DecidableEq

abbrev Thread (N A : Type) := Code (Loc N) (Val N A) Nat

/-- The accumulators loaded by `reduced_edges` (edges.c:521, 528).  Here they're all loaded before any function of the user is called. -/
def look (nil : A) : List (L × N) → (List (L × A) → Thread N A) → Thread N A
  | [], k => k []
  | e :: es, k => .load (.acc e.2) fun x => look nil es fun r => k ((e.1, x.get nil) :: r)

variable [DecidableEq N] (own : N → Nat)

/-- `all_visited` (zones.c:250-290) on the part of worker `t`, where `own` gives the port each node belongs to. -/
def allVisited (t : Nat) : List N → (Readiness → Thread N A) → Thread N A
  | [], k => k .now
  | o :: os, k =>
    if own o = t then
      .load (.disabled (own o)) fun x =>
        if x.on then k .never
        else .load (.visited (own o)) fun y => if o ∈ y.set then allVisited t os k else k .later
    else
      .rdlock (own o) <| .load (.disabled (own o)) fun x =>
        if x.on then .unlock (own o) (k .never)
        else .load (.visited (own o)) fun y => .unlock (own o) (if o ∈ y.set then allVisited t os k else k .later)

/-- `_cru_set` (cthread.c:323-336) for the field `disabled`. -/
def disable (t : Nat) (k : Thread N A) : Thread N A := .wrlock t <| .store (.disabled t) (.flag true) <| .unlock t k

/-- The last part of `visit` (induce.c:80-86), and what happens then if there's no memory. -/
def record (t : Nat) (n : N) (a : A) (f : Fault) (k : Thread N A) : Thread N A :=
  .store (.acc n) (.value a) <| .wrlock t <| .load (.visited t) fun y =>
    if f = .after then .unlock t (disable t k) else .store (.visited t) (.nodes (y.set ++ [n])) <| .unlock t k

variable (nil : A) (d : Inducer V L A) (vertex : N → V) (arcs : N → List (L × N)) (b : N)

/-- The loop in `_cru_inducing_task` (induce.c:129-156) with `visit` (induce.c:47-89) for the packets that arrive, where `b` is the initial
node and `r` is the variable `result`. -/
def arrivals (t : Nat) : List (N × Fault) → Option A → Thread N A
  | [], r => .store (.result t) (match r with | none => .null | some a => .value a) .done
  | (n, f) :: ps, r =>
    .load (.disabled t) fun x =>
      if x.on then arrivals t ps r
      else if f = .before then disable t (arrivals t ps r)
      else .load (.visited t) fun y =>
        if n ∈ y.set then arrivals t ps r
        else allVisited own t ((arcs n).map Prod.snd) fun
          | .never => disable t (arrivals t ps r)
          | .later => arrivals t ps r
          | .now =>
            if r.isSome then disable t (arrivals t ps r)                          -- IER(1041)
            else look nil (arcs n) fun es =>
              match evaluate d (vertex n) es with
              | .error _ => disable t (arrivals t ps r)
              | .ok a =>
                if n = b then if f = .after then disable t (arrivals t ps r) else arrivals t ps (some a)
                else record t n a f (arrivals t ps r)

/-- All workers, each with the packets that arrive there, and the memory at the beginning. -/
def start (jobs : List (List (N × Fault))) : State (Loc N) (Val N A) Nat :=
  Pool.init (jobs.mapIdx fun t ps => arrivals own nil d vertex arcs b t ps none) fun
    | .acc _ => .null
    | .visited _ => .null
    | .disabled _ => .flag false
    | .result _ => .null

end Cru.PoolInduce
