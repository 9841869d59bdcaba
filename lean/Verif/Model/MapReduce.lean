import Verif.Model.Graph
import Verif.Model.Fold
import Mathlib.Algebra.BigOperators.Group.Finset.Basic
import Mathlib.Algebra.Order.Group.Multiset

/-!
# Map-reduction (mapreduce.c, maybe.c, crew.c:446-498, launch.c:268-302, entry.c:555-595)

`map t m` is what `_cru_mapped_node` (nodes.c:421-430, modelled in `Model/Fold.lean`) computes for the node `m` at time `t`.
Callbacks may depend on time and may fail at any call.  `log` has the callbacks of each worker in order.  `made` and `freed`
are the results returned by callbacks and those passed to the destructor, if there is one.  Destructors don't fail here.
Allocation failures are left out.
-/

namespace Cru.MapReduce

open Net Fold

variable {n : Nat} {N V L X : Type}

/-- The vertex fold of the mapreducer, with `m_free` and `r_free` equal (crew.c:468, mapreduce.c:64). -/
structure Ops (N X : Type) where
  map : Nat → N → Outcome X
  red : Nat → Option X → Option X → Outcome X
  vacuous : Option (Nat → Outcome X)
  free : Bool

/-- A callback with its operands and its outcome. -/
inductive Call (N X : Type) where
  | map (m : N) (r : Outcome X)
  | reduce (left right : Option X) (r : Outcome X)

/-- `struct maybe_s` (maybe.h) of an extant value. -/
structure Maybe (X : Type) where
  value : Option X
  status : Int

/-- Local variables of the workers (mapreduce.c:97-109), the kill flag and the history. -/
structure Job (n : Nat) (N X : Type) where
  seen : Fin n → List N
  result : Fin n → Option (Maybe X)
  err : Fin n → Int
  stop : Fin n → Bool
  sample : Fin n → Nat
  killed : Nat
  clock : Nat
  log : Fin n → List (Call N X)
  made : Multiset X
  freed : Multiset X

/-- The storage behind a result: none if it is null or there is no destructor. -/
def Ops.own (o : Ops N X) (x : Option X) : Multiset X := if o.free then (x.toList : Multiset X) else 0

/-- `killed = (killed ? 1 : KILLED)` (mapreduce.c:124, killers.h:36). -/
def poll (s : Job n N X) (i : Fin n) : Job n N X :=
  if s.stop i then s
  else { s with sample := Function.update s.sample i (s.sample i + 1)
                stop := Function.update s.stop i ((s.sample i + 1) % 32 == 0 && s.killed != 0) }

/-- What `_cru_mapped_node` returns: null if there was an error (nodes.c:413). -/
def mapped (r : Outcome X) : Option X := if r.ux ≠ 0 then none else r.val

/-- The call of `_cru_mapped_node`: a result returned along with an error is freed (nodes.c:411-412). -/
def callMap (o : Ops N X) (i : Fin n) (s : Job n N X) (m : N) (r : Outcome X) : Job n N X :=
  { s with clock := s.clock + 1
           log := Function.update s.log i (s.log i ++ [.map m r])
           made := s.made + o.own r.val
           freed := s.freed + if r.ux ≠ 0 then o.own r.val else 0 }

/-- `visit` (mapreduce.c:42-80), with no error on entry.  On a worker's first vertex, `_cru_new_maybe` moves the error into
the result and clears it (mapreduce.c:68, maybe.c:36-54), so the worker goes on. -/
def visit (o : Ops N X) (i : Fin n) (s : Job n N X) (m : N) : Job n N X :=
  let r := o.map s.clock m
  let s := callMap o i s m r
  match s.result i with
  | none => { s with result := Function.update s.result i (some ⟨mapped r, r.ux⟩) }
  | some q =>
    if r.ux ≠ 0 then
      { s with err := Function.update s.err i r.ux
               result := Function.update s.result i (some { q with value := none })
               freed := s.freed + o.own q.value }
    else
      let v := o.red s.clock (mapped r) q.value
      { s with clock := s.clock + 1
               log := Function.update s.log i (s.log i ++ [.reduce (mapped r) q.value v])
               made := s.made + o.own v.val
               freed := s.freed + o.own (mapped r) + o.own q.value
               err := Function.update s.err i v.ux
               result := Function.update s.result i (some { q with value := v.val }) }

/-- The loop body of `_cru_mapreducing_task` (mapreduce.c:121-132). -/
def handle [DecidableEq N] (o : Ops N X) (g : Gr N V L) (backwards : Bool) (i : Fin n) (s : Job n N X) (m : N) :
    Job n N X × List N × Bool :=
  let s := poll s i
  if s.err i ≠ 0 ∨ s.stop i = true then (s, [], false)
  else if m ∈ s.seen i then (s, [], false)
  else (visit o i { s with seen := Function.update s.seen i (s.seen i ++ [m]) } m, g.next backwards m, false)

/-- The task; interference is by `cru_kill`. -/
def task [DecidableEq N] (o : Ops N X) (g : Gr N V L) (backwards : Bool) (hash : N → Nat) (hn : 0 < n) :
    Task n N (Job n N X) Unit where
  dest m := Build.lane hn (hash m)
  handle := handle o g backwards
  env _ s := { s with killed := 1 }

def start : Job n N X :=
  ⟨fun _ => [], fun _ => none, fun _ => 0, fun _ => false, fun _ => 0, 0, 0, fun _ => [], 0, 0⟩

/-- The value a worker returns at the end, if any (mapreduce.c:133-143). -/
def Job.returned (s : Job n N X) (i : Fin n) : Option (Option X) :=
  if s.err i ≠ 0 ∨ s.stop i = true then none else (s.result i).map Maybe.value

/-- The status a worker returns at the end: its error, or the status in the result it keeps or frees (mapreduce.c:133-143,
maybe.c:78; runners.c:83-84; the joiner raises it, runners.c:175). -/
def Job.status (s : Job n N X) (i : Fin n) : Int :=
  if s.err i ≠ 0 then s.err i else ((s.result i).map Maybe.status).getD 0

/-- The results of the workers, in no particular order. -/
def Job.pool (s : Job n N X) : Multiset (Option (Option X)) := ((List.finRange n).map s.returned : List (Option (Option X)))

/-- The reduction phase (crew.c:472-493, maybe.c:116-197) when there are no errors.  Results are taken from a pool
in any order, `none` being a worker that had no vertices.  A pair is replaced by its reduction, and the last one left is the
outcome.  The last two indices are the values made by the reduction and those destroyed. -/
inductive Reduces (o : Ops N X) : Multiset (Option (Option X)) → Option (Option X) → Multiset X → Multiset X → Prop
  | nothing : Reduces o 0 none 0 0
  | skip {s r a b} : Reduces o s r a b → Reduces o (none ::ₘ s) r a b
  | last (x) : Reduces o {some x} (some x) 0 0
  | pair {x y s r a b} (t : Nat) : (o.red t x y).ux = 0 → Reduces o (some (o.red t x y).val ::ₘ s) r a b →
      Reduces o (some x ::ₘ some y ::ₘ s) r (o.own (o.red t x y).val + a) (o.own x + o.own y + b)

/-- A `maybe` left by a worker or by a reduction (maybe.h), with its status. -/
structure End (X : Type) where
  value : Option X
  extant : Bool
  status : Int

/-- What a worker leaves: an absent value if there's an error, including that of a result it frees because it's killed, nothing
if it's killed otherwise, or else its result (mapreduce.c:133-143, maybe.c:78). -/
def Job.exit (s : Job n N X) (i : Fin n) : Option (End X) :=
  if s.err i ≠ 0 then some ⟨none, false, s.err i⟩
  else if s.stop i = true then
    if ((s.result i).map Maybe.status).getD 0 ≠ 0 then some ⟨none, false, ((s.result i).map Maybe.status).getD 0⟩ else none
  else (s.result i).map fun q => ⟨q.value, true, q.status⟩

/-- What the workers leave, in no particular order. -/
def Job.exits (s : Job n N X) : Multiset (Option (End X)) := ((List.finRange n).map s.exit : List (Option (End X)))

/-- What is freed with something left by a worker or a reduction (maybe.c:62-81). -/
def End.owned (o : Ops N X) (q : Option (End X)) : Multiset X :=
  match q with
  | none => 0
  | some q => if q.extant then o.own q.value else 0

/-- The first of two codes that isn't zero (maybe.c:192). -/
def first (a b : Int) : Int := if a ≠ 0 then a else b

/-- The reduction phase when there's an error (crew.c:472-496, maybe.c:116-197).  Pairs are reduced in any order, both operands
being destroyed and any result being kept, although the reduction may fail, until some status is raised.  Then everything is
freed that workers or reductions have left or will leave.  The error is the second index, and the last two are the values made
and destroyed.  It is a simplification that pairs may be reduced in spite of the status of an operand, whether or not nthm
allows it. -/
inductive Drains (o : Ops N X) : Multiset (Option (End X)) → Int → Multiset X → Multiset X → Prop
  | raised {x s} : x.status ≠ 0 → Drains o (some x ::ₘ s) x.status 0 (End.owned o (some x) + (s.map (End.owned o)).sum)
  | skip {s e a b} : Drains o s e a b → Drains o (none ::ₘ s) e a b
  | pair {x y s e a b} (t : Nat) : x.extant = true → y.extant = true →
      Drains o (some ⟨(o.red t x.value y.value).val, true, first x.status (first y.status (o.red t x.value y.value).ux)⟩ ::ₘ s) e a b →
      Drains o (some x ::ₘ some y ::ₘ s) e (o.own (o.red t x.value y.value).val + a) (o.own x.value + o.own y.value + b)

/-- The results that workers destroy at the end: those of workers with an error or killed (mapreduce.c:133-136). -/
def Job.released (o : Ops N X) (s : Job n N X) : Multiset X :=
  ∑ i, if s.err i ≠ 0 ∨ s.stop i = true then o.own (((s.result i).map Maybe.value).getD none) else 0

/-- The outcome of `_cru_mapreduce` (mapreduce.c:155-172) given what the workers left and the outcome of the reduction phase:
an error from a worker or the reduction, or that of the kill flag (route.c:688-690), and otherwise the value.  The last
two indices are all results made and all results destroyed, where a value obtained in spite of the kill flag is destroyed by
the caller (entry.c:591-592). -/
inductive Outcomes (o : Ops N X) (s : Job n N X) : Except Int (Option X) → Multiset X → Multiset X → Prop
  | failed {e a b} : Drains o s.exits e a b → Outcomes o s (.error e) (s.made + a) (s.freed + s.released o + b)
  | kill {v a b} : (∀ i, s.status i = 0) → Reduces o s.pool v a b → s.killed ≠ 0 →
      Outcomes o s (.error Build.intKil) (s.made + a) (s.freed + s.released o + b + o.own (v.getD none))
  | value {v a b} : (∀ i, s.status i = 0) → Reduces o s.pool v a b → s.killed = 0 →
      Outcomes o s (.ok (v.getD none)) (s.made + a) (s.freed + s.released o + b)

/-- The map of the sequential version, in the terms of `Model/Fold.lean`. -/
def mapAct (o : Ops N X) (m : N) (w : World) : Option (Obj X) × World :=
  let x := applied (fun t => o.map t m) (if o.free then some 0 else none) w
  if x.2.err ≠ 0 then (none, destroy (fun _ _ => 0) (if o.free then some 0 else none) x.1 x.2) else x

/-- The sequential version, `_cru_reduced_nodes` (nodes.c:456-501) over the whole list of nodes (entry.c:588). -/
def sequential (o : Ops N X) (ns : List N) : Option (Obj X) × World :=
  foldWith (fun _ _ => 0)
    ⟨o.vacuous, none, none, some o.red, if o.free then some 0 else none, if o.free then some 0 else none⟩
    (mapAct o) (mapAct o) (-1280) (-1281) ns ⟨0, 0, 0, 0, false⟩

/-- The sequential version is used with one lane if the graph has no attribute and the initial node is the first in the list
(entry.c:585). -/
def usesSequential [DecidableEq N] (g : Gr N V L) (stored : Bool) (initial : N) (lanes : Nat) : Bool :=
  lanes == 1 && !stored && (g.nodes.head? == some initial)

end Cru.MapReduce
