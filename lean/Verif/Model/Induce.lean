import Verif.Model.Trav

/-!
# Induction (induce.c, zones.c:145-184, zones.c:250-349, entry.c:602-640)

The traversal that evaluates vertices once their prerequisites have been evaluated, the analysis that precedes it when the
initial vertex isn't the base vertex, and the traversal afterwards that disposes of intermediate values.

Left out: lookup of the initial vertex (zones.c:108-132; the initial node is a parameter here), duplexing (see `Model/Duplex`),
allocation failure, freeing of values when an error occurs in the course of evaluating a vertex (see `Model/Fold`), and the
exponential back-off (zones.c:315-316).
-/

namespace Cru.Induce

open Net

/-- What a user function that fails returns: an error code other than 0. -/
abbrev Failure := { e : Int // e ≠ 0 }

/-- `CRU_UNDVAC`. -/
def undVac : Failure := ⟨-554, by decide⟩

/-- `struct cru_inducer_s` (data_types.h) after inference, without the zone and the destructors.  User functions return a value
or fail.  Values are pointers of type `A`. -/
structure Inducer (V L A : Type) where
  boundary : Option (V → Except Failure A)
  vacuous : Option (Except Failure A)
  map : V → L → A → Except Failure A
  reduction : A → A → Except Failure A

variable {n : Nat} {N V L A : Type}

/-- The loop over edges in `reduced_edges` (edges.c:525-534), with values in place of remote vertices (`by_accumulator`). -/
def reduce (d : Inducer V L A) (v : V) : List (L × A) → A → Except Failure A
  | [], r => .ok r
  | e :: es, r =>
    match d.map v e.1 e.2 with
    | .error x => .error x
    | .ok a =>
      match d.reduction a r with
      | .error x => .error x
      | .ok r => reduce d v es r

/-- `_cru_reduced_edges_by_accumulator` (edges.c:568-578, 484-538). -/
def reducedEdges (d : Inducer V L A) (v : V) (es : List (L × A)) : Except Failure A :=
  match d.vacuous, es with
  | none, [] => .error undVac
  | none, e :: es =>
    match d.map v e.1 e.2 with
    | .error x => .error x
    | .ok a => reduce d v es a
  | some (.error x), _ => .error x
  | some (.ok a), es => reduce d v es a

/-- The value computed by `visit` (induce.c:69-72). -/
def evaluate (d : Inducer V L A) (v : V) (es : List (L × A)) : Except Failure A :=
  match es, d.boundary with
  | [], some f => f v
  | es, _ => reducedEdges d v es

/-- The variables of the workers (`seen`, `result`, `*err`, `killed`, `sample`), the fields of ports that other workers look at
(`visited`, `disabled`), the kill flag of the router, and the `accumulator` fields of nodes.  `log` isn't in the code: it lists
the nodes evaluated, the latest first.  `stale i j` means that worker `i` won't notice that port `j` is disabled (see `readiness`). -/
structure Job (n : Nat) (N A : Type) where
  seen : Fin n → List N
  visited : Fin n → List N
  off : Fin n → Bool
  err : Fin n → Int
  stop : Fin n → Bool
  sample : Fin n → Nat
  result : Fin n → Option A
  killed : Nat
  acc : N → A
  log : List N
  stale : Fin n → Fin n → Bool

/-- `killed = (killed ? 1 : KILLED)` (induce.c:132, killers.h:36). -/
def poll (s : Job n N A) (i : Fin n) : Job n N A :=
  if s.stop i then s
  else { s with sample := Function.update s.sample i (s.sample i + 1)
                stop := Function.update s.stop i ((s.sample i + 1) % 32 == 0 && s.killed != 0) }

/-- The outcome of `_cru_visitable` (zones.c:328-349): some prerequisite will never be visited, not all have been
visited, or all have. -/
inductive Readiness
  | never | later | now
  deriving DecidableEq

/-- A node that isn't in the set `reachable` of the port it belongs to is ignored, unless that's null (zones.c:280). -/
def ignored [DecidableEq N] (lane : N → Fin n) (reach : Fin n → Option (List N)) (o : N) : Bool :=
  match reach (lane o) with
  | none => false
  | some l => decide (o ∉ l)

/-- `all_visited` (zones.c:250-290).  `reach i` is the set `reachable` of port `i`, `none` if it's null.  The loop takes place in one step although other workers may go on between its iterations.  Since
members are never removed from `visited`, nothing is lost by checking membership at the last iteration.  Since other ports may be
disabled after having been looked at, `stale` lets a worker see them as they were before. -/
def readiness [DecidableEq N] (lane : N → Fin n) (reach : Fin n → Option (List N)) (i : Fin n) (s : Job n N A) : List N → Readiness
  | [] => .now
  | o :: os =>
    if ignored lane reach o then readiness lane reach i s os
    else if s.off (lane o) && !s.stale i (lane o) then .never
    else if o ∈ s.visited (lane o) then readiness lane reach i s os
    else .later

/-- `visit` (induce.c:47-89) with the check of the error afterwards (induce.c:151-154). -/
def visit [DecidableEq N] (d : Inducer V L A) (vertex : N → V) (arcs : N → List (L × N)) (b : N) (i : Fin n) (s : Job n N A)
    (m : N) : Job n N A :=
  if (s.result i).isSome then                                                     -- IER(1041)
    { s with err := Function.update s.err i (-1041), off := Function.update s.off i true }
  else
    let s := { s with log := m :: s.log }
    match evaluate d (vertex m) ((arcs m).map fun e => (e.1, s.acc e.2)) with
    | .error x => { s with err := Function.update s.err i x.1, off := Function.update s.off i true }
    | .ok a =>
      if m = b then { s with result := Function.update s.result i (some a) }
      else { s with acc := Function.update s.acc m a, visited := Function.update s.visited i (s.visited i ++ [m]) }

/-- The part of the loop of `_cru_inducing_task` from the label `c` (induce.c:145-154). -/
def try1 [DecidableEq N] (lane : N → Fin n) (reach : Fin n → Option (List N)) (d : Inducer V L A) (vertex : N → V)
    (arcs : N → List (L × N)) (b : N) (i : Fin n) (s : Job n N A) (m : N) : Job n N A × Bool :=
  match readiness lane reach i s ((arcs m).map Prod.snd) with
  | .never => ({ s with off := Function.update s.off i true }, false)
  | .later => (s, true)
  | .now => (visit d vertex arcs b i s m, false)

/-- The body of the loop (induce.c:132-155).  `arcs m` are the edges of a node in the direction of the zone, which is also the
direction of its prerequisites because inducing routers have `remote_first` (route.c:265, zones.c:348). -/
def handle [DecidableEq N] (lane : N → Fin n) (reach : Fin n → Option (List N)) (d : Inducer V L A) (vertex : N → V)
    (arcs : N → List (L × N)) (b : N) (i : Fin n) (s : Job n N A) (m : N) : Job n N A × List N × Bool :=
  let s := poll s i
  if s.off i then (s, [], false)
  else if s.err i ≠ 0 ∨ s.stop i = true then ({ s with off := Function.update s.off i true }, [], false)
  else if m ∈ s.visited i then (s, [], false)
  else if m ∈ s.seen i then
    let r := try1 lane reach d vertex arcs b i s m
    (r.1, [], r.2)
  else
    let s := { s with seen := Function.update s.seen i (s.seen i ++ [m]) }
    let r := try1 lane reach d vertex arcs b i s m
    (r.1, (arcs m).map Prod.snd, r.2)

/-- `_cru_inducing_task` (induce.c:100-165).  At any time the job may be killed or a worker's view of disabled ports may change. -/
def task [DecidableEq N] (reach : Fin n → Option (List N)) (d : Inducer V L A) (vertex : N → V) (arcs : N → List (L × N))
    (b : N) (hash : N → Nat) (hn : 0 < n) : Task n N (Job n N A) (Option (Fin n → Fin n → Bool)) where
  dest m := Build.lane hn (hash m)
  handle := handle (fun m => Build.lane hn (hash m)) reach d vertex arcs b
  env e s := match e with
    | none => { s with killed := 1 }
    | some v => { s with stale := v }

def start (nil : A) : Job n N A :=
  ⟨fun _ => [], fun _ => [], fun _ => false, fun _ => 0, fun _ => false, fun _ => 0, fun _ => none, 0, fun _ => nil, [], fun _ _ => false⟩

/-- `reachability_analyzing_task` (zones.c:145-184).  `seen` is the port's field `reachable` here. -/
abbrev analysis [DecidableEq N] (next : N → List N) (hash : N → Nat) (hn : 0 < n) : Task n N (Trav.Job n N Unit) Unit :=
  Trav.task next (fun _ s _ => (s, 0)) hash hn

/-- The `reachable` sets of the ports when induction starts: null unless the analysis has put anything in them, which is done
only if the initial node isn't the base node (zones.c:227-235). -/
def Analyzed [DecidableEq N] (g : Gr N V L) (backwards : Bool) (b : N) (hash : N → Nat) (hn : 0 < n) (k : Nat)
    (reach : Fin n → Option (List N)) : Prop :=
  (b = g.base ∧ reach = fun _ => none) ∨
  (b ≠ g.base ∧ ∃ s, Reach (analysis (g.next backwards) hash hn) b (Trav.start ()) s ∧ s.main = .done ∧ s.g.killed = k ∧
    reach = fun i => if s.g.seen i = [] then none else some (s.g.seen i))

/-- The variables of `deducing_task` and the `accumulator` fields.  `freed` lists the nodes and values passed to the destructor,
the latest first. -/
structure Disposal (n : Nat) (N A : Type) where
  seen : Fin n → List N
  acc : N → A
  freed : List (N × A)

/-- `deducing_task` (induce.c:175-220).  Polling the kill flag has no effect on it. -/
def deduction [DecidableEq N] [DecidableEq A] (next : N → List N) (nil : A) (hash : N → Nat) (hn : 0 < n) :
    Task n N (Disposal n N A) Unit where
  dest m := Build.lane hn (hash m)
  handle i s m :=
    let u := if s.acc m = nil then s else { s with freed := (m, s.acc m) :: s.freed, acc := Function.update s.acc m nil }
    if m ∈ s.seen i then (u, [], false)
    else ({ u with seen := Function.update u.seen i (u.seen i ++ [m]) }, next m, false)
  env _ s := s

/-- What `cru_induced` returns (entry.c:629-639, induce.c:232-260) when the traversals have ended: an error raised by a worker, or
the result of the worker that has one, or null.  An error code is kept by the first worker that stores it in the router
(`_cru_throw`), so any of them can be reported.  `_cru_reset` clears the kill flag after the analysis and after induction
(route.c:487-515), so it can only be reported by `_cru_free_router` if it's set while intermediate values are being disposed
of, `k` being its value at the end of that. -/
def outcome (nil : A) (s : Job n N A) (k : Nat) (r : Except Int A) : Prop :=
  (∃ i, s.err i ≠ 0 ∧ r = .error (s.err i)) ∨
  ((∀ i, s.err i = 0) ∧
    r = if k ≠ 0 then .error Build.intKil else .ok (((List.finRange n).findSome? s.result).getD nil))

/-- `cru_induced` on a graph that isn't empty, with initial node `b`.  `k₁`, `k₂` and `k₃` are the kill flags at the ends of the
three traversals. -/
def Induces [DecidableEq N] (g : Gr N V L) (backwards : Bool) (b : N) (d : Inducer V L A) (nil : A) (hash : N → Nat) (hn : 0 < n)
    (k₁ k₂ k₃ : Nat) (s : Job n N A) (r : Except Int A) : Prop :=
  ∃ reach, Analyzed g backwards b hash hn k₁ reach ∧
    ∃ z, Reach (task reach d g.vertex (fun m => if backwards then g.inn m else g.out m) b hash hn) b (start nil) z ∧
      z.main = .done ∧ z.g = s ∧ s.killed = k₂ ∧ outcome nil s k₃ r

end Cru.Induce
