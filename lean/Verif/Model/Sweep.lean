import Verif.Model.Launch
import Mathlib.Data.Multiset.AddSub
import Mathlib.Data.List.FinRange

/-!
# What workers do after their loops, and sweeping (route.c:702-780, ports.c:316-363, spread.c:246-285, merge.c:429-446)

A worker whose loop has ended because of `_cru_exchanged` returning NULL goes on to the code that follows the loop, and the calling thread
joins it only afterwards.  Here the system of `Model/Launch.lean` is extended by that.
-/

namespace Cru.Sweep

open Cru.Net

variable {n : Nat} {P G E X : Type}

/-- The system, the workers that have got to their ends, and the data that the code following the loop is about. -/
structure St (n : Nat) (P G X : Type) where
  net : State n P G
  ended : Fin n → Bool
  x : X

/-- A step as before, or the code following the loop of one worker. -/
inductive Act (n : Nat) (E : Type)
  | net (a : Action n E)
  | finish (i : Fin n)

/-- The state when `k` threads have been created. -/
def init (k : Nat) (g : G) (x : X) : St n P G X := ⟨Launch.init k g, fun _ => false, x⟩

/-- One step.  The code following the loop, `ep i`, is one step, because what it's about isn't accessed by others.  The calling thread
waits for the threads that have been created (crew.c:327, 354, 397, 434, 497). -/
def step (T : Task n P G E) (ep : Fin n → X → X) (k : Nat) (p : Option P) : Act n E → St n P G X → Option (St n P G X)
  | .net a, s =>
    if (a matches .main) = true ∧ (s.net.main matches .join) = true ∧ ∃ i : Fin n, i.val < k ∧ s.ended i = false then none
    else (Launch.step T k p a s.net).map fun t => { s with net := t }
  | .finish i, s =>
    if i.val < k ∧ ((s.net.worker i).pc matches .gone) = true ∧ s.ended i = false then
      some { s with ended := Function.update s.ended i true, x := ep i s.x }
    else none

/-- A sequence of steps, each of which is possible. -/
def run (T : Task n P G E) (ep : Fin n → X → X) (k : Nat) (p : Option P) : List (Act n E) → St n P G X → Option (St n P G X)
  | [], s => some s
  | a :: as, s => (step T ep k p a s).bind (run T ep k p as)

/-! ## Sweeping -/

/-- A vertex with the labels of its outgoing edges. -/
structure Node (V L : Type) where
  vertex : V
  labels : List L

/-- What has been left in a port by the tasks before (ports.h): `disconnections`, `survivors` and `deletions`. -/
structure Left (V L : Type) where
  disconnections : List L := []
  survivors : List (Node V L) := []
  deletions : List (Node V L) := []

variable {V L : Type}

/-- The ports, and the vertices and labels freed. -/
structure Store (n : Nat) (V L : Type) where
  port : Fin n → Left V L
  freed : Multiset (V ⊕ L)

/-- `_cru_free_nodes` (nodes.c:76-96): the labels of outgoing edges and the vertex. -/
def freeNodes : List (Node V L) → Multiset (V ⊕ L) → Multiset (V ⊕ L)
  | [], f => f
  | m :: ms, f => freeNodes ms (.inl m.vertex ::ₘ (m.labels.map .inr : List (V ⊕ L)) + f)

/-- `sweep` (route.c:702-717) of one port. -/
def sweep (i : Fin n) (x : Store n V L) : Store n V L :=
  let l := x.port i
  { port := Function.update x.port i {}
    freed := freeNodes l.deletions (freeNodes l.survivors ((l.disconnections.map .inr : List (V ⊕ L)) + x.freed)) }

/-- The loop over all ports (route.c:777-778). -/
def sweepAll (x : Store n V L) : Store n V L := (List.finRange n).foldl (fun x i => sweep i x) x

/-- Whether there's anything to be freed (route.c:768-771). -/
def Sweepable (x : Store n V L) : Prop :=
  ∃ i, (x.port i).survivors ≠ [] ∨ (x.port i).deletions ≠ [] ∨ (x.port i).disconnections ≠ []

/-- `_cru_pingback` (ports.c:339-363): whoever receives a packet sends one to the next port, unless there's no storage for it.  The state
is the number of packets asked for; `mem` tells which ones there's storage for.  Simplified: `_cru_ping` hands the packet over at once,
rather than along with others at the end of a round. -/
def ping (mem : Nat → Bool) : Task n (Fin n) Nat Unit where
  dest p := p
  handle i g _ := if h : i.val + 1 < n then (g + 1, if mem g then [⟨i.val + 1, h⟩] else [], false) else (g, [], false)
  env _ g := g

/-- `_cru_sweep` (route.c:751-780) of a router with a given number of other users, and error code beforehand: what's left and freed
afterwards.  If the workers are started (route.c:775), each one sweeps its port after its loop (route.c:736-740), and likewise those that have
been created although not all could be, or although there's no storage for the first packet (launch.c:62).  Freeing the router, and what
destructors do to the error code, are left out. -/
inductive Swept (mem : Nat → Bool) (shared : Nat) (err : Int) (x : Store n V L) : Store n V L → Prop
  | shared : shared ≠ 0 → Swept mem shared err x x
  | nothing : shared = 0 → ¬ Sweepable x → Swept mem shared err x x
  | alone : shared = 0 → Sweepable x → (n = 1 ∨ (err ≠ 0 ∧ err ≠ -528)) → Swept mem shared err x (sweepAll x)
  | launched (hn : 0 < n) (as : List (Act n Unit)) (s : St n (Fin n) Nat (Store n V L)) : shared = 0 → Sweepable x → n ≠ 1 →
      (err = 0 ∨ err = -528) → (∀ a, .net a ∈ as → a.proper) →
      run (ping mem) sweep n (some ⟨0, hn⟩) as (init n 0 x) = some s → s.net.main = .done → Swept mem shared err x s.x
  | unlaunched (k : Nat) (p : Option (Fin n)) (as : List (Act n Unit)) (s : St n (Fin n) Nat (Store n V L)) : shared = 0 → Sweepable x →
      n ≠ 1 → (err = 0 ∨ err = -528) → k ≤ n → (k < n ∨ p = none) → (∀ a, .net a ∈ as → a.proper) →
      run (ping mem) sweep k p as (init k 0 x) = some s → s.net.main = .done → Swept mem shared err x (sweepAll s.x)

end Cru.Sweep
