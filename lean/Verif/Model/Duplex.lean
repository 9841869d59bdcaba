import Verif.Model.Trav

/-!
# Deriving and removing incoming edges (duplex.c:49-149, graph.c:269-298, zones.c:195-239)

Edges are pairs of a label and a remote node.  The memory of both tasks is the incoming edges of each node.  Outgoing edges aren't
changed.  Allocation failures are left out.
-/

namespace Cru.Duplex

open Net

variable {n : Nat} {N V L : Type}

/-- The packets sent by `_cru_scatter_out` (scatter.c:98-120): the payload, and the label of the carrier with the sender.  The initial
packet has no carrier. -/
abbrev Pkt (N L : Type) := N × Option (L × N)

/-- `_cru_scatter_out` (scatter.c:98-120). -/
def scatterOut (out : N → List (L × N)) (m : N) : List (Pkt N L) := (out m).map fun e => (e.2, some (e.1, m))

/-- The body of the loop in `_cru_full_duplexing_task` (duplex.c:79-93). -/
def fullIt [DecidableEq N] (out : N → List (L × N)) (i : Fin n) (s : Trav.Job n N (N → List (L × N))) (p : Pkt N L) :
    Trav.Job n N (N → List (L × N)) × List (Pkt N L) × Bool :=
  let s := Trav.poll s i
  if s.stop i = true then (s, [], false)
  else if p.1 ∈ s.seen i then ({ s with mem := Function.update s.mem p.1 (p.2.toList ++ s.mem p.1) }, [], false)
  else ({ s with seen := Function.update s.seen i (s.seen i ++ [p.1]), mem := Function.update s.mem p.1 p.2.toList },
    scatterOut out p.1, false)

/-- `_cru_full_duplexing_task` (duplex.c:49-99), where `addr` is the address of a node. -/
def full [DecidableEq N] (out : N → List (L × N)) (addr : N → Nat) (hn : 0 < n) :
    Task n (Pkt N L) (Trav.Job n N (N → List (L × N))) Unit where
  dest p := Build.lane hn (addr p.1)
  handle := fullIt out
  env _ s := { s with killed := 1 }

/-- The body of the loop in `_cru_half_duplexing_task` (duplex.c:135-143).  The carriers of the packets are ignored. -/
def halfIt [DecidableEq N] (out : N → List (L × N)) (i : Fin n) (s : Trav.Job n N (N → List (L × N))) (p : Pkt N L) :
    Trav.Job n N (N → List (L × N)) × List (Pkt N L) × Bool :=
  let s := Trav.poll s i
  if p.1 ∈ s.seen i then (s, [], false)
  else ({ s with seen := Function.update s.seen i (s.seen i ++ [p.1]), mem := Function.update s.mem p.1 [] },
    if s.stop i = true then [] else scatterOut out p.1, false)

/-- `_cru_half_duplexing_task` (duplex.c:109-149). -/
def half [DecidableEq N] (out : N → List (L × N)) (addr : N → Nat) (hn : 0 < n) :
    Task n (Pkt N L) (Trav.Job n N (N → List (L × N))) Unit where
  dest p := Build.lane hn (addr p.1)
  handle := halfIt out
  env _ s := { s with killed := 1 }

/-- `_cru_launched` of either task from the base node (launch.c:38-73): what the incoming edges are at the end, and the error, which
depends on the kill flag (`_cru_free_router`, route.c:689-690). -/
def Launched (T : Task n (Pkt N L) (Trav.Job n N (N → List (L × N))) Unit) (g : Gr N V L) (inn : N → List (L × N)) (err : Int) : Prop :=
  ∃ x : State n (Pkt N L) (Trav.Job n N (N → List (L × N))),
    Net.Reach T (g.base, none) (Trav.start g.inn) x ∧ x.main = .done ∧ inn = x.g.mem ∧
    err = if x.g.killed = 0 then 0 else Build.intKil

/-- `_cru_half_duplex` (graph.c:269-298) for a graph that isn't empty.  A base node with incoming edges and no outgoing ones is an
internal error, given here by `true` because the result isn't zero. -/
def halfDuplex (g : Gr N V L) : Bool :=
  match g.out g.base with
  | [] => true
  | e :: _ => (g.inn e.2).isEmpty

/-- The part of `_cru_initial_node` before the initial node is located (zones.c:216-226), where `needed` is the condition
of zones.c:218-220: that the operation is a filter or a mutation, or the zone is backwards, or a map-reduction has a fold over incident
edges.  `_cru_launched` returns non-zero whenever the task is started (launch.c:72), killed or not, so nothing is undone.  The error
ends the operation (entry.c:583). -/
def Prepared [DecidableEq N] (needed : Bool) (addr : N → Nat) (hn : 0 < n) (g : Gr N V L) (inn : N → List (L × N)) (err : Int) : Prop :=
  if (halfDuplex g && needed) = true then Launched (full g.out addr hn) g inn err else inn = g.inn ∧ err = 0

end Cru.Duplex
