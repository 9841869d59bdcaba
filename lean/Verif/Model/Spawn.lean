import Verif.Model.Trav

/-!
# The loop that makes a new graph, shared by fabrication and crossing

Fab.c:104-174 and cross.c:317-393 both receive packets naming what a new node is to be made from: a node of a given graph, or a
pair of nodes of two given graphs.  This is the *key* of the packet.  The first packet with a key makes a node with edges that
lead nowhere yet, and sends a packet for each edge, whose carrier is the edge.  Whoever receives the packet makes the edge lead to
the node made from its key.  The modules that use this say what's made from a key, and cite the lines.  Allocation failures are
left out.
-/

namespace Cru.Spawn

open Net

variable {n : Nat} {K W M : Type}

/-- A new node, given by the lane whose queue it's in, and its position in the queue (`node_queue`, queue.c). -/
abbrev Id (n : Nat) := Fin n × Nat

/-- What's made from a key: a vertex, and a list of edge labels, each with the key of the node the edge should lead to. -/
structure Maker (K W M : Type) where
  vertex : K → W
  edges : K → List (M × K)

/-- The new nodes so far: the vertex and the labels of the outgoing edges of each node of the queue of each worker, and
`edge->remote.node` for each outgoing edge of each node, if it's a new node. -/
structure Heap (n : Nat) (W M : Type) where
  nodes : Fin n → List (W × List M)
  link : Id n → Nat → Option (Id n)

/-- A packet: the key, and the carrier, given by a node and a position in the list of its edges. -/
structure Pkt (n : Nat) (K : Type) where
  key : K
  carrier : Option (Id n × Nat)

/-- The variables of the workers, where `seen` is the collision table: the keys received with the nodes made from them
(`packet->receiver`). -/
abbrev Work (n : Nat) (K W M : Type) := Trav.Job n (K × Id n) (Heap n W M)

/-- `carrier->remote.node = t`, if there's a carrier (fab.c:84-85, 159-160, cross.c:248, 299-300). -/
def patch (h : Heap n W M) (c : Option (Id n × Nat)) (t : Id n) : Heap n W M :=
  match c with
  | none => h
  | some (a, q) => { h with link := Function.update h.link a (Function.update (h.link a) q (some t)) }

/-- `_cru_enqueued_node` (fab.c:82, cross.c:296). -/
def enqueue (h : Heap n W M) (i : Fin n) (nd : W × List M) : Heap n W M :=
  { h with nodes := Function.update h.nodes i (h.nodes i ++ [nd]) }

/-- The packets sent for the edges of the new node `a` (scatter.c:98-120, cross.c:302). -/
def scatter (a : Id n) (es : List (M × K)) : List (Pkt n K) := es.zipIdx.map fun e => ⟨e.1.2, some (a, e.2)⟩

/-- The body of the loop (fab.c:148-168, cross.c:366-386).  The worker makes no more than `limit` nodes, unless that's zero
(cross.c:378-381).  The packets left after an error or a kill request are discarded one by one, which fab.c:162-168 does, whereas
cross.c:383-386 discards all those received at once.  No packet is handled otherwise after that, so the effect is the same. -/
def handle [DecidableEq K] (mk : Maker K W M) (limit : Nat) (i : Fin n) (s : Work n K W M) (p : Pkt n K) :
    Work n K W M × List (Pkt n K) × Bool :=
  let s := Trav.poll s i
  if s.err i ≠ 0 ∨ s.stop i = true then (s, [], false)
  else
    match (s.seen i).find? (fun e => decide (e.1 = p.key)) with
    | some e => ({ s with mem := patch s.mem p.carrier e.2 }, [], false)
    | none =>
      if limit ≠ 0 ∧ limit ≤ (s.seen i).length then ({ s with err := Function.update s.err i Build.intOvf }, [], false)
      else
        let a := (i, (s.mem.nodes i).length)
        let es := mk.edges p.key
        ({ s with seen := Function.update s.seen i (s.seen i ++ [(p.key, a)])
                  mem := patch (enqueue s.mem i (mk.vertex p.key, es.map (·.1))) p.carrier a }, scatter a es, false)

/-- The task, where `hash` gives the hash of the packet with a given key. -/
def task [DecidableEq K] (mk : Maker K W M) (limit : Nat) (hash : K → Nat) (hn : 0 < n) : Task n (Pkt n K) (Work n K W M) Unit where
  dest p := Build.lane hn (hash p.key)
  handle := handle mk limit
  env _ s := { s with killed := 1 }

def start : Work n K W M := Trav.start ⟨fun _ => [], fun _ _ => none⟩

/-- The first non-zero worker status in lane order (runners.c:100-119, crew.c:366-399). -/
def status (s : Work n K W M) : Int := ((List.finRange n).map s.err).foldl (fun r e => if r = 0 then e else r) 0

/-- The graph made of the queues of the workers, whose base node is the front of the queue of the worker that received the initial
packet (crew.c:365-399). -/
def graph (base : Fin n) (h : Heap n W M) : Gr (Id n) (Option W) M where
  nodes := (List.finRange n).flatMap fun i => (List.range (h.nodes i).length).map fun k => (i, k)
  base := (base, 0)
  vertex a := ((h.nodes a.1)[a.2]?).map (·.1)
  out a := (((h.nodes a.1)[a.2]?).map fun nd => nd.2.zipIdx.filterMap fun e => (h.link a e.2).map fun t => (e.1, t)).getD []
  inn _ := []

/-- `_cru_graph_launched` with no given graph (launch.c:314-375): an error, or the new graph.  The error is the first one any worker
had, or otherwise that of the kill flag (`_cru_free_router`, route.c:688-690). -/
def Launched [DecidableEq K] (mk : Maker K W M) (limit : Nat) (hash : K → Nat) (hn : 0 < n) (k₀ : K)
    (r : Except Int (Gr (Id n) (Option W) M)) : Prop :=
  ∃ x : State n (Pkt n K) (Work n K W M), Net.Reach (task mk limit hash hn) ⟨k₀, none⟩ start x ∧ x.main = .done ∧
    r = if status x.g ≠ 0 then .error (status x.g) else if x.g.killed ≠ 0 then .error Build.intKil
      else .ok (graph (Build.lane hn (hash k₀)) x.g.mem)

end Cru.Spawn
