import Verif.Model.Bag
import Verif.Model.Edges

/-!
# The graph building task (build.c, and its set-up and tear-down in launch.c, runners.c, crew.c, queue.c)

`cru_built` starts one worker per lane.  A packet carries a vertex to the lane selected by the
vertex's hash, with a pointer to the edge it travelled along.  Each lane owns the nodes whose
vertices hash to it.  Pointers to nodes and edges are modelled by their position: node `k` of
lane `i`, and edge `j` of that node.  Pointer stores through `carrier->remote.node` are recorded
in the map `link`.

Left out: allocation failures, failing or inconsistent equality predicates and hash functions
(they are total here), `cru_set`/`cru_get` storage, and the contents of the connector beyond the
edges it creates by `cru_connect` and the error code it returns.
-/

namespace Cru.Build

open Cru.Net

/-- What the builder's callback is told about how the vertex was reached: nothing for a connector
(`whole`, build.c:184); the initial flag or the incident edge label for a subconnector
(build.c:186, 193). -/
inductive Incident (L : Type) where
  | whole
  | initial
  | via (label : L)
deriving DecidableEq

/-- `struct cru_builder_s` (include/cru/data_types.h) after `_cru_inferred_builder`, with `connect inc v` being the error
code returned by the callback and the edges it passed to `cru_connect`, in list order (the order of
`*new_edges_out`).  `judy` says whether tables are Judy arrays. -/
structure Builder (V L : Type) where
  vEq : V → V → Bool
  vHash : V → Nat
  eEq : L → L → Bool
  eHash : L → Nat
  sub : Bool
  connect : Incident L → V → Int × List (L × V)
  vertexLimit : Nat := 0
  judy : Bool := true

/-- Node `k` of the queue of lane `i`. -/
abbrev NodeId (n : Nat) := Fin n × Nat

/-- Edge `j` out of node `k` of lane `i`. -/
abbrev EdgeId (n : Nat) := Fin n × Nat × Nat

/-- `struct node_s` while building, together with the packet that stands for it in the collision table:
its vertex, the incident edges already passed to the callback (`seen_carriers`, build.c:132, 192) and its
outgoing edges with the termini passed to `cru_connect`.  In C, later batches of a subconnector's edges are
put in front of earlier ones (build.c:138); here they go to the back so that positions are stable. -/
structure Node (V L : Type) where
  vertex : V
  seen : List (Incident L)
  edges : List (L × V)

/-- `struct packet_s` (pack.h): payload, how the vertex is reached (the carrier's label) and the carrier. -/
structure Packet (n : Nat) (V L : Type) where
  payload : V
  inc : Incident L
  carrier : Option (EdgeId n)
deriving DecidableEq

/-- The job state: local variables of each worker (build.c:229-244), the router's kill flag, the links, and
a record of what the user's callbacks have seen: `vNew`/`lNew` are the vertices and labels handed over to the
library, `vFree`/`lFree` those passed to the destructors, `calls` the callback invocations of each worker in
order, `asked` whether `cru_kill` has taken effect. -/
structure Job (n : Nat) (V L : Type) where
  nodes : Fin n → List (Node V L)
  link : EdgeId n → Option (NodeId n)
  err : Fin n → Int
  stop : Fin n → Bool
  sample : Fin n → Nat
  count : Fin n → Nat
  killed : Nat
  vNew : Multiset V
  vFree : Multiset V
  lNew : Multiset L
  lFree : Multiset L
  calls : Fin n → List (Incident L × V)
  asked : Bool

variable {n : Nat} {V L : Type}

/-- include/cru/error_codes.h: CRU_INTOVF, CRU_INTKIL; an internal error number (errs.h:36-58). -/
def intOvf : Int := -529
def intKil : Int := -528
def ier (k : Nat) : Int := -(k : Int)

/-- `MOD(hash, lanes)` (ports.h:31-34). -/
def lane (hn : 0 < n) (h : Nat) : Fin n := ⟨(h % 1031) % n, Nat.mod_lt _ hn⟩

/-- Packets for the initial vertex say `initial` to a subconnector (build.c:185-186). -/
def Builder.first (b : Builder V L) : Incident L := if b.sub then .initial else .whole

/-- Packets sent along an edge make the callback see its label, for a subconnector (build.c:191-193). -/
def Builder.along (b : Builder V L) (l : L) : Incident L := if b.sub then .via l else .whole

/-- Two callback arguments the table `seen_carriers` does not distinguish (table.c:359-376). -/
def Builder.incEq (b : Builder V L) : Incident L → Incident L → Bool
  | .whole, .whole => true
  | .initial, .initial => true
  | .via l, .via m => b.eEq l m
  | _, _ => false

/-- build.c:269-270. -/
def Builder.limit (b : Builder V L) (n : Nat) : Nat :=
  if b.vertexLimit / n ≠ 0 then b.vertexLimit / n else if b.vertexLimit ≠ 0 then 1 else 0

/-- `unique` (build.c:49-81) for this builder's orders: kept edges. -/
def Builder.uniq (b : Builder V L) (es : List (L × V)) : List (L × V) :=
  unique (fun e => b.eHash e.1) (fun e f => b.eEq e.1 f.1) (fun e f => b.vEq e.2 f.2) es

/-- `unique` (build.c:49-81) for this builder's orders: edges freed with their labels and termini. -/
def Builder.dropped (b : Builder V L) (es : List (L × V)) : List (L × V) :=
  uniqueDropped (fun e => b.eHash e.1) (fun e f => b.eEq e.1 f.1) (fun e f => b.vEq e.2 f.2) es

/-- `RAISE` in a worker (errs.h:36-40): the first error is kept. -/
def raise (g : Job n V L) (i : Fin n) (e : Int) : Job n V L :=
  { g with err := Function.update g.err i (if g.err i = 0 then e else g.err i) }

/-- `killed = (killed ? 1 : KILLED)` (build.c:274, killers.h:33-36). -/
def poll (g : Job n V L) (i : Fin n) : Job n V L :=
  if g.stop i then g
  else { g with sample := Function.update g.sample i (g.sample i + 1)
                stop := Function.update g.stop i ((g.sample i + 1) % 32 == 0 && g.killed != 0) }

/-- Label `b` of the packet loop (build.c:289-292): free the packet and its payload, and kill the other
workers unless already killed.  In C the whole incoming list is freed at once; the loop comes back here for
every later packet anyway, since `killed` stays set. -/
def discard (g : Job n V L) (i : Fin n) (p : Packet n V L) : Job n V L :=
  { g with vFree := p.payload ::ₘ g.vFree
           stop := Function.update g.stop i true
           killed := if g.stop i then g.killed else 2 }

/-- The walk along a bin of the collision table (build.c:275-282, table.c:47-71): the first node with an equal
vertex among those with the same hash (Judy), or among all (no Judy). -/
def find (b : Builder V L) (nodes : List (Node V L)) (v : V) : Option Nat :=
  nodes.findIdx? (fun nd => (!b.judy || b.vHash nd.vertex == b.vHash v) && b.vEq v nd.vertex)

/-- The packets sent by `_cru_scatter_out_or_consume` (scatter.c:348-375) for edges `es`, the first of which
is edge `off` of node `k` of lane `i`. -/
def scatterOut (b : Builder V L) (i : Fin n) (k off : Nat) (es : List (L × V)) : List (Packet n V L) :=
  (es.zipIdx off).map (fun e => ⟨e.1.2, b.along e.1.1, some (i, k, e.2)⟩)

/-- `carrier->remote.node = ...` (build.c:139, 203). -/
def setLink (g : Job n V L) (c : Option (EdgeId n)) (t : NodeId n) : Job n V L :=
  match c with
  | none => g
  | some e => { g with link := Function.update g.link e (some t) }

/-- Labels and vertices created by a callback. -/
def hand (g : Job n V L) (i : Fin n) (c : Incident L × V) (es : List (L × V)) : Job n V L :=
  { g with calls := Function.update g.calls i (g.calls i ++ [c])
           vNew := g.vNew + (es.map Prod.snd : List V)
           lNew := g.lNew + (es.map Prod.fst : List L) }

/-- Free edges with labels and termini (edges.c:155-197). -/
def freeEdges (g : Job n V L) (es : List (L × V)) : Job n V L :=
  { g with vFree := g.vFree + (es.map Prod.snd : List V)
           lFree := g.lFree + (es.map Prod.fst : List L) }

/-- `_cru_reach_extant_node` (build.c:93-141) for node `nd` at position `k` of lane `i`. -/
def reachExtant (b : Builder V L) (i : Fin n) (g : Job n V L) (p : Packet n V L) (k : Nat) (nd : Node V L) :
    Job n V L × List (Packet n V L) × Bool :=
  match p.carrier with
  | none => (raise g i (ier 577), [], false)
  | some e =>
    let g := setLink { g with vFree := p.payload ::ₘ g.vFree } (some e) (i, k)
    if nd.seen.any (b.incEq p.inc) then (g, [], false)
    else
      let out := b.connect p.inc nd.vertex
      let g := hand g i (p.inc, nd.vertex) out.2
      if out.1 ≠ 0 then
        let nd' := { nd with seen := nd.seen ++ [p.inc] }
        (freeEdges (raise { g with nodes := Function.update g.nodes i ((g.nodes i).set k nd') } i out.1) out.2,
          [], false)
      else
        let nd' := { nd with seen := nd.seen ++ [p.inc], edges := nd.edges ++ b.uniq out.2 }
        (freeEdges { g with nodes := Function.update g.nodes i ((g.nodes i).set k nd') } (b.dropped out.2),
          scatterOut b i k nd.edges.length (b.uniq out.2), false)

/-- `_cru_reached_new_node` (build.c:155-209) and the push on the collision bin (build.c:285), after `count++`.
On error `_cru_node_of` frees the vertex and the new edges with their termini (nodes.c:52-59). -/
def reachNew (b : Builder V L) (i : Fin n) (g : Job n V L) (p : Packet n V L) :
    Job n V L × List (Packet n V L) × Bool :=
  let out := b.connect p.inc p.payload
  let g := hand g i (p.inc, p.payload) out.2
  if out.1 ≠ 0 then
    (freeEdges (raise { g with vFree := p.payload ::ₘ g.vFree } i out.1) out.2, [], false)
  else
    let k := (g.nodes i).length
    let nd : Node V L := { vertex := p.payload, seen := [p.inc], edges := b.uniq out.2 }
    let g := setLink g p.carrier (i, k)
    (freeEdges { g with nodes := Function.update g.nodes i (g.nodes i ++ [nd]) } (b.dropped out.2),
      scatterOut b i k 0 (b.uniq out.2), false)

/-- The body of the packet loop of `_cru_building_task` (build.c:271-293).  When the limit is exceeded the
packet stays in the incoming list, and the next iteration polls and discards it (build.c:287-289). -/
def handle (b : Builder V L) (i : Fin n) (g : Job n V L) (p : Packet n V L) :
    Job n V L × List (Packet n V L) × Bool :=
  let g := poll g i
  if g.err i ≠ 0 ∨ g.stop i = true then (discard g i p, [], false)
  else
    match find b (g.nodes i) p.payload with
    | some k =>
      match (g.nodes i)[k]? with
      | some nd => reachExtant b i g p k nd
      | none => (g, [], false)
    | none =>
      if b.limit n = 0 then reachNew b i g p
      else
        let g' := { g with count := Function.update g.count i (g.count i + 1) }
        if g.count i < b.limit n then reachNew b i g' p
        else (discard (poll (raise g' i intOvf) i) i p, [], false)

/-- The task, for the worker protocol.  Interference from other threads: `cru_kill` sets the router's flag
(killers.c:162-175, 260-286). -/
def task (b : Builder V L) (hn : 0 < n) : Task n (Packet n V L) (Job n V L) Unit where
  dest p := lane hn (b.vHash p.payload)
  handle := handle b
  env _ g := { g with killed := 1, asked := true }

/-- The state when the workers start, with the initial vertex handed over. -/
def start (v₀ : V) : Job n V L where
  nodes _ := []
  link _ := none
  err _ := 0
  stop _ := false
  sample _ := 0
  count _ := 0
  killed := 0
  vNew := {v₀}
  vFree := 0
  lNew := 0
  lFree := 0
  calls _ := []
  asked := false

/-- The initial packet (launch.c:315-375, ports.c initial assignment). -/
def firstPacket (b : Builder V L) (v₀ : V) : Packet n V L := ⟨v₀, b.first, none⟩

/-- A node of the finished graph: its vertex, and for each edge its label and the node it points to, where
`none` is a dangling pointer. -/
structure GNode (n : Nat) (V L : Type) where
  vertex : V
  edges : List (L × Option (NodeId n))

/-- The graph returned to the user.  `base` is the initial node, if there is one. -/
structure Graph (n : Nat) (V L : Type) where
  base : NodeId n
  nodes : Fin n → List (GNode n V L)

/-- An injective numbering of node addresses, used as Judy keys (table.c:221). -/
def addr : Option (NodeId n) → Nat
  | none => 0
  | some (i, k) => k * n + i.val + 1

/-- Post-processing of node `k` of lane `i`: resolve the links, and for subconnectors deduplicate the edges by
label and remote node (build.c:296-298). -/
def finishNode (b : Builder V L) (g : Job n V L) (i : Fin n) (k : Nat) (nd : Node V L) : GNode n V L :=
  let es := nd.edges.zipIdx.map (fun e => (e.1.1, g.link (i, k, e.2)))
  { vertex := nd.vertex
    edges := if b.sub then (deduplicatedEdges (fun e => addr e.2) (fun e f => b.eEq e.1 f.1) es).1 else es }

/-- The first non-zero worker status in lane order (runners.c:100-119, crew.c:366-399, queue.c:155-185, 64-80). -/
def status (g : Job n V L) : Int :=
  ((List.finRange n).map g.err).foldl (fun s e => if s = 0 then e else s) 0

/-- What `_cru_built` returns after all workers have ended (launch.c:345-375, route.c:688-690, build.c:333-335):
an error code, or the graph.  The initial node is the front of the queue of the lane that received the initial
packet (crew.c:385-391). -/
def result (b : Builder V L) (hn : 0 < n) (v₀ : V) (g : Job n V L) : Except Int (Graph n V L) :=
  if status g ≠ 0 then .error (status g)
  else if g.killed ≠ 0 then .error intKil
  else .ok { base := (lane hn (b.vHash v₀), 0)
             nodes := fun i => (g.nodes i).zipIdx.map (fun x => finishNode b g i x.2 x.1) }

/-- The vertices of all nodes. -/
def keptV (g : Job n V L) : Multiset V := ∑ i, ((g.nodes i).map Node.vertex : Multiset V)

/-- The labels of all edges of all nodes. -/
def keptL (g : Job n V L) : Multiset L := ∑ i, ((g.nodes i).flatMap (fun nd => nd.edges.map Prod.fst) : Multiset L)

/-- All vertices passed to the vertex destructor by the end of the call: on failure the nodes are freed as well
(build.c:301, launch.c:345-375, build.c:334). -/
def finalVFree (b : Builder V L) (hn : 0 < n) (v₀ : V) (g : Job n V L) : Multiset V :=
  match result b hn v₀ g with
  | .ok _ => g.vFree
  | .error _ => g.vFree + keptV g

/-- All edge labels passed to the label destructor by the end of the call, when the callback is a connector: on
failure the edges of the nodes are freed with their labels (nodes.c:77-96). -/
def finalLFree (b : Builder V L) (hn : 0 < n) (v₀ : V) (g : Job n V L) : Multiset L :=
  match result b hn v₀ g with
  | .ok _ => g.lFree
  | .error _ => g.lFree + keptL g

end Cru.Build
