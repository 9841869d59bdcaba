import Verif.Model.Trav
import Verif.Model.Request

/-!
# Storage in the loop that makes a new graph, with errors (fab.c, cross.c, launch.c:314-375)

`Model/Spawn.lean` has the graph that results if nothing fails.  Here the callbacks, the destructors and allocations may fail at any
time, and labels and vertices are logged as made and freed.  The world is that of `Model/Fold.lean` and `Model/Request.lean`.  Where
edges lead to is left out.
-/

namespace Cru.SpawnAcc

open Net Fold
open Request (Env alloc edge)

variable {n : Nat} {K C V : Type}

/-- A new node: its vertex and the labels of its outgoing edges, which may be null. -/
structure Node (V : Type) where
  vertex : Option (Obj V)
  out : List (Option (Obj V))

/-- A packet: what a node is to be made from, and the carrier, given by the lane, the position in its queue and the position among the
edges of the node there. -/
structure Pkt (n : Nat) (K : Type) where
  key : K
  carrier : Option (Fin n × Nat × Nat)

/-- The queues of the workers, and the history. -/
structure Heap (n : Nat) (V : Type) where
  nodes : Fin n → List (Node V)
  world : World

/-- The variables of the workers; `seen` has the keys in the collision table. -/
abbrev Work (n : Nat) (K V : Type) := Trav.Job n K (Heap n V)

/-- What becomes of a packet with a new key: the node that's enqueued, if any, and the keys of the packets sent for its first edges. -/
structure Reply (K V : Type) where
  node : Option (Node V)
  sent : List K

/-- Dispose of labels one after the other (edges.c:126-146, edges.c:181-188). -/
def freeLabels (c : Env) (ls : List (Option (Obj V))) (w : World) : World := ls.foldl (fun w l => destroy c.fails c.eFree l w) w

/-- `_cru_free_nodes` (nodes.c:76-96) for one node. -/
def freeNode (c : Env) (a : Node V) (w : World) : World := destroy c.fails c.vFree a.vertex (freeLabels c a.out w)

/-- `_cru_free_nodes` (nodes.c:76-96). -/
def freeNodes (c : Env) (as : List (Node V)) (w : World) : World := as.foldl (fun w a => freeNode c a w) w

/-! ## Fabrication -/

/-- The loop making edges (fab.c:79-81): the edges so far, each with its label and the node it leads to in the given graph. -/
def newEdges (c : Env) (ef : Nat → C → Outcome V) : List (C × K) → List (Option (Obj V) × K) → World → List (Option (Obj V) × K) × World
  | [], ls, w => (ls, w)
  | e :: es, ls, w =>
    if w.err ≠ 0 then (ls, w)
    else
      let x := applied (fun t => ef t e.1) c.eFree w
      let f := edge c x.1 none [] x.2
      newEdges c ef es (f.1.map (fun y => (y.label, e.2)) ++ ls) f.2

/-- `_cru_scatter_out` (scatter.c:98-120) and what follows it (fab.c:86-88): the labels of the edges, which are null for those no packet
could be allocated for, and the keys of the packets sent.  If a packet can't be allocated on the heap, there's an error, but one may be
taken from the reserve (`new_packet`, pack.c:108-124); `res` says whether there's one at a given time. -/
def scatterOut (c : Env) (res : Nat → Bool) : List (Option (Obj V) × K) → World → (List (Option (Obj V)) × List K) × World
  | [], w => (([], []), w)
  | e :: es, w =>
    if c.mem w.clock = false ∧ res w.clock = false then
      (((e :: es).map fun _ => none, []), freeLabels c ((e :: es).map Prod.fst) (alloc c w))
    else
      let r := scatterOut c res es (alloc c w)
      ((e.1 :: r.1.1, e.2 :: r.1.2), r.2)

/-- `new_node` (fab.c:47-95), where `out` has the outgoing edges of a node of the given graph.  Allocations are those of the node
(nodes.c:52) and of the queue (queue.c:127).  A vertex returned along with an error isn't stored anywhere (fab.c:76-77). -/
def newNode (c : Env) (res : Nat → Bool) (vf : Nat → K → Outcome V) (ef : Nat → C → Outcome V) (out : K → List (C × K)) (k : K) (w : World) : Reply K V × World :=
  let v := applied (fun t => vf t k) c.vFree w
  if v.2.err ≠ 0 then (⟨none, []⟩, v.2)
  else if (alloc c v.2).err ≠ 0 then (⟨none, []⟩, destroy c.fails c.vFree v.1 (alloc c v.2))
  else
    let x := newEdges c ef (out k) [] (alloc c v.2)
    let w2 := if x.2.err ≠ 0 then x.2 else alloc c x.2
    if w2.err ≠ 0 then (⟨none, []⟩, freeNode c ⟨v.1, x.1.map Prod.fst⟩ w2)
    else
      let y := scatterOut c res x.1 w2
      (⟨some ⟨v.1, y.1.1⟩, y.1.2⟩, y.2)

/-! ## Crossing -/

/-- What a predicate returns: the condition and the error code it assigns. -/
structure Verdict where
  val : Bool
  ux : Int

/-- The loops of `productive_packets_of` (cross.c:192-215) over the list of pairs of edges, each with the pair of nodes they lead to: the
packets so far, each with the label of its carrier.  Allocations are those of the product, the edge and the packet. -/
def packets (c : Env) (pred : Nat → C → Verdict) (bop : Nat → C → Outcome V) :
    List (C × K) → List (Option (Obj V) × K) → World → List (Option (Obj V) × K) × World
  | [], ps, w => (ps, w)
  | e :: es, ps, w =>
    if w.err ≠ 0 then (ps, w)
    else
      let w1 := { w with clock := w.clock + 1, upset := w.upset || decide ((pred w.clock e.1).ux ≠ 0) }.raise (pred w.clock e.1).ux
      if w1.err ≠ 0 ∨ (pred w.clock e.1).val = false then packets c pred bop es ps w1
      else if (alloc c w1).err ≠ 0 then packets c pred bop es ps (alloc c w1)
      else
        let x := applied (fun t => bop t e.1) c.eFree (alloc c w1)
        if x.2.err ≠ 0 then packets c pred bop es ps (destroy c.fails c.eFree x.1 x.2)
        else
          let w3 := if (alloc c x.2).err ≠ 0 then alloc c x.2 else alloc c (alloc c x.2)
          if w3.err ≠ 0 then packets c pred bop es ps (destroy c.fails c.eFree x.1 w3)
          else packets c pred bop es ((x.1, e.2) :: ps) w3

/-- `reached_new_node` (cross.c:259-307), where `out` has the pairs of outgoing edges of a pair of nodes.  Carriers are listed in the
order opposite to that of the packets (pack.c:306-318).  A packet from the reserve makes no difference because of the error
(cross.c:203-209). -/
def reachedNewNode (c : Env) (vp : Nat → K → Outcome V) (pred : Nat → C → Verdict) (bop : Nat → C → Outcome V) (out : K → List (C × K))
    (k : K) (w : World) : Reply K V × World :=
  let p := packets c pred bop (out k) [] w
  let ls := p.1.map Prod.fst
  if p.2.err ≠ 0 then (⟨none, []⟩, freeLabels c ls p.2)
  else if (alloc c p.2).err ≠ 0 then (⟨none, []⟩, freeLabels c ls (alloc c p.2))
  else
    let v := applied (fun t => vp t k) c.vFree (alloc c p.2)
    let w2 := if v.2.err ≠ 0 then v.2 else alloc c v.2
    if w2.err ≠ 0 then (⟨none, []⟩, freeLabels c ls (freeNode c ⟨v.1, []⟩ w2))
    else (⟨some ⟨v.1, ls.reverse⟩, p.1.reverse.map Prod.snd⟩, w2)

/-! ## Workers -/

/-- The label of an edge of a node. -/
def labelAt (as : List (Node V)) (k q : Nat) : Option (Obj V) := (as[k]?).bind fun a => (a.out[q]?).join

/-- Make the label null. -/
def clearAt (as : List (Node V)) (k q : Nat) : List (Node V) := as.modify k fun a => { a with out := a.out.set q none }

/-- Dispose of the label of the carrier of a packet that's discarded (fab.c:162-167), if `clears` says so; cross.c:383-386 doesn't. -/
def discard (c : Env) (clears : Bool) (i : Fin n) (s : Work n K V) (p : Pkt n K) : Work n K V :=
  match p.carrier with
  | none => s
  | some (j, k, q) =>
    if clears then
      let w := destroy c.fails c.eFree (labelAt (s.mem.nodes j) k q) { s.mem.world with err := s.err i }
      { s with err := Function.update s.err i w.err
               mem := ⟨Function.update s.mem.nodes j (clearAt (s.mem.nodes j) k q), w⟩ }
    else s

/-- Store the outcome of handling a packet with a new key. -/
def store (i : Fin n) (s : Work n K V) (p : Pkt n K) (r : Reply K V × World) : Work n K V :=
  { s with seen := Function.update s.seen i (if r.1.node.isSome then s.seen i ++ [p.key] else s.seen i)
           err := Function.update s.err i r.2.err
           mem := ⟨Function.update s.mem.nodes i (s.mem.nodes i ++ r.1.node.toList), r.2⟩ }

/-- The packets sent for the edges of the next node in the queue. -/
def outgoing (i : Fin n) (s : Work n K V) (r : Reply K V) : List (Pkt n K) :=
  r.sent.zipIdx.map fun e => ⟨e.1, some (i, (s.mem.nodes i).length, e.2)⟩

/-- The body of the loop (fab.c:145-169, cross.c:363-387), where `make` says what becomes of a packet with a new key.  An entry in the
collision table might not be allocated (table.c:47-71).  The worker makes no more than `limit` nodes, unless that's zero
(cross.c:378-381).  After an error or a kill, cross.c:383-386 discards all packets received at once rather than one by one. -/
def handle [DecidableEq K] (c : Env) (make : K → World → Reply K V × World) (clears : Bool) (limit : Nat) (i : Fin n) (s : Work n K V)
    (p : Pkt n K) : Work n K V × List (Pkt n K) × Bool :=
  let s := Trav.poll s i
  if s.err i ≠ 0 ∨ s.stop i = true then (discard c clears i s p, [], false)
  else
    let w := alloc c { s.mem.world with err := 0 }
    let s := { s with err := Function.update s.err i w.err, mem := { s.mem with world := w } }
    if w.err ≠ 0 then (discard c clears i s p, [], false)
    else if p.key ∈ s.seen i then (s, [], false)
    else if limit ≠ 0 ∧ limit ≤ (s.seen i).length then ({ s with err := Function.update s.err i Build.intOvf }, [], false)
    else
      let r := make p.key w
      (store i s p r, outgoing i s r.1, false)

/-- The task, where `hash` gives the hash of the packet with a given key. -/
def task [DecidableEq K] (c : Env) (make : K → World → Reply K V × World) (clears : Bool) (limit : Nat) (hash : K → Nat) (hn : 0 < n) :
    Task n (Pkt n K) (Work n K V) Unit where
  dest p := Build.lane hn (hash p.key)
  handle := handle c make clears limit
  env _ s := { s with killed := 1 }

def start : Work n K V := Trav.start ⟨fun _ => [], ⟨0, 0, 0, 0, false⟩⟩

/-! ## The end -/

/-- The first non-zero worker status in lane order (runners.c:100-119, crew.c:366-399). -/
def status (s : Work n K V) : Int := ((List.finRange n).map s.err).foldl (fun r e => if r = 0 then e else r) 0

/-- Workers with an error free the nodes in their queues (fab.c:171-172, cross.c:389-390). -/
def released (c : Env) (s : Work n K V) (w : World) : World :=
  (List.finRange n).foldl (fun w i => if s.err i ≠ 0 then freeNodes c (s.mem.nodes i) w else w) w

/-- The nodes in the queues of the other workers (crew.c:387-398). -/
def union (s : Work n K V) : List (Node V) := (List.finRange n).flatMap fun i => if s.err i ≠ 0 then [] else s.mem.nodes i

/-- `_cru_graph_launched` (launch.c:357-373) with no given graph, and its callers (fab.c:199-202, cross.c:421-424): the nodes of the graph
returned, if any, and the error code.  The graph might not be allocated (graph.c:90).  A graph is freed by `_cru_free_now` in case of a
kill (route.c:688-690); see C107 for how it disposes of each node once. -/
def finish (c : Env) (s : Work n K V) : Option (List (Node V)) × World :=
  let w := released c s { s.mem.world with err := status s }
  if w.err ≠ 0 then (none, freeNodes c (union s) w)
  else if (alloc c w).err ≠ 0 then (none, freeNodes c (union s) (alloc c w))
  else if s.killed ≠ 0 then (none, freeNodes c (union s) ((alloc c w).raise Build.intKil))
  else (some (union s), alloc c w)

end Cru.SpawnAcc
