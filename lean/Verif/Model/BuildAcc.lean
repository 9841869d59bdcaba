import Verif.Model.DedupAcc
import Verif.Model.SpawnAcc

/-!
# Storage in building and spreading, with errors (build.c, spread.c:205-476, scatter.c:347-375, launch.c:314-375)

`Model/Build.lean` and `Model/Spread.lean` have the graphs that result if no allocation fails.  Here connectors, comparisons, destructors and
allocations may fail at any time, and vertices and labels are logged as made and freed.  The world is that of `Model/Fold.lean` and
`Model/Request.lean`.  The user's functions are given by what they do at a given time, whatever their arguments are, and time goes on with every
call.  Only hash functions depend on their arguments.  Where edges lead to is left out, except that it's given for the edges of the graph to
be spread, and given arbitrarily when edges are deduplicated at the end.
-/

namespace Cru.BuildAcc

open Net Fold
open Request (Env Edge Link alloc freeEdges connectCalls)
open SpawnAcc (Node Verdict freeNodes)
open SplitAcc (passed unsent)
open DedupAcc (dedup)

variable {n : Nat} {V : Type}

/-- `cru_builder` (data_types.h): whether there's a subconnector rather than a connector, the calls to `cru_connect` that it makes and the error it
assigns, the comparisons of vertices and of labels, what looking up a label in a table of labels gives (`_cru_already_recorded`, table.c:359-376), the
hashes of vertices and labels, and the worker's share of the vertex limit; whether a graph is being spread rather than built; and whether there are
packets in reserve. -/
structure Ops (V : Type) where
  sub : Bool
  connect : Nat → List (Link V) × Int
  vSame : Nat → Verdict
  eSame : Nat → Verdict
  recorded : Nat → Verdict
  vHash : Option (Obj V) → Nat
  eHash : Option (Obj V) → Nat
  limit : Nat
  spread : Bool
  res : Nat → Bool

/-- `UNEQUAL` (build.c:42, spread.c:44): pointers are compared first. -/
def unequal (f : Nat → Verdict) (a b : Option (Obj V)) (w : World) : Bool × World :=
  if a.map Obj.id = b.map Obj.id then (false, w)
  else if w.err ≠ 0 then (false, w)
  else (!(f w.clock).val && decide ((f w.clock).ux = 0), { w with clock := w.clock + 1, upset := w.upset || decide ((f w.clock).ux ≠ 0) }.raise (f w.clock).ux)

/-! ## Removing repeated edges -/

/-- The loop in `_cru_bundled` (brig.c:236-250) for one edge: the buckets with the edge in one of them, unless there's an error. -/
def place (c : Env) (o : Ops V) : List (List (Edge V)) → Edge V → World → Option (List (List (Edge V))) × World
  | [], e, w => (if (alloc c w).err ≠ 0 then none else some [[e]], alloc c w)
  | b :: bs, e, w =>
    let v := passed o.eSame w
    if v.1 then (some ((e :: b) :: bs), v.2)
    else if v.2.err ≠ 0 then (none, v.2)
    else
      let r := place c o bs e v.2
      (r.1.map (b :: ·), r.2)

/-- `_cru_bundled` (brig.c:208-252): the buckets, unless there's an error. -/
def bundle (c : Env) (o : Ops V) : List (Edge V) → List (List (Edge V)) → World → Option (List (List (Edge V))) × World
  | [], bs, w => (some bs, w)
  | e :: es, bs, w =>
    if w.err ≠ 0 then (none, w)
    else
      let r := place c o bs e w
      match r.1 with
      | none => (none, r.2)
      | some bs => bundle c o es bs r.2

/-- The second loop in `_cru_rallied` (table.c:275-283) over the bins of the array. -/
def rallyBins (c : Env) (o : Ops V) : List (List (Edge V)) → List (List (Edge V)) → World → Option (List (List (Edge V))) × World
  | [], acc, w => (some acc, w)
  | k :: ks, acc, w =>
    let r := bundle c o k [] w
    match r.1 with
    | none => (none, r.2)
    | some b => rallyBins c o ks (b ++ acc) r.2

/-- Insert so many items into an array (table.c:266-274) until there's an error. -/
def inserts (c : Env) : Nat → World → World
  | 0, w => w
  | k + 1, w => if w.err ≠ 0 then w else inserts c k (alloc c w)

/-- `_cru_rallied` (table.c:245-289) with Judy arrays: the buckets, unless there's an error.  In that case all edges are put back in the list by `unwind`
(table.c:161-185), and their order is left out. -/
def rally (c : Env) (o : Ops V) (es : List (Edge V)) (w : World) : Option (List (List (Edge V))) × World :=
  let w := inserts c es.length w
  if w.err ≠ 0 then (none, w) else rallyBins c o (marshalled (fun e => o.eHash e.label) es).reverse [] w

/-- The innermost loop of `unique` (build.c:74): whether it stops at an edge. -/
def clash (o : Ops V) (v : Option (Obj V)) : List (Edge V) → World → Bool × World
  | [], w => (false, w)
  | e :: es, w =>
    let u := unequal o.vSame v e.vertex w
    if u.1 then clash o v es u.2 else (true, u.2)

/-- The loop over a bucket (build.c:72-79), with the edges so far. -/
def uniqueBucket (c : Env) (o : Ops V) : List (Edge V) → List (Edge V) → World → List (Edge V) × World
  | [], r, w => (r, w)
  | p :: l, r, w =>
    let x := clash o p.vertex l w
    if x.1 = true ∨ x.2.err ≠ 0 then uniqueBucket c o l r (freeEdges c [p] x.2) else uniqueBucket c o l (p :: r) x.2

/-- The loop over the buckets (build.c:71-79). -/
def uniqueBuckets (c : Env) (o : Ops V) : List (List (Edge V)) → List (Edge V) → World → List (Edge V) × World
  | [], r, w => (r, w)
  | b :: bs, r, w => uniqueBuckets c o bs (uniqueBucket c o b r w).1 (uniqueBucket c o b r w).2

/-- `unique` (build.c:49-81). -/
def unique (c : Env) (o : Ops V) (es : List (Edge V)) (w : World) : List (Edge V) × World :=
  let t := rally c o es w
  match t.1 with
  | none => ([], freeEdges c es t.2)
  | some bs => uniqueBuckets c o bs [] t.2

/-! ## Packets -/

/-- A packet with a vertex, and whether it's the initial one; or a packet for a node of the graph to be spread, given by its hash and its position in
the list of the worker it's sent to. -/
inductive Pkt (V : Type)
  | fresh (v : Option (Obj V)) (initial : Bool)
  | known (hash pos : Nat) (initial : Bool)

/-- `_cru_scatter_out_or_consume` (scatter.c:347-375): the labels of the edges that are left, and the packets sent.  A packet from the reserve is sent
although there's an error (`new_packet`, pack.c:108-124). -/
def scatterOut (c : Env) (o : Ops V) : List (Edge V) → World → (List (Option (Obj V)) × List (Pkt V)) × World
  | [], w => (([], []), w)
  | e :: es, w =>
    if w.err ≠ 0 then (([], []), freeEdges c (e :: es) w)
    else if unsent c o.res w then (([], []), freeEdges c (e :: es) (alloc c w))
    else
      let r := scatterOut c o es (alloc c w)
      ((e.label :: r.1.1, .fresh e.vertex false :: r.1.2), r.2)

/-- `_cru_scattered_by_hashes` (scatter.c:214-245) in the loop of `start` (spread.c:232-234), where `ends` has the nodes at the ends of all edges. -/
def scatterKnown (c : Env) (o : Ops V) : List (Nat × Nat) → World → List (Pkt V) × World
  | [], w => ([], w)
  | e :: es, w =>
    if unsent c o.res w then ([], alloc c w)
    else
      let r := scatterKnown c o es (alloc c w)
      (.known e.1 e.2 false :: r.1, r.2)

/-! ## Calling the connector -/

/-- `APPLY(b->connector, ...)` or `APPLY(b->subconnector, ...)` (build.c:133, 184, 186, 193, spread.c:323, 330): the edges in thread-specific storage. -/
def call (c : Env) (o : Ops V) (w : World) : List (Edge V) × World :=
  let k := connectCalls c (o.connect w.clock).1 [] { w with clock := w.clock + 1 }
  (k.1, { k.2 with err := w.err, upset := w.upset || decide ((o.connect w.clock).2 ≠ 0) }.raise (o.connect w.clock).2)

/-- `_cru_record_edge` (table.c:300-324) with `_cru_multirecord` (multi.c): an entry in an array, a comparison, and a record of the label.  More than one
comparison is left out. -/
def record (c : Env) (o : Ops V) (w : World) : World :=
  if (alloc c w).err ≠ 0 then alloc c w
  else if (passed o.eSame (alloc c w)).2.err ≠ 0 then (passed o.eSame (alloc c w)).2
  else alloc c (passed o.eSame (alloc c w)).2

/-- `_cru_reached_new_node` (build.c:155-209) for the vertex `v`, where `q` says whether there's a queue: the node that's enqueued, if any, and the
packets sent. -/
def reachNew (c : Env) (o : Ops V) (v : Option (Obj V)) (initial q : Bool) (w : World) : (Option (Node V) × List (Pkt V)) × World :=
  let k := call c o (if o.sub = true ∧ initial = false then record c o w else w)
  if k.2.err ≠ 0 then ((none, []), freeEdges c k.1 (destroy c.fails c.vFree v k.2))
  else if (alloc c k.2).err ≠ 0 then ((none, []), freeEdges c k.1 (destroy c.fails c.vFree v (alloc c k.2)))
  else
    let w2 := if q then alloc c k.2 else alloc c (alloc c k.2)
    if w2.err ≠ 0 then ((none, []), destroy c.fails c.vFree v (freeEdges c k.1 w2))
    else
      let u := unique c o k.1 w2
      let s := scatterOut c o u.1 u.2
      ((some ⟨v, s.1.1⟩, s.1.2), s.2)

/-- `_cru_reach_extant_node` (build.c:93-141): the labels of edges added to the node, and the packets sent.  An initial packet never gets here. -/
def reachExtant (c : Env) (o : Ops V) (v : Option (Obj V)) (w : World) : (List (Option (Obj V)) × List (Pkt V)) × World :=
  let w1 := destroy c.fails c.vFree v w
  if o.sub = false then (([], []), w1)
  else
    let r := passed o.recorded w1
    if r.1 then (([], []), r.2)
    else
      let k := call c o (record c o r.2)
      let u := unique c o k.1 k.2
      scatterOut c o u.1 u.2

/-- The address of a vertex. -/
def addr (v : Option (Obj V)) : Nat := match v with
  | none => 0
  | some x => x.id + 1

/-- `break_out` (spread.c:295-338) for a node without outgoing edges, if there's no error: the labels of its new edges, the packets sent, and the vertices
to which nothing refers any more.  Edges made by a subconnector are deduplicated by `_cru_deduplicated_edges` (spread.c:333-334), which disposes of
their labels but not of their termini in case of an error.  A null pointer in place of a terminus is an error there (table.c:217), which is raised
first here. -/
def breakOut (c : Env) (o : Ops V) (initial : Bool) (w : World) : ((List (Option (Obj V)) × List (Pkt V)) × List (Option (Obj V))) × World :=
  if o.sub = false then
    let k := call c o w
    let s := scatterOut c o k.1 k.2
    ((s.1, []), s.2)
  else if initial = true then ((([], []), []), w.raise (-1607))
  else
    let k := call c o (record c o w)
    let w1 := if k.1.any (fun e => e.vertex.isNone) then k.2.raise (-1714) else k.2
    let d := dedup c o.eSame addr (k.1.map fun e => ⟨e.label, e.vertex⟩) w1
    let s := scatterOut c o (d.1.map fun e => ⟨e.label, e.dst⟩) d.2
    ((s.1, if d.2.err ≠ 0 then k.1.map Edge.vertex else []), s.2)

/-! ## Workers -/

/-- The list of nodes in the port (`deletions`), the queue, whether there's a queue and whether the first packet has been received, the collision table (a
list of positions in the queue for each hash), the variables `count`, `*err`, `killed` and `sample` of each worker, the kill flag, vertices to
which nothing refers any more, and the history. -/
structure Job (n : Nat) (V : Type) where
  given : Fin n → List (Node V)
  nodes : Fin n → List (Node V)
  queued : Fin n → Bool
  started : Fin n → Bool
  tab : Fin n → Nat → List Nat
  count : Fin n → Nat
  err : Fin n → Int
  stop : Fin n → Bool
  sample : Fin n → Nat
  killed : Nat
  lost : List (Option (Obj V))
  world : World

/-- The world with the error of a worker. -/
def own (i : Fin n) (s : Job n V) : World := { s.world with err := s.err i }

/-- Store the outcome. -/
def store (i : Fin n) (s : Job n V) (w : World) : Job n V := { s with err := Function.update s.err i w.err, world := w }

/-- `killed = (killed ? 1 : KILLED)` (build.c:274, spread.c:400, killers.h:33-36). -/
def poll (s : Job n V) (i : Fin n) : Job n V :=
  if s.stop i then s
  else { s with sample := Function.update s.sample i (s.sample i + 1)
                stop := Function.update s.stop i ((s.sample i + 1) % 32 == 0 && s.killed != 0) }

/-- The kill in build.c:290-291 and spread.c:420-421. -/
def halt (i : Fin n) (s : Job n V) : Job n V :=
  { s with stop := Function.update s.stop i true, killed := if s.stop i then s.killed else 2 }

/-- Dispose of a packet with a vertex (build.c:289-292, spread.c:419-422).  In C, all incoming packets are freed at once. -/
def discard (c : Env) (i : Fin n) (v : Option (Obj V)) (s : Job n V) : Job n V := halt i (store i s (destroy c.fails c.vFree v (own i s)))

/-- `start` (spread.c:213-235), on the first packet of a worker (spread.c:401-402).  `_cru_queue_of` may fail for lack of memory. -/
def begin (c : Env) (o : Ops V) (ends : Fin n → List (Nat × Nat)) (i : Fin n) (s : Job n V) : Job n V × List (Pkt V) :=
  if o.spread = false ∨ s.started i = true then (s, [])
  else
    let s := { s with started := Function.update s.started i true }
    let w := alloc c (own i s)
    if w.err ≠ 0 then (store i s w, [])
    else
      let r := scatterKnown c o (ends i) w
      (store i { s with given := Function.update s.given i [], nodes := Function.update s.nodes i (s.given i)
                        queued := Function.update s.queued i true } r.2, r.1)

/-- The walk along a bin (build.c:277-279, spread.c:407-409): where it stops, if it does.  It also stops if there's an error. -/
def walk (o : Ops V) (v : Option (Obj V)) (as : List (Node V)) : List Nat → World → Option Nat × World
  | [], w => (none, w)
  | k :: ks, w =>
    let u := unequal o.vSame v ((as[k]?).bind Node.vertex) w
    if u.1 then walk o v as ks u.2 else (some k, u.2)

/-- What's done with a packet with a vertex (build.c:275-292, spread.c:405-422).  When the limit is exceeded, the packet stays in the list, and is
discarded in the next iteration. -/
def admit (c : Env) (o : Ops V) (i : Fin n) (s : Job n V) (v : Option (Obj V)) (initial : Bool) : Job n V × List (Pkt V) :=
  if s.err i ≠ 0 ∨ s.stop i = true then (discard c i v s, [])
  else if (alloc c (own i s)).err ≠ 0 then (discard c i v (store i s (alloc c (own i s))), [])
  else
    let r := walk o v (s.nodes i) (s.tab i (o.vHash v)) (alloc c (own i s))
    if r.2.err ≠ 0 then (discard c i v (store i s r.2), [])
    else match r.1 with
      | some k =>
        let x := reachExtant c o v r.2
        (store i { s with nodes := Function.update s.nodes i ((s.nodes i).modify k fun a => { a with out := x.1.1 ++ a.out }) } x.2, x.1.2)
      | none =>
        if o.limit ≠ 0 ∧ o.limit ≤ s.count i then (discard c i v (poll (store i s (r.2.raise Build.intOvf)) i), [])
        else
          let x := reachNew c o v initial (s.queued i) r.2
          (store i { s with
              count := Function.update s.count i (s.count i + 1)
              queued := Function.update s.queued i (s.queued i || x.1.1.isSome)
              tab := Function.update s.tab i (Function.update (s.tab i) (o.vHash v)
                (s.tab i (o.vHash v) ++ if x.1.1.isSome then [(s.nodes i).length] else []))
              nodes := Function.update s.nodes i (s.nodes i ++ x.1.1.toList) } x.2, x.1.2)

/-- What's done with a packet for node `k` of the worker's list (spread.c:403-405, 419-422, spread.c:295-338). -/
def visit (c : Env) (o : Ops V) (i : Fin n) (s : Job n V) (k : Nat) (initial : Bool) : Job n V × List (Pkt V) :=
  if s.err i ≠ 0 then (halt i s, [])
  else match (s.nodes i)[k]? with
    | none => (s, [])
    | some a =>
      if a.out ≠ [] then (s, [])
      else
        let x := breakOut c o initial (own i s)
        let s' := store i { s with nodes := Function.update s.nodes i ((s.nodes i).set k { a with out := x.1.1.1 }), lost := s.lost ++ x.1.2 } x.2
        (if s'.err i ≠ 0 then halt i s' else s', x.1.1.2)

/-- The body of the loop (build.c:271-293, spread.c:397-423). -/
def handle (c : Env) (o : Ops V) (ends : Fin n → List (Nat × Nat)) (i : Fin n) (s : Job n V) (p : Pkt V) : Job n V × List (Pkt V) × Bool :=
  let b := begin c o ends i (poll s i)
  let r := match p with
    | .fresh v initial => admit c o i b.1 v initial
    | .known _ k initial => visit c o i b.1 k initial
  (r.1, b.2 ++ r.2, false)

/-- The hash of a packet. -/
def hashOf (o : Ops V) : Pkt V → Nat
  | .fresh v _ => o.vHash v
  | .known h _ _ => h

/-- `_cru_building_task` (build.c:219-303) or `spreading_task` (spread.c:347-437). -/
def task (c : Env) (o : Ops V) (ends : Fin n → List (Nat × Nat)) (hn : 0 < n) : Task n (Pkt V) (Job n V) Unit where
  dest p := Build.lane hn (hashOf o p)
  handle := handle c o ends
  env _ s := { s with killed := 1 }

/-- The state when the workers start, with the lists and tables in the ports. -/
def start (given : Fin n → List (Node V)) (tab : Fin n → Nat → List Nat) (w : World) : Job n V :=
  ⟨given, fun _ => [], fun _ => false, fun _ => false, tab, fun _ => 0, fun _ => 0, fun _ => false, fun _ => 0, 0, [], w⟩

/-- The start of a build. -/
def blank (w : World) : Job n V := start (fun _ => []) (fun _ _ => []) w

/-! ## The end -/

/-- The loop over the queue at the end (build.c:296-298, spread.c:427-429), where `remote` gives the addresses of the nodes at the ends of edges. -/
def tidy (c : Env) (o : Ops V) (remote : Nat → Nat → Nat) : List (Node V) → Nat → World → List (Node V) × World
  | [], _, w => ([], w)
  | a :: as, k, w =>
    let d := dedup c o.eSame id (a.out.zipIdx.map fun e => ⟨e.1, remote k e.2⟩) w
    let r := tidy c o remote as (k + 1) d.2
    ({ a with out := d.1.map DedupAcc.Edge.label } :: r.1, r.2)

/-- The end of a worker (build.c:296-302, spread.c:427-432).  No packets are left for `_cru_abort_packets`. -/
def leave (c : Env) (o : Ops V) (remote : Fin n → Nat → Nat → Nat) (s : Job n V) (i : Fin n) : Job n V :=
  let t := if s.err i = 0 ∧ o.sub = true then tidy c o (remote i) (s.nodes i) 0 (own i s) else (s.nodes i, own i s)
  if t.2.err ≠ 0 then store i { s with nodes := Function.update s.nodes i [] } (freeNodes c t.1 t.2)
  else store i { s with nodes := Function.update s.nodes i t.1 } t.2

/-- All workers at their ends. -/
def leaveAll (c : Env) (o : Ops V) (remote : Fin n → Nat → Nat → Nat) (s : Job n V) : Job n V := (List.finRange n).foldl (leave c o remote) s

/-- The nodes in the queues of all workers (crew.c:387-398). -/
def union (s : Job n V) : List (Node V) := (List.finRange n).flatMap s.nodes

/-- The nodes in the lists of all ports. -/
def unspent (s : Job n V) : List (Node V) := (List.finRange n).flatMap s.given

/-- The first error: one that was there before, that of a worker in lane order (runners.c:100-119, crew.c:366-399), or another one. -/
def status (s : Job n V) (pre post : Int) : Int := (pre :: (List.finRange n).map s.err ++ [post]).foldl (fun r e => if r = 0 then e else r) 0

/-- `_cru_graph_launched` (launch.c:357-375) and `_cru_built` (build.c:330-335) when the workers have ended: the nodes of the graph returned, if any, and
the error code.  The graph might not be allocated (graph.c:90).  A kill is reported by `_cru_free_router` (route.c:688-690).  If no node was made for the
initial vertex, there's an error or a kill. -/
def finish (c : Env) (s : Job n V) (pre post : Int) : Option (List (Node V)) × World :=
  let w := { s.world with err := status s pre post }
  if w.err ≠ 0 then (none, freeNodes c (union s) w)
  else if (alloc c w).err ≠ 0 then (none, freeNodes c (union s) (alloc c w))
  else if s.killed ≠ 0 then (none, freeNodes c (union s) ((alloc c w).raise Build.intKil))
  else (some (union s), alloc c w)

/-- What's left of a build whose workers weren't started (launch.c:340-348, build.c:330-335), with an error `e`. -/
def unbuilt (c : Env) (v : Option (Obj V)) (e : Int) (w : World) : World := destroy c.fails c.vFree v { w with err := e }

/-- `_cru_graph_launched` (launch.c:357-375) and `_cru_spread` (spread.c:467-475) when the workers have ended, where `forgotten` says whether a kill is
forgotten by `_cru_sweep` (route.c:768-775), which disposes of the nodes in the lists of the ports. -/
def finishSpread (c : Env) (s : Job n V) (forgotten : Bool) (pre post : Int) : Option (List (Node V)) × World :=
  let w := { s.world with err := status s pre post }
  if w.err ≠ 0 then (none, freeNodes c (unspent s) (freeNodes c (union s) w))
  else
    let w := (freeNodes c (unspent s) w).raise (if s.killed ≠ 0 ∧ forgotten = false then Build.intKil else 0)
    if w.err ≠ 0 then (none, freeNodes c (union s) w) else (some (union s), w)

end Cru.BuildAcc
