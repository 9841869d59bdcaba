import Verif.Model.Build
import Verif.Model.Graph

/-!
# Spreading (spread.c, entry.c:791-822)

`cru_spread` runs two tasks on a graph.  The first one records the nodes of the graph in the tables and lists of the workers.  The second one
calls the connector, starting from the nodes without outgoing edges.  Allocation failures and failing equality predicates are left out, and
so is the storage given to the user's functions.
-/

namespace Cru.Spread

open Net Build

variable {n : Nat} {N V L : Type}

/-- A node of the given graph, or a node made for a new vertex (build.c:195-202).  No two nodes are made for the same vertex, because the second
one would be found in the table. -/
inductive Nd (N V : Type)
  | old (m : N)
  | new (v : V)
  deriving DecidableEq

/-- `n->vertex`. -/
def vertex (g : Gr N V L) : Nd N V → V
  | .old m => g.vertex m
  | .new v => v

/-- Whether the walk along a bin of the collision table (spread.c:93-103, 405-412, table.c:47-71) stops at the vertex `w` when looking for `v`. -/
def matching (b : Builder V L) (v w : V) : Bool := (!b.judy || b.vHash w == b.vHash v) && b.vEq v w

/-! ## The prespreading task -/

/-- The local variables of the workers (spread.c:121-151), the tables and lists in their ports, the kill flag, and the outgoing edges of all nodes.
`twice` says that a node was pushed in a list while it was in the list already (spread.c:61, nodes.c:212-226), which makes the list
cyclic or cuts off part of it. -/
structure Pre (n : Nat) (N L : Type) where
  tab : Fin n → List N
  del : Fin n → List N
  seen : Fin n → List N
  stop : Fin n → Bool
  sample : Fin n → Nat
  killed : Nat
  out : N → List (L × N)
  twice : Bool

/-- spread.c:167-168, killers.h:33-36. -/
def prePoll (s : Pre n N L) (i : Fin n) : Pre n N L :=
  if s.stop i then s
  else
    let k := (s.sample i + 1) % 32 == 0 && s.killed != 0
    { s with sample := Function.update s.sample i (s.sample i + 1)
             stop := Function.update s.stop i k
             killed := if k then 2 else s.killed }

/-- The loop body (spread.c:164-196).  A worker that hasn't been killed stores the node unless there is one with an equal vertex in the
table (spread.c:72-113), and sends packets for the nodes at the ends of its edges.  A worker that has been killed sends them too, and deletes the
edges (`_cru_unscatterable_by_hashes`, scatter.c:262-293; spread.c:180-192). -/
def preHandle [DecidableEq N] (b : Builder V L) (g : Gr N V L) (i : Fin n) (s : Pre n N L) (m : N) : Pre n N L × List N × Bool :=
  let s := prePoll s i
  if m ∈ s.seen i then (s, [], false)
  else if s.stop i = false then
    if (s.tab i).any fun c => matching b (g.vertex m) (g.vertex c) then (s, [], false)
    else
      ({ s with tab := Function.update s.tab i (s.tab i ++ [m]), del := Function.update s.del i (m :: s.del i) },
        (s.out m).map Prod.snd, false)
  else
    ({ s with del := Function.update s.del i (m :: s.del i), seen := Function.update s.seen i (m :: s.seen i)
              out := Function.update s.out m [], twice := s.twice || decide (m ∈ s.del i) },
      (s.out m).map Prod.snd, false)

/-- `_cru_prespreading_task` (spread.c:120-203). -/
def pre [DecidableEq N] (b : Builder V L) (g : Gr N V L) (hn : 0 < n) : Task n N (Pre n N L) Unit where
  dest m := lane hn (b.vHash (g.vertex m))
  handle := preHandle b g
  env _ s := { s with killed := 1 }

/-- The state when the workers start. -/
def preStart (g : Gr N V L) : Pre n N L where
  tab _ := []
  del _ := []
  seen _ := []
  stop _ := false
  sample _ := 0
  killed := 0
  out := g.out
  twice := false

/-! ## The spreading task -/

/-- An entry of a collision table: the node, and the incident edge labels recorded in `seen_carriers`. -/
structure Entry (N V L : Type) where
  node : Nd N V
  seen : List (Incident L)

/-- A packet for a known node, with the label of the edge it came along unless it's the initial one (launch.c:340-344, spread.c:213-235),
or a packet for a vertex that was passed to `cru_connect`, with the label and the address of the edge (scatter.c:348-375).  The latter is given by
its origin and its position among the edges made in the course of this call. -/
inductive Pkt (N V L : Type)
  | known (m : N) (l : Option L)
  | fresh (v : V) (l : L) (t : Nd N V) (j : Nat)
  deriving DecidableEq

/-- Local variables of the workers (spread.c:348-380), the tables and lists in their ports, the kill flag, the edges `made t` of each node with
the termini passed to `cru_connect`, and the remote nodes `link` of these edges.  `calls` is a record of the calls to the connector made by each
worker, and `asked` says whether `cru_kill` has taken effect. -/
structure Job (n : Nat) (N V L : Type) where
  tab : Fin n → List (Entry N V L)
  queue : Fin n → List (Nd N V)
  made : Nd N V → List (L × V)
  link : Nd N V → Nat → Option (Nd N V)
  calls : Fin n → List (Nd N V × Incident L)
  started : Fin n → Bool
  err : Fin n → Int
  stop : Fin n → Bool
  sample : Fin n → Nat
  count : Fin n → Nat
  killed : Nat
  asked : Bool

/-- The addresses of vertices and nodes, which are the keys of the arrays used by `_cru_deduplicated_edges` (table.c:221). -/
structure Addr (N V : Type) where
  ofVertex : V → Nat
  ofNode : Option (Nd N V) → Nat

/-- `RAISE` in a worker. -/
def raise (s : Job n N V L) (i : Fin n) (e : Int) : Job n N V L :=
  { s with err := Function.update s.err i (if s.err i = 0 then e else s.err i) }

/-- spread.c:400, killers.h:33-36. -/
def poll (s : Job n N V L) (i : Fin n) : Job n N V L :=
  if s.stop i then s
  else { s with sample := Function.update s.sample i (s.sample i + 1)
                stop := Function.update s.stop i ((s.sample i + 1) % 32 == 0 && s.killed != 0) }

/-- spread.c:419-422.  In C, all incoming packets are freed at once, and with them packets for known nodes, to which nothing would be done anymore in
case of an error. -/
def discard (s : Job n N V L) (i : Fin n) : Job n N V L :=
  { s with stop := Function.update s.stop i true, killed := if s.stop i then s.killed else 2 }

/-- The packets sent for the edges of the nodes listed (spread.c:232-234). -/
def notices (x : Pre n N L) (i : Fin n) : List (Pkt N V L) :=
  (x.del i).flatMap fun m => (x.out m).map fun e => .known e.2 (some e.1)

/-- `start` (spread.c:213-235), on the first packet of a worker (spread.c:401-402). -/
def begin (x : Pre n N L) (s : Job n N V L) (i : Fin n) : Job n N V L × List (Pkt N V L) :=
  if s.started i then (s, [])
  else ({ s with started := Function.update s.started i true, queue := Function.update s.queue i ((x.del i).map .old) }, notices x i)

/-- The packets sent by `_cru_scatter_out_or_consume` (scatter.c:348-375) for the edges `es` of the node `t`, of which the first is number `off`. -/
def scatterOut (t : Nd N V) (off : Nat) (es : List (L × V)) : List (Pkt N V L) :=
  (es.zipIdx off).map fun e => .fresh e.1.2 e.1.1 t e.2

/-- A call to the connector or subconnector. -/
def hand (s : Job n N V L) (i : Fin n) (t : Nd N V) (inc : Incident L) : Job n N V L :=
  { s with calls := Function.update s.calls i (s.calls i ++ [(t, inc)]) }

/-- `break_out` (spread.c:295-338) for the known node `m`, and what's done when it returns zero (spread.c:405, 419-422).  Edges are freed when the
connector raises an error (scatter.c:363-374). -/
def breakOut [DecidableEq N] [DecidableEq V] (b : Builder V L) (g : Gr N V L) (a : Addr N V) (x : Pre n N L) (i : Fin n) (s : Job n N V L) (m : N)
    (l : Option L) : Job n N V L × List (Pkt N V L) :=
  if x.out m ≠ [] ∨ s.made (.old m) ≠ [] ∨ s.err i ≠ 0 then (if s.err i ≠ 0 then discard s i else s, [])
  else
    match b.sub, l with
    | true, none => (discard (raise s i (ier 1607)) i, [])
    | _, _ =>
      let inc := match b.sub, l with
        | true, some l => .via l
        | _, _ => .whole
      let y := b.connect inc (g.vertex m)
      let s := hand s i (.old m) inc
      if y.1 ≠ 0 then (discard (raise s i y.1) i, [])
      else
        let es := if b.sub then (deduplicatedEdges (fun e => a.ofVertex e.2) (fun e f => b.eEq e.1 f.1) y.2).1 else y.2
        ({ s with made := Function.update s.made (.old m) es }, scatterOut (.old m) 0 es)

/-- `carrier->remote.node = ...` (build.c:139, 203). -/
def setLink [DecidableEq N] [DecidableEq V] (s : Job n N V L) (t : Nd N V) (j : Nat) (u : Nd N V) : Job n N V L :=
  { s with link := Function.update s.link t (Function.update (s.link t) j (some u)) }

/-- `_cru_reach_extant_node` (build.c:93-141) for entry `k` of the table.  A subconnector is called for a label that isn't recorded.  Its edges are put
in front of the others in C. -/
def reachExtant [DecidableEq N] [DecidableEq V] (b : Builder V L) (g : Gr N V L) (i : Fin n) (s : Job n N V L) (l : L) (t : Nd N V) (j k : Nat)
    (e : Entry N V L) : Job n N V L × List (Pkt N V L) :=
  let s := setLink s t j e.node
  if b.sub = false ∨ e.seen.any (b.incEq (.via l)) = true then (s, [])
  else
    let y := b.connect (.via l) (vertex g e.node)
    let s := hand s i e.node (.via l)
    let s := { s with tab := Function.update s.tab i ((s.tab i).set k { e with seen := e.seen ++ [.via l] }) }
    if y.1 ≠ 0 then (raise s i y.1, [])
    else
      ({ s with made := Function.update s.made e.node (s.made e.node ++ b.uniq y.2) },
        scatterOut e.node (s.made e.node).length (b.uniq y.2))

/-- `_cru_reached_new_node` (build.c:155-209), and the push in the table (spread.c:415). -/
def reachNew [DecidableEq N] [DecidableEq V] (b : Builder V L) (i : Fin n) (s : Job n N V L) (v : V) (l : L) (t : Nd N V) (j : Nat) :
    Job n N V L × List (Pkt N V L) :=
  let y := b.connect (b.along l) v
  let s := hand s i (.new v) (b.along l)
  if y.1 ≠ 0 then (raise s i y.1, [])
  else
    let s := setLink s t j (.new v)
    ({ s with tab := Function.update s.tab i (s.tab i ++ [⟨.new v, [b.along l]⟩])
              queue := Function.update s.queue i (s.queue i ++ [.new v])
              made := Function.update s.made (.new v) (b.uniq y.2) },
      scatterOut (.new v) 0 (b.uniq y.2))

/-- A packet with a vertex (spread.c:405-418).  When the limit is exceeded, the packet stays in the list, and is discarded in the next iteration. -/
def admit [DecidableEq N] [DecidableEq V] (b : Builder V L) (g : Gr N V L) (i : Fin n) (s : Job n N V L) (v : V) (l : L) (t : Nd N V) (j : Nat) :
    Job n N V L × List (Pkt N V L) :=
  if s.err i ≠ 0 ∨ s.stop i = true then (discard s i, [])
  else
    match (s.tab i).findIdx? fun e => matching b v (vertex g e.node) with
    | some k =>
      match (s.tab i)[k]? with
      | some e => reachExtant b g i s l t j k e
      | none => (s, [])
    | none =>
      if b.limit n = 0 then reachNew b i s v l t j
      else
        let s' := { s with count := Function.update s.count i (s.count i + 1) }
        if s.count i < b.limit n then reachNew b i s' v l t j
        else (discard (poll (raise s' i intOvf) i) i, [])

/-- The loop body (spread.c:397-423). -/
def handle [DecidableEq N] [DecidableEq V] (b : Builder V L) (g : Gr N V L) (a : Addr N V) (x : Pre n N L) (i : Fin n) (s : Job n N V L)
    (p : Pkt N V L) : Job n N V L × List (Pkt N V L) × Bool :=
  let y := begin x (poll s i) i
  let z := match p with
    | .known m l => breakOut b g a x i y.1 m l
    | .fresh v l t j => admit b g i y.1 v l t j
  (z.1, y.2 ++ z.2, false)

/-- Packets are sent by the hash of the vertex. -/
def hashOf (b : Builder V L) (g : Gr N V L) : Pkt N V L → Nat
  | .known m _ => b.vHash (g.vertex m)
  | .fresh v _ _ _ => b.vHash v

/-- `spreading_task` (spread.c:347-437), after the prespreading task has ended in the state `x`. -/
def task [DecidableEq N] [DecidableEq V] (b : Builder V L) (g : Gr N V L) (a : Addr N V) (x : Pre n N L) (hn : 0 < n) :
    Task n (Pkt N V L) (Job n N V L) Unit where
  dest p := lane hn (hashOf b g p)
  handle := handle b g a x
  env _ s := { s with killed := 1, asked := true }

/-- The state when the workers start.  The kill flag is cleared by `_cru_reset` (route.c:512). -/
def start (x : Pre n N L) : Job n N V L where
  tab i := (x.tab i).map fun m => ⟨.old m, []⟩
  queue _ := []
  made _ := []
  link _ _ := none
  calls _ := []
  started _ := false
  err _ := 0
  stop _ := false
  sample _ := 0
  count _ := 0
  killed := 0
  asked := false

/-! ## The result -/

/-- The first non-zero worker status in lane order, as in `Build.status`. -/
def status (s : Job n N V L) : Int := ((List.finRange n).map s.err).foldl (fun s e => if s = 0 then e else s) 0

/-- The outgoing edges of a node at the end, `none` being an edge whose remote node was never set.  With a subconnector, they're deduplicated
by node (spread.c:427-429). -/
def edges (b : Builder V L) (a : Addr N V) (x : Pre n N L) (s : Job n N V L) (t : Nd N V) : List (L × Option (Nd N V)) :=
  let kept := match t with
    | .old m => (x.out m).map fun e => (e.1, some (.old e.2))
    | .new _ => []
  let es := kept ++ (s.made t).zipIdx.map fun e => (e.1.1, s.link t e.2)
  if b.sub then (deduplicatedEdges (fun e => a.ofNode e.2) (fun e f => b.eEq e.1 f.1) es).1 else es

/-- The nodes in the list of the graph (launch.c:358-366). -/
def listed (s : Job n N V L) : List (Nd N V) := (List.finRange n).flatMap s.queue

/-- What becomes of the graph.  Incoming edges are freed (spread.c:62). -/
def result (b : Builder V L) (g : Gr N V L) (a : Addr N V) (x : Pre n N L) (s : Job n N V L) : Gr (Nd N V) V L where
  nodes := listed s
  base := .old g.base
  vertex := vertex g
  out t := (edges b a x s t).filterMap fun e => e.2.map fun u => (e.1, u)
  inn _ := []

/-- Whether there is something to be freed by `_cru_sweep` (route.c:768-771). -/
def sweepable (x : Pre n N L) (s : Job n N V L) : Prop := ∃ i, s.started i = false ∧ x.del i ≠ []

/-- What `cru_spread` returns.  `undefined` is what happens when a list is corrupted: the loop in `_cru_queue_of` (queue.c:50-52) doesn't end, or nodes
are freed more than once.  `dangling` is a graph with an edge that has a vertex in place of its remote node. -/
inductive Outcome (N V L : Type)
  | undefined
  | dangling
  | error (e : Int)
  | ok (r : Gr (Nd N V) V L)

/-- The prespreading task ends in the state `x`. -/
def PreEnds [DecidableEq N] (b : Builder V L) (g : Gr N V L) (hn : 0 < n) (x : Pre n N L) : Prop :=
  ∃ s : State n N (Pre n N L), Net.Reach (pre b g hn) g.base (preStart g) s ∧ s.main = .done ∧ s.g = x

/-- The spreading task ends in the state `y`. -/
def Ends [DecidableEq N] [DecidableEq V] (b : Builder V L) (g : Gr N V L) (a : Addr N V) (x : Pre n N L) (hn : 0 < n) (y : Job n N V L) : Prop :=
  ∃ s : State n (Pkt N V L) (Job n N V L), Net.Reach (task b g a x hn) (.known g.base none) (start x) s ∧ s.main = .done ∧ s.g = y

/-- What is returned when the spreading task ended in the state `y` (spread.c:467-475, route.c:689-690, 772-775). -/
inductive Returns (b : Builder V L) (g : Gr N V L) (a : Addr N V) (x : Pre n N L) (y : Job n N V L) : Outcome N V L → Prop
  | failed : status y ≠ 0 → Returns b g a x y (.error (status y))
  | killed : status y = 0 → y.killed ≠ 0 → ¬ (1 < n ∧ sweepable x y) → Returns b g a x y (.error intKil)
  | dangling : status y = 0 → (y.killed = 0 ∨ 1 < n ∧ sweepable x y) → (∃ t ∈ listed y, ∃ e ∈ edges b a x y t, e.2 = none) →
    Returns b g a x y .dangling
  | ok : status y = 0 → (y.killed = 0 ∨ 1 < n ∧ sweepable x y) → (∀ t ∈ listed y, ∀ e ∈ edges b a x y t, e.2 ≠ none) →
    Returns b g a x y (.ok (result b g a x y))

/-- How often the connector was called on a node. -/
def callsOf [DecidableEq N] [DecidableEq V] (s : Job n N V L) (t : Nd N V) : Nat := ∑ i, ((s.calls i).map Prod.fst).count t

/-- `cru_spread` (entry.c:791-822, spread.c:446-476) on a non-empty graph whose orders are those of the builder.  The kill switch may be thrown
before the prespreading task has ended if `early`, and during the spreading task if `late`.  The last argument is what's returned. -/
inductive Spread [DecidableEq N] [DecidableEq V] (b : Builder V L) (g : Gr N V L) (a : Addr N V) (hn : 0 < n) (early late : Bool) :
    Outcome N V L → Prop
  | stopped : early = true → Spread b g a hn early late (.error intKil)
  | bad (x : Pre n N L) : PreEnds b g hn x → (x.killed ≠ 0 → early = true) → x.twice = true → Spread b g a hn early late .undefined
  | done (x : Pre n N L) (y : Job n N V L) (r : Outcome N V L) : PreEnds b g hn x → (x.killed ≠ 0 → early = true) → x.twice = false →
    Ends b g a x hn y → (y.asked = true → late = true) → Returns b g a x y r → Spread b g a hn early late r

end Cru.Spread
