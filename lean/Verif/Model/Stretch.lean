import Verif.Model.Dedup
import Verif.Spec.Graph

/-!
# Stretching (stretch.c, scatter.c:387-438, entry.c:324-362, 686-713)

The graph is taken to be in half duplex form, as it's made before each pass (stretch.c:438-442, props.c:300-305; C31).  Allocation failures and
errors of the functions in `st_prop` are left out.  Objects are taken to have different addresses even if one is allocated after another was freed.
-/

namespace Cru.Stretch

open Net Dedup

variable {n : Nat} {N V L P : Type}

/-- The arguments of a call to `cru_stretch` (entry.c:324-362). -/
structure Req (V L : Type) where
  ante : L
  vertex : V
  post : L
  deriving DecidableEq

/-- What the expander does with an edge: the error it raises, whether it returns non-zero, and its calls to `cru_stretch` in order. -/
structure Answer (V L : Type) where
  err : Int
  delete : Bool
  reqs : List (Req V L)

/-- `struct cru_stretcher_s` (cru_stretcher.h).  The property of a vertex (`_cru_mapped_node_with_locks`) is any function of the vertex,
the labels and vertices of its incident edges, and the labels and vertices of its outgoing edges. -/
structure Stretcher (V L P : Type) where
  fix : Bool
  expander : P → L → P → Answer V L
  probe : V → List (L × V) → List (L × V) → P

/-- What the expander does with each edge, given by its origin, label and terminus, once the vertex properties are set
(props.c:181-315, stretch.c:83-86), where `inc` gives the incoming edges. -/
def Stretcher.ask (x : Stretcher V L P) (g : Gr N V L) (inc : N → List (L × N)) (m : N) (e : L × N) : Answer V L :=
  let prop := fun a => x.probe (g.vertex a) ((inc a).map fun f => (f.1, g.vertex f.2)) ((g.out a).map fun f => (f.1, g.vertex f.2))
  x.expander (prop m) e.1 (prop e.2)

/-- A node of the given graph, or the node made for a request (scatter.c:411), given by the origin of the edge, its position among the edges of
the origin, the number of the request, the request, and the terminus of the edge.  The latter have the class mark `STRETCHED`. -/
inductive Nd (N V L : Type)
  | old (m : N)
  | new (m : N) (pos k : Nat) (r : Req V L) (t : N)
  deriving DecidableEq

/-- The vertex of a node (scatter.c:411). -/
def vertex (g : Gr N V L) : Nd N V L → V
  | .old m => g.vertex m
  | .new _ _ _ r _ => r.vertex

/-- The class mark is `STRETCHED` (scatter.c:425). -/
def Nd.isNew : Nd N V L → Bool
  | .old _ => false
  | .new _ _ _ _ _ => true

/-- An edge of the given graph at a position, the edge to a new node, or the one from a new node. -/
inductive Kind
  | old (pos : Nat)
  | ante (pos k : Nat)
  | post
  deriving DecidableEq

/-- An edge as an object that can be moved from one node to another and redirected: the node where it was at first, its label, and the node to
which it led at first. -/
structure Edge (N V L : Type) where
  src : Nd N V L
  kind : Kind
  label : L
  tgt : Nd N V L
  deriving DecidableEq

/-- The edge of the given graph at a position. -/
def oldEdge (m : N) (e : (L × N) × Nat) : Edge N V L := ⟨.old m, .old e.2, e.1.1, .old e.1.2⟩

/-- The edge to a new node (scatter.c:416-417). -/
def anteEdge (m : N) (e : (L × N) × Nat) (r : Req V L × Nat) : Edge N V L := ⟨.old m, .ante e.2 r.2, r.1.ante, .new m e.2 r.2 r.1 e.1.2⟩

/-- The edge from a new node (scatter.c:413-414). -/
def postEdge (m : N) (pos k : Nat) (r : Req V L) (t : N) : Edge N V L := ⟨.new m pos k r t, .post, r.post, .old t⟩

/-- The edges that a node has when it's received for the first time. -/
def edges (g : Gr N V L) : Nd N V L → List (Edge N V L)
  | .old m => (g.out m).zipIdx.map (oldEdge m)
  | .new m pos k r t => [postEdge m pos k r t]

/-- The edges of a node that aren't deleted (stretch.c:81-93). -/
def kept (ask : N → L × N → Answer V L) (g : Gr N V L) (m : N) : List (Edge N V L) :=
  ((g.out m).zipIdx.filter fun e => !(ask m e.1).delete).map (oldEdge m)

/-- Those that are (stretch.c:90). -/
def deleted (ask : N → L × N → Answer V L) (g : Gr N V L) (m : N) : List (Edge N V L) :=
  ((g.out m).zipIdx.filter fun e => (ask m e.1).delete).map (oldEdge m)

/-- The list of edges to new nodes made by `scattered` (stretch.c:72, 88, 94; the list of edge maps that `_cru_scatter_and_stretch` reverses is in
reverse order, entry.c:353-354). -/
def antes (ask : N → L × N → Answer V L) (g : Gr N V L) (m : N) : List (Edge N V L) :=
  (g.out m).zipIdx.reverse.flatMap fun e => (ask m e.1).reqs.zipIdx.map (anteEdge m e)

/-- The error of the first call to the expander that raises one for an edge of a node, or 0 (stretch.c:81-93). -/
def failure (ask : N → L × N → Answer V L) (g : Gr N V L) (m : N) : Int :=
  ((g.out m).map fun e => (ask m e).err).foldl (fun r e => if r = 0 then e else r) 0

/-- A stored packet (stretch.c:105-125): the receiver and the recorded carriers. -/
structure Entry (N V L : Type) where
  node : Nd N V L
  carriers : List (Option (Edge N V L))

/-- The lists `edges_out` of nodes; the fields `remote.node` of edges; whether nodes of the given graph have the class mark `SCATTERED`; the table
`collisions` of each worker, in the order in which packets were stored; the edges freed; the nodes freed; and whether an edge has been
redirected after it was freed. -/
structure Mem (n : Nat) (N V L : Type) where
  out : Nd N V L → List (Edge N V L)
  far : Edge N V L → Nd N V L
  mark : N → Bool
  tab : Fin n → List (Entry N V L)
  freed : List (Edge N V L)
  dead : List (Nd N V L)
  bad : Bool

/-- A packet: the receiver and the carrier. -/
structure Pkt (N V L : Type) where
  node : Nd N V L
  carrier : Option (Edge N V L)
  deriving DecidableEq

/-- The errors of the workers, the variables `count` and `changed` of each, and the memory. -/
structure Job (n : Nat) (N V L : Type) where
  err : Fin n → Int
  count : Fin n → Nat
  changed : Fin n → Nat
  mem : Mem n N V L

/-- The worker raises an error. -/
def Job.fail (s : Job n N V L) (i : Fin n) (e : Int) : Job n N V L := { s with err := Function.update s.err i e }

/-- The nodes in the bin of `m` in the table of worker `i` (stretch.c:314, table.c:51-71). -/
def bin (o : Orders V L) (g : Gr N V L) (tab : Fin n → List (Entry N V L)) (i : Fin n) (m : Nd N V L) : List (Nd N V L) :=
  ((tab i).filter fun c => decide (o.hash (vertex g c.node) = o.hash (vertex g m))).map Entry.node

/-- The carriers recorded for a stored node. -/
def carriers [DecidableEq N] [DecidableEq V] [DecidableEq L] (M : Mem n N V L) (i : Fin n) (c : Nd N V L) : List (Option (Edge N V L)) :=
  ((M.tab i).find? fun a => decide (a.node = c)).elim [] Entry.carriers

/-- `scattered` (stretch.c:51-96) for a node of the given graph, without errors.  The edges of the node are still those of the given graph, because
`graft` and `overwrite` change only those of nodes to which this function has been applied. -/
def scatter [DecidableEq N] [DecidableEq V] [DecidableEq L] (ask : N → L × N → Answer V L) (g : Gr N V L) (M : Mem n N V L) (m : N) : Mem n N V L :=
  { M with
    out := Function.update M.out (.old m) (kept ask g m ++ antes ask g m)
    mark := Function.update M.mark m true
    freed := deleted ask g m ++ M.freed }

/-- The packets sent by `scattered`: those for unmarked neighbors (stretch.c:75, scatter.c:214-245) and those for new nodes (scatter.c:421-423). -/
def sent (ask : N → L × N → Answer V L) (g : Gr N V L) (M : Mem n N V L) (m : N) : List (Pkt N V L) :=
  (((g.out m).zipIdx.filter fun e => !M.mark e.1.2).map fun e => ⟨.old e.1.2, some (oldEdge m e)⟩) ++
    (antes ask g m).map fun e => ⟨e.tgt, some e⟩

/-- `grown` (stretch.c:105-125, 328-330). -/
def grown (limit : Nat) (i : Fin n) (s : Job n N V L) (p : Pkt N V L) : Job n N V L where
  err := if limit ≠ 0 ∧ limit ≤ s.count i then Function.update s.err i Build.intOvf else s.err
  count := if limit ≠ 0 then Function.update s.count i (s.count i + 1) else s.count
  changed := if p.node.isNew then Function.update s.changed i (s.changed i + 1) else s.changed
  mem := { s.mem with tab := Function.update s.mem.tab i (s.mem.tab i ++ [⟨p.node, [p.carrier]⟩]) }

/-- `graft` (stretch.c:135-161) for a new node `m`, whose predecessor's edge is `e`, and a stored node `c`. -/
def graft [DecidableEq N] [DecidableEq V] [DecidableEq L] (o : Orders V L) (addr : Nd N V L → Nat) (i : Fin n) (M : Mem n N V L)
    (m c : Nd N V L) (e : Edge N V L) : Mem n N V L :=
  let d := deduplicatedEdges (fun a => addr (M.far a)) (fun a b => o.leq a.label b.label) (M.out m ++ M.out c)
  { M with
    out := Function.update (Function.update M.out c d.1) m []
    far := Function.update M.far e c
    tab := Function.update M.tab i ((M.tab i).map fun a => if a.node = c then { a with carriers := some e :: a.carriers } else a)
    freed := d.2 ++ M.freed
    dead := m :: M.dead }

/-- `overwrite` (stretch.c:170-196) for a node `m` received by way of the carrier `e`, and a stored node `c`, whose carriers are `es`. -/
def overwrite [DecidableEq N] [DecidableEq V] [DecidableEq L] (o : Orders V L) (addr : Nd N V L → Nat) (i : Fin n) (M : Mem n N V L)
    (m c : Nd N V L) (es : List (Edge N V L)) (e : Option (Edge N V L)) : Mem n N V L :=
  let far := fun a => if a ∈ es then m else M.far a
  let d := deduplicatedEdges (fun a => addr (far a)) (fun a b => o.leq a.label b.label) (M.out c ++ M.out m)
  { M with
    out := Function.update (Function.update M.out m d.1) c []
    far := far
    tab := Function.update M.tab i ((M.tab i).map fun a => if a.node = c then ⟨m, e :: a.carriers⟩ else a)
    freed := d.2 ++ M.freed
    dead := c :: M.dead
    bad := M.bad || es.any fun a => decide (a ∈ M.freed) }

/-- What's done with a node that isn't stored, according to the equal one that is (stretch.c:326-334), if any.  The carrier of the packet for the
base node, which is NULL, can't be redirected (emu.c, `_cru_multipoint`).  If `changed` is zero, it becomes the highest number
(stretch.c:333), but isn't used because of the error. -/
def settle [DecidableEq N] [DecidableEq V] [DecidableEq L] (o : Orders V L) (addr : Nd N V L → Nat) (limit : Nat) (i : Fin n)
    (s : Job n N V L) (p : Pkt N V L) : Option (Nd N V L) → Job n N V L
  | none => grown limit i s p
  | some c =>
    if p.node.isNew then
      match p.carrier with
      | none => s.fail i (-1630)
      | some e => { s with mem := graft o addr i s.mem p.node c e }
    else if s.changed i = 0 then s.fail i (-1658)
    else if none ∈ carriers s.mem i c then s.fail i (-901)
    else
      { s with
        changed := Function.update s.changed i (s.changed i - 1)
        mem := overwrite o addr i s.mem p.node c ((carriers s.mem i c).filterMap id) p.carrier }

/-- What's done with a packet (stretch.c:312-336).  What's done by a worker that has raised an error is left out, because the graph is freed then. -/
def act [DecidableEq N] [DecidableEq V] [DecidableEq L] (o : Orders V L) (ask : N → L × N → Answer V L) (g : Gr N V L) (addr : Nd N V L → Nat)
    (limit : Nat) (i : Fin n) (s : Job n N V L) (p : Pkt N V L) : Job n N V L × List (Pkt N V L) :=
  let r := lookup o (vertex g) p.node (bin o g s.mem.tab i p.node)
  if r.2 ≠ 0 then (s.fail i r.2, [])
  else if r.1 = some p.node then (s, [])
  else
    match p.node with
    | .new _ _ _ _ _ => (settle o addr limit i s p r.1, [])
    | .old m =>
      if failure ask g m ≠ 0 then (s.fail i (failure ask g m), [])
      else (settle o addr limit i { s with mem := scatter ask g s.mem m } p r.1, sent ask g s.mem m)

/-- `stretching_task` (stretch.c:257-349), which can't be killed (stretch.c:451). -/
def task [DecidableEq N] [DecidableEq V] [DecidableEq L] (o : Orders V L) (ask : N → L × N → Answer V L) (g : Gr N V L) (addr : Nd N V L → Nat)
    (limit : Nat) (hn : 0 < n) : Task n (Pkt N V L) (Job n N V L) Empty where
  dest p := Build.lane hn (o.hash (vertex g p.node))
  handle i s p := if s.err i ≠ 0 then (s, [], false) else ((act o ask g addr limit i s p).1, (act o ask g addr limit i s p).2, false)
  env e := nomatch e

/-- The state before that. -/
def start (g : Gr N V L) : Job n N V L := ⟨fun _ => 0, fun _ => 0, fun _ => 0, ⟨edges g, Edge.tgt, fun _ => false, fun _ => [], [], [], false⟩⟩

/-- The packet for the base node (stretch.c:444, 451; launch.c:156). -/
def initial (g : Gr N V L) : Pkt N V L := ⟨.old g.base, none⟩

/-- The limit for each worker (stretch.c:305-307). -/
def limitOf (vertexLimit lanes : Nat) : Nat :=
  if vertexLimit / lanes ≠ 0 then vertexLimit / lanes else if vertexLimit ≠ 0 then 1 else 0

/-- The first non-zero worker status in lane order (crew.c). -/
def status (s : Job n N V L) : Int := ((List.finRange n).map s.err).foldl (fun r e => if r = 0 then e else r) 0

/-- The sum of the numbers returned by the workers (stretch.c:347, 451; launch.c:161). -/
def total (s : Job n N V L) : Nat := ((List.finRange n).map s.changed).sum

/-- The edges of nodes as seen by `_cru_pruning_task` (stretch.c:359-402). -/
def ends (M : Mem n N V L) (m : Nd N V L) : List (L × Nd N V L) := (M.out m).map fun e => (e.label, M.far e)

/-- The graph made of the nodes listed. -/
def result (g : Gr N V L) (M : Mem n N V L) (ms : List (Nd N V L)) : Gr (Nd N V L) V L where
  nodes := ms
  base := .old g.base
  vertex := vertex g
  out := ends M
  inn _ := []

/-- Some node on the list of survivors of a port hasn't been severed from it (stretch.c:344, 394; route.c:768-771). -/
def sweepable (M : Mem n N V L) (z : Trav.Job n (Nd N V L) Unit) : Prop := ∃ i, ∃ a ∈ M.tab i, a.node ∉ Dedup.kept z

/-- What `cru_stretched` can do. -/
inductive Outcome (V L : Type) : Type 1
  | undefined
  | error (e : Int)
  | ok {N : Type} (g : Gr N V L)

/-- The stretching task on the graph `g` ends in the state `y`. -/
def Runs (o : Orders V L) [DecidableEq V] [DecidableEq L] {N : Type} [DecidableEq N] (ask : N → L × N → Answer V L) (g : Gr N V L)
    (addr : Nd N V L → Nat) (limit : Nat) (hn : 0 < n) (y : Job n N V L) : Prop :=
  ∃ s : State n (Pkt N V L) (Job n N V L), Net.Reach (task o ask g addr limit hn) (initial g) (start g) s ∧ s.main = .done ∧ s.g = y

/-- `_cru_pruning_task` ends in the state `z` (stretch.c:359-402, 458). -/
def Prunes (o : Orders V L) [DecidableEq V] [DecidableEq L] {N : Type} [DecidableEq N] (g : Gr N V L) (hn : 0 < n) (M : Mem n N V L)
    (z : Trav.Job n (Nd N V L) Unit) : Prop :=
  ∃ s : State n (Nd N V L) (Trav.Job n (Nd N V L) Unit),
    Net.Reach (Filter.pruning (ends M) (fun m => o.hash (vertex g m)) hn) (.old g.base) (Trav.start ()) s ∧ s.main = .done ∧ s.g = z

/-- `cru_stretched` (entry.c:686-713, stretch.c:415-466) on a non-empty graph, where `killable` says whether the kill switch may be thrown.  Jobs
that are killed while vertex properties are set fail (stretch.c:447).  Requests to kill the pruning task are forgotten before another
pass (stretch.c:449, route.c:512), for which it doesn't matter which nodes are on the list (stretch.c:452).  After the last pass, they're
forgotten if there's something to be freed and more than one lane (route.c:774-775), and otherwise become an error (route.c:689-690).  Anything
can happen after an edge is redirected that was freed. -/
inductive Stretched [DecidableEq V] [DecidableEq L] (o : Orders V L) (x : Stretcher V L P) (limit : Nat) (hn : 0 < n) (killable : Bool) :
    {N : Type} → Gr N V L → Outcome V L → Prop
  | stopped {N : Type} (g : Gr N V L) : killable = true → Stretched o x limit hn killable g (.error Build.intKil)
  | bad {N : Type} [DecidableEq N] (g : Gr N V L) (inc : N → List (L × N)) (addr : Nd N V L → Nat) (y : Job n N V L) :
    ({ g with inn := inc } : Gr N V L).Duplex → Function.Injective addr → Runs o (x.ask g inc) g addr limit hn y →
    y.mem.bad = true → Stretched o x limit hn killable g .undefined
  | failed {N : Type} [DecidableEq N] (g : Gr N V L) (inc : N → List (L × N)) (addr : Nd N V L → Nat) (y : Job n N V L) :
    ({ g with inn := inc } : Gr N V L).Duplex → Function.Injective addr → Runs o (x.ask g inc) g addr limit hn y →
    y.mem.bad = false → status y ≠ 0 → Stretched o x limit hn killable g (.error (status y))
  | again {N : Type} [DecidableEq N] (g : Gr N V L) (inc : N → List (L × N)) (addr : Nd N V L → Nat) (y : Job n N V L)
      (z : Trav.Job n (Nd N V L) Unit) (ms : List (Nd N V L)) (r : Outcome V L) :
    ({ g with inn := inc } : Gr N V L).Duplex → Function.Injective addr → Runs o (x.ask g inc) g addr limit hn y →
    y.mem.bad = false → status y = 0 → x.fix = true → total y ≠ 0 → Prunes o g hn y.mem z → (z.killed ≠ 0 → killable = true) →
    (z.killed = 0 → ms = Dedup.kept z) → Covers (fun m => (ends y.mem m).map Prod.snd) (.old g.base) ms →
    Stretched o x limit hn killable (result g y.mem ms) r → Stretched o x limit hn killable g r
  | killed {N : Type} [DecidableEq N] (g : Gr N V L) (inc : N → List (L × N)) (addr : Nd N V L → Nat) (y : Job n N V L)
      (z : Trav.Job n (Nd N V L) Unit) :
    ({ g with inn := inc } : Gr N V L).Duplex → Function.Injective addr → Runs o (x.ask g inc) g addr limit hn y →
    y.mem.bad = false → status y = 0 → ¬ (x.fix = true ∧ total y ≠ 0) → Prunes o g hn y.mem z → killable = true →
    z.killed ≠ 0 → ¬ (1 < n ∧ sweepable y.mem z) → Stretched o x limit hn killable g (.error Build.intKil)
  | done {N : Type} [DecidableEq N] (g : Gr N V L) (inc : N → List (L × N)) (addr : Nd N V L → Nat) (y : Job n N V L)
      (z : Trav.Job n (Nd N V L) Unit) :
    ({ g with inn := inc } : Gr N V L).Duplex → Function.Injective addr → Runs o (x.ask g inc) g addr limit hn y →
    y.mem.bad = false → status y = 0 → ¬ (x.fix = true ∧ total y ≠ 0) → Prunes o g hn y.mem z → (z.killed ≠ 0 → killable = true) →
    (z.killed = 0 ∨ 1 < n ∧ sweepable y.mem z) → Stretched o x limit hn killable g (.ok (result g y.mem (Dedup.kept z)))

end Cru.Stretch
