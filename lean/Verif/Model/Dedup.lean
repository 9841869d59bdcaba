import Verif.Model.Filter
import Verif.Model.Edges

/-!
# Deduplication (duplex.c:156-396, entry.c:912-939)

The graph is taken to have no incoming edges, having been put in half duplex form if it wasn't (duplex.c:378-382; C31).
`populating_task` (duplex.c:163-221) only moves nodes to the lists `survivors` of the ports given by the hashes of their vertices, which
is taken for granted.  Allocation failures are left out.  Neither this task nor `deduplicating_task` can be killed (duplex.c:385).
-/

namespace Cru.Dedup

open Net

variable {n : Nat} {N V L : Type}

/-- The orders of the graph (cru_sig): equality of vertices, with the error that the user's predicate raises, a hash of vertices, and equality of
edge labels.  Hashes of edge labels are taken to respect it (`Model/Edges.lean`). -/
structure Orders (V L : Type) where
  equal : V → V → Bool × Int
  hash : V → Nat
  leq : L → L → Bool

/-- An edge as an object that can be moved from one node to another and redirected: the node and the position where it was at first, its label,
and the node to which it led at first. -/
structure Edge (N L : Type) where
  src : N
  pos : Nat
  label : L
  tgt : N
  deriving DecidableEq

/-- The edges of a node at first. -/
def edges (g : Gr N V L) (m : N) : List (Edge N L) := (g.out m).zipIdx.map fun e => ⟨m, e.2, e.1.1, e.1.2⟩

/-- The lists `edges_out` of nodes; the fields `remote.node` of edges; the nodes received by each worker for the first time, in this order, with
true for those stored in the table and false for those moved to `deletions`; the edges moved to `disconnections`; and those freed. -/
structure Mem (n : Nat) (N L : Type) where
  out : N → List (Edge N L)
  far : Edge N L → N
  met : Fin n → List (N × Bool)
  cut : List (Edge N L)
  freed : List (Edge N L)

/-- A packet: the receiver and the carrier. -/
structure Pkt (N L : Type) where
  node : N
  carrier : Option (Edge N L)
  deriving DecidableEq

/-- The errors of the workers and the memory. -/
structure Job (n : Nat) (N L : Type) where
  err : Fin n → Int
  mem : Mem n N L

/-- The search for a node equal to `m` among those in a bin of the table (duplex.c:316-320), and the error raised by the user's predicate, which
isn't called to compare a vertex to itself (duplex.c:283-284). -/
def lookup [DecidableEq V] (o : Orders V L) (vertex : N → V) (m : N) : List N → Option N × Int
  | [] => (none, 0)
  | c :: cs =>
    if vertex m = vertex c then (some c, 0)
    else
      let r := o.equal (vertex m) (vertex c)
      if r.2 ≠ 0 then (none, r.2) else if r.1 then (some c, 0) else lookup o vertex m cs

/-- The bin of `m` in the table of worker `i` (duplex.c:314, table.c:51-71). -/
def bin (o : Orders V L) (vertex : N → V) (met : Fin n → List (N × Bool)) (i : Fin n) (m : N) : List N :=
  ((met i).filter fun c => c.2 && decide (o.hash (vertex c.1) = o.hash (vertex m))).map Prod.fst

/-- `graft` (duplex.c:230-261) for a node `m` that isn't `c`, with the edges `es`.  The carriers it records are never used. -/
def graft [DecidableEq N] [DecidableEq L] (o : Orders V L) (i : Fin n) (M : Mem n N L) (m c : N) (e : Edge N L) (es : List (Edge N L)) : Mem n N L :=
  let r := splitRepeats (fun a b => o.leq a.label b.label) [] (es ++ M.out c)
  { M with
    out := Function.update (Function.update M.out c r.1) m []
    cut := r.2 ++ M.cut
    far := Function.update M.far e c
    met := Function.update M.met i (if (m, false) ∈ M.met i then M.met i else M.met i ++ [(m, false)]) }

/-- What's done with a packet (duplex.c:314-339), where `addr` is the address of a node. -/
def act [DecidableEq N] [DecidableEq V] [DecidableEq L] (o : Orders V L) (g : Gr N V L) (addr : N → Nat) (i : Fin n) (s : Job n N L) (p : Pkt N L) :
    Job n N L × List (Pkt N L) :=
  let r := lookup o g.vertex p.node (bin o g.vertex s.mem.met i p.node)
  if r.2 ≠ 0 then ({ s with err := Function.update s.err i r.2 }, [])
  else if r.1 = some p.node then (s, [])
  else
    let d := deduplicatedEdges (fun e => addr (s.mem.far e)) (fun a b => o.leq a.label b.label) (s.mem.out p.node)
    let ps := d.1.map fun e => ⟨s.mem.far e, some e⟩
    let M := { s.mem with freed := d.2 ++ s.mem.freed }
    match r.1, p.carrier with
    | none, _ => ({ s with mem := { M with out := Function.update M.out p.node d.1, met := Function.update M.met i (M.met i ++ [(p.node, true)]) } }, ps)
    | some _, none => ({ err := Function.update s.err i (-847), mem := { M with out := Function.update M.out p.node d.1 } }, ps)
    | some c, some e => ({ s with mem := graft o i M p.node c e d.1 }, ps)

/-- `deduplicating_task` (duplex.c:270-344). -/
def task [DecidableEq N] [DecidableEq V] [DecidableEq L] (o : Orders V L) (g : Gr N V L) (addr : N → Nat) (hn : 0 < n) : Task n (Pkt N L) (Job n N L) Empty where
  dest p := Build.lane hn (o.hash (g.vertex p.node))
  handle i s p := if s.err i ≠ 0 then (s, [], false) else ((act o g addr i s p).1, (act o g addr i s p).2, false)
  env e := nomatch e

/-- The state before that. -/
def start (g : Gr N V L) : Job n N L := ⟨fun _ => 0, ⟨edges g, Edge.tgt, fun _ => [], [], []⟩⟩

/-- The first non-zero worker status in lane order (runners.c:100-119, crew.c:306-329). -/
def status (s : Job n N L) : Int := ((List.finRange n).map s.err).foldl (fun r e => if r = 0 then e else r) 0

/-- The edges of nodes as seen by `_cru_pruning_task` (stretch.c:359-402). -/
def ends (M : Mem n N L) (m : N) : List (L × N) := (M.out m).map fun e => (e.label, M.far e)

/-- Whether any port has something to be freed by `_cru_sweep` (route.c:768-771): deleted edges, deleted nodes, or nodes on the list of
survivors not severed from it in the end. -/
def sweepable (o : Orders V L) (g : Gr N V L) (hn : 0 < n) (M : Mem n N L) (z : Trav.Job n N Unit) : Prop :=
  M.cut ≠ [] ∨ (∃ i m, (m, false) ∈ M.met i) ∨
    ∃ m ∈ g.nodes, m ∉ z.seen (Build.lane hn (o.hash (g.vertex m)))

/-- The nodes left, which are those received in the end, also by the workers that stop (stretch.c:391-401, crew.c:365-399). -/
def kept (z : Trav.Job n N Unit) : List N := (List.finRange n).flatMap z.seen

/-- The graph returned. -/
def result (g : Gr N V L) (M : Mem n N L) (z : Trav.Job n N Unit) : Gr N V L where
  nodes := kept z
  base := g.base
  vertex := g.vertex
  out := ends M
  inn _ := []

/-- `cru_deduplicated` (entry.c:912-939, duplex.c:353-396) on a non-empty graph, where `k` is the kill flag of the router at the end of pruning.
The flag is cleared by `_cru_sweep` if there's something to be freed and more than one lane (route.c:774-775), and otherwise becomes
an error (route.c:689-690). -/
def Dedups [DecidableEq N] [DecidableEq V] [DecidableEq L] (o : Orders V L) (g : Gr N V L) (addr : N → Nat) (hn : 0 < n) (k : Nat)
    (r : Except Int (Gr N V L)) : Prop :=
  ∃ y : State n (Pkt N L) (Job n N L), Net.Reach (task o g addr hn) ⟨g.base, none⟩ (start g) y ∧ y.main = .done ∧
    if status y.g ≠ 0 then k = 0 ∧ r = .error (status y.g)
    else ∃ z : State n N (Trav.Job n N Unit),
      Net.Reach (Filter.pruning (ends y.g.mem) (fun m => o.hash (g.vertex m)) hn) g.base (Trav.start ()) z ∧ z.main = .done ∧ z.g.killed = k ∧
      (k ≠ 0 ∧ ¬ (1 < n ∧ sweepable o g hn y.g.mem z.g) ∧ r = .error Build.intKil ∨
        (k = 0 ∨ 1 < n ∧ sweepable o g hn y.g.mem z.g) ∧ r = .ok (result g y.g.mem z.g))

end Cru.Dedup
