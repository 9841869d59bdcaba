import Verif.Model.Graph
import Verif.Model.Pack

/-!
# Reclamation of graphs (graph.c:114-234, entry.c:1028-1047, scatter.c:303-338, pack.c:392-465)

Workers dispose of a graph together, each one of the nodes whose addresses hash to it.  Here allocation failure is part of the
model: whenever the heap is asked for a packet or for a place in the set of nodes that have been seen, an oracle decides, and
other threads may change the oracle and the number of packets in reserve at any time.

Left out: failures of locks, invalid magic numbers, and destructors that are null pointers or are skipped because the vertex or
label is a null pointer (vertices and labels are disposed of here in the same way whether or not there's a destructor).
-/

namespace Cru.Free

open Net

/-- A packet is the node it's addressed to and its own address.  Addresses of packets are never reused here, so that packets can
be told apart. -/
abbrev Packet (N : Type) := N × Nat

/-- The `edges_out` fields of nodes, the variables of the workers (`seen`, `s->deletions`, whether `*err` is set, and
`buffer`), the number of packets in reserve (pack.c:47), the address of the next packet, and the oracle `heap` with the
number of times it's been asked.  `freed`, `vertices` and `labels` aren't in the code: they list the nodes whose storage has been
released and the vertices and labels that have been disposed of, the latest first.  `undef` means that a node has been touched
after its storage had been released. `buffer i` is the packet whose payload is in the buffer of worker `i`: in the code the
buffer takes over the payload of a packet and the packet is freed, whereas here the packet stays and counts as the buffer. -/
structure Job (n : Nat) (N V L : Type) where
  out : N → List (L × N)
  seen : Fin n → List N
  deletions : Fin n → List N
  err : Fin n → Bool
  buffer : Fin n → Option (Packet N)
  reserve : Nat
  name : Nat
  heap : Nat → Bool
  asked : Nat
  freed : List N
  vertices : List V
  labels : List L
  undef : Bool

variable {n : Nat} {N V L : Type}

/-- `new_packet` (pack.c:108-124): from the heap, or else from the reserve, but then raise `ENOMEM` in any case. -/
def newPacket (i : Fin n) (s : Job n N V L) : Job n N V L × Bool :=
  if s.heap s.asked then ({ s with asked := s.asked + 1 }, true)
  else if s.reserve = 0 then ({ s with asked := s.asked + 1, err := Function.update s.err i true }, false)
  else ({ s with asked := s.asked + 1, err := Function.update s.err i true, reserve := s.reserve - 1 }, true)

/-- `_cru_nack` for one packet (pack.c:187-239), as one step. -/
def nack (s : Job n N V L) : Job n N V L :=
  { s with reserve := if s.reserve < Pack.limit then s.reserve + 1 else s.reserve }

/-- The loop of `_cru_unscatterable` (scatter.c:326-336) over a list of edges from node `m`: the packets pushed, in order, and the
edges that are left because there's no packet. -/
def scatter [DecidableEq N] (i : Fin n) (m : N) : List (L × N) → Job n N V L → Job n N V L × List (Packet N) × List (L × N)
  | [], s => (s, [], [])
  | c :: es, s =>
    if c.2 = m then scatter i m es { s with labels := c.1 :: s.labels }
    else if (newPacket i s).2 then
      let r := scatter i m es { (newPacket i s).1 with name := s.name + 1, labels := c.1 :: s.labels }
      (r.1, (c.2, s.name) :: r.2.1, r.2.2)
    else ((newPacket i s).1, [], c :: es)

/-- A node is about to be read or written. -/
def touch [DecidableEq N] (m : N) (s : Job n N V L) : Job n N V L := { s with undef := s.undef || decide (m ∈ s.freed) }

/-- `_cru_free_nodes` (nodes.c:76-96) for one node. -/
def freeNode [DecidableEq N] (vertex : N → V) (s : Job n N V L) (m : N) : Job n N V L :=
  { touch m s with
    labels := ((s.out m).map Prod.fst).reverse ++ s.labels
    out := Function.update s.out m []
    vertices := vertex m :: s.vertices
    freed := m :: s.freed }

/-- Remember a node and free it, or put it into `deletions` if it can't be remembered (graph.c:220-223). -/
def record [DecidableEq N] (vertex : N → V) (i : Fin n) (m : N) (s : Job n N V L) : Job n N V L :=
  if s.heap s.asked then
    freeNode vertex { s with asked := s.asked + 1, seen := Function.update s.seen i (s.seen i ++ [m]) } m
  else { s with asked := s.asked + 1, err := Function.update s.err i true
                deletions := Function.update s.deletions i (m :: s.deletions i) }

/-- `RECORDED` (graph.c:186). -/
def recorded [DecidableEq N] (i : Fin n) (m : N) (s : Job n N V L) : Bool :=
  decide (m ∈ s.seen i) || (s.err i && decide (m ∈ s.deletions i))

/-- Labels `c` and `e` (graph.c:224-226): clear the buffer if this is its packet, otherwise free the packet. -/
def finish1 [DecidableEq N] (i : Fin n) (p : Packet N) (s : Job n N V L) : Job n N V L :=
  if s.buffer i = some p then { s with buffer := Function.update s.buffer i none } else nack s

/-- From label `d` (graph.c:218-226). -/
def dispose [DecidableEq N] (vertex : N → V) (i : Fin n) (p : Packet N) (s : Job n N V L) : Job n N V L :=
  if s.buffer i ≠ some p ∧ (s.buffer i).map Prod.fst = some p.1 then nack s
  else finish1 i p (record vertex i p.1 s)

/-- What's done when edges `rest` are left (graph.c:211-217), given the packets pushed so far. -/
def short [DecidableEq N] (vertex : N → V) (i : Fin n) (p : Packet N) (rest : List (L × N)) (sends : List (Packet N))
    (t : Job n N V L) : Job n N V L × List (Packet N) × Bool :=
  match t.buffer i with
  | none => (nack { t with buffer := Function.update t.buffer i (some p) }, sends, true)     -- graph.c:211, pack.c:392-415
  | some b =>
    if b.1 ≠ p.1 then                                                             -- graph.c:213, nodes.c:332-346
      (dispose vertex i p
        { touch b.1 t with out := Function.update (Function.update t.out b.1 (rest ++ t.out b.1)) p.1 [] }, sends, false)
    else if b = p then (t, sends, true)                                           -- graph.c:215, pack.c:424-442
    else (nack t, sends, false)

/-- The body of the loop of `_cru_freeing_task` (graph.c:206-226). -/
def handle [DecidableEq N] (vertex : N → V) (i : Fin n) (s : Job n N V L) (p : Packet N) :
    Job n N V L × List (Packet N) × Bool :=
  if recorded i p.1 s then (finish1 i p s, [], false)                             -- graph.c:207
  else
    let r := scatter i p.1 (s.out p.1) (touch p.1 s)                              -- graph.c:209
    let t := { r.1 with out := Function.update r.1.out p.1 r.2.2 }
    if r.2.2 = [] then (dispose vertex i p t, r.2.1, false)
    else short vertex i p r.2.2 r.2.1 t

/-- What other threads and destructors may do at any time: the heap has different amounts of room, other operations take packets
from the reserve or put some into it, or a destructor called by worker `i` raises an error (`APPLY`, errs.h:58). -/
inductive Event (n : Nat)
  | heap (h : Nat → Bool)
  | reserve (r : Nat)
  | raise (i : Fin n)

/-- `_cru_freeing_task` (graph.c:179-234). -/
def task [DecidableEq N] (vertex : N → V) (hash : N → Nat) (hn : 0 < n) :
    Task n (Packet N) (Job n N V L) (Event n) where
  dest p := Build.lane hn (hash p.1)
  handle := handle vertex
  env e s := match e with
    | .heap h => { s with heap := h }
    | .reserve r => { s with reserve := r }
    | .raise i => { s with err := Function.update s.err i true }

/-- Before anything is freed.  The initial packet (launch.c:63) has address 0. -/
def start (g : Gr N V L) (heap : Nat → Bool) (reserve : Nat) : Job n N V L :=
  ⟨g.out, fun _ => [], fun _ => [], fun _ => false, fun _ => none, reserve, 1, heap, 0, [], [], [], false⟩

def first (g : Gr N V L) : Packet N := (g.base, 0)

/-- When their loops have ended, the workers free the nodes in `deletions` (graph.c:228). -/
def finish [DecidableEq N] (vertex : N → V) (s : Job n N V L) : Job n N V L :=
  ((List.finRange n).flatMap s.deletions).foldl (freeNode vertex) s

/-- What becomes of a graph: the nodes freed, the vertices and labels disposed of, and whether anything was touched after it
had been freed. -/
structure Log (N V L : Type) where
  freed : List N
  vertices : List V
  labels : List L
  undef : Bool

def Job.log (s : Job n N V L) : Log N V L := ⟨s.freed, s.vertices, s.labels, s.undef⟩

/-- `CRU_BADGPH`. -/
def badGph : Int := -513

/-- `_cru_free_now` (graph.c:114-128), by one thread, with the value of `*err` on entry. -/
def alone [DecidableEq N] (g : Gr N V L) (e : Int) : Log N V L :=
  if e = badGph then ⟨[], [], [], false⟩
  else (g.nodes.foldl (freeNode g.vertex) (start (n := 0) g (fun _ => true) 0)).log

/-- `cru_free_now` (entry.c:1028-1047) for a graph that isn't empty or invalid, where `e` is the value of `*err` after
`API_ENTRY` (the caller's, or `ENOMEM` if there was none and the reserves can't be replenished) and `n` is the number of lanes or
its default.  The graph is freed by one thread if there's an error or only one lane or if the workers can't be started. -/
inductive FreesNow [DecidableEq N] (g : Gr N V L) (hash : N → Nat) (hn : 0 < n) : Int → Log N V L → Prop
  | alone (e : Int) : FreesNow g hash hn e (alone g e)
  | together (heap : Nat → Bool) (reserve : Nat) (z : State n (Packet N) (Job n N V L)) : 1 < n →
      Reach (task g.vertex hash hn) (first g) (start g heap reserve) z → z.main = .done →
      FreesNow g hash hn 0 (finish g.vertex z.g).log

/-- `cru_free_later` (graph.c:427-443, 137-171): a thread is started that frees the graph with no error to begin with, or if it can't be
started, the graph is freed in the foreground with the caller's error code `e`. -/
inductive FreesLater [DecidableEq N] (g : Gr N V L) : Int → Log N V L → Prop
  | background (e : Int) : FreesLater g e (alone g 0)
  | foreground (e : Int) : FreesLater g e (alone g e)

end Cru.Free
