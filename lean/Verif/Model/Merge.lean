import Verif.Model.Partition
import Verif.Model.Edges

/-!
# Merging vertices (merge.c)

`prop` is the property of each node (`Model/Partition.lean`), and the user's functions are given by their values: allocation
failures are left out, and errors are except where said.  Edges are pairs of a label and a remote node.
-/

namespace Cru.Merge

open Net Table

variable {n : Nat} {N V L P : Type}

/-! ## Pruning the edges of a class -/

/-- The inner loop of `fused_edges` (merge.c:318-323) for one member: edges are popped, pushed on `e` and recorded. -/
def gatherOne (hash : L → Nat) (eq : L → L → Bool) (es : List (L × N)) (acc : List (L × N)) : List (L × N) × Table L Nat :=
  es.foldl (fun s x => (x :: s.1, record hash eq x.1 s.2)) (acc, fun _ => [])

/-- The loop of `fused_edges` over the members (merge.c:316-325): all edges, and the multiset table `t`. -/
def gather (hash : L → Nat) (eq : L → L → Bool) (members : List (List (L × N))) : List (L × N) × Table L Nat :=
  members.foldl (fun s es => ((gatherOne hash eq es s.1).1, merge eq s.2 (gatherOne hash eq es s.1).2)) ([], fun _ => [])

/-- The flag passed to the pruner (merge.c:272, 276), where `size` is the number of members. -/
def flag (hash : L → Nat) (eq : L → L → Bool) (t : Table L Nat) (size : Nat) (l : L) : Bool :=
  if size - 1 = 0 then true else multiplicity hash eq l t == size - 1

/-- What is left of a pruning loop: edges kept, edges deleted, calls of the pruner, time and error. -/
structure Pruned (L N : Type) where
  kept : List (L × N)
  deleted : List (L × N)
  calls : List (Bool × L)
  clock : Nat
  err : Int

/-- The body of the loop of `filter_edges` (merge.c:276-279).  `f t b l` is the pruner's result and error when called at time `t`.
`PASSED` (errs.h:55) is zero, and the pruner isn't called, if there's an error already. -/
def pruneOne (f : Nat → Bool → L → Bool × Int) (fl : L → Bool) (s : Pruned L N) (e : L × N) : Pruned L N :=
  if s.err ≠ 0 then ⟨s.kept, e :: s.deleted, s.calls, s.clock, s.err⟩
  else if (f s.clock (fl e.1) e.1).2 = 0 ∧ (f s.clock (fl e.1) e.1).1 = true then
    ⟨s.kept ++ [e], s.deleted, s.calls ++ [(fl e.1, e.1)], s.clock + 1, 0⟩
  else ⟨s.kept, e :: s.deleted, s.calls ++ [(fl e.1, e.1)], s.clock + 1, (f s.clock (fl e.1) e.1).2⟩

/-- The loop of `filter_edges` (merge.c:274-280). -/
def prune (f : Nat → Bool → L → Bool × Int) (fl : L → Bool) (es : List (L × N)) (clock : Nat) : Pruned L N :=
  es.foldl (pruneOne f fl) ⟨[], [], [], clock, 0⟩

/-- `filter_edges` (merge.c:247-283). -/
def filterEdges (f : Option (Nat → Bool → L → Bool × Int)) (hash : L → Nat) (eq : L → L → Bool) (t : Table L Nat) (size : Nat)
    (es : List (L × N)) (clock : Nat) : Pruned L N :=
  match f with
  | none => ⟨es, [], [], clock, 0⟩
  | some f => prune f (flag hash eq t size) es clock

/-! ## Fusing edges -/

/-- The label operations of a merger: the pruner with its errors left out, and the value of the edge fold for the edges of a bucket
(`_cru_configurably_reduced_edges`, `Model/Fold.lean`) if there's one. -/
structure EdgeOps (N L : Type) where
  hash : L → Nat
  eq : L → L → Bool
  pruner : Option (Bool → L → Bool)
  red : Option (List (L × N) → L)

/-- `fused_edges` (merge.c:293-332) for the members of a class with the given outgoing edges, where `cls` is the class of a node,
identified with its head, and `addr` its address: the edges of the class.  `_cru_reduced_brigade` (brig.c:346-384) makes one edge
for each bucket and pushes it.  `_cru_deduplicated_brigade` (brig.c:310-336) directs the remaining edges to classes. -/
def fusedEdges (o : EdgeOps N L) (cls : N → N) (addr : N → Nat) (members : List (List (L × N))) : List (L × N) :=
  let g := gather o.hash o.eq members
  let es := (filterEdges (o.pruner.map fun f _ b l => (f b l, 0)) o.hash o.eq g.2 members.length g.1 0).kept
  match o.red with
  | none => (deduplicatedEdges (fun e => addr (cls e.2)) (fun a b => o.eq a.1 b.1) es).1.map fun e => (e.1, cls e.2)
  | some red => (marshalled (fun e => addr (cls e.2)) es).foldl (fun acc b => b.head?.elim acc fun e => (red b, cls e.2) :: acc) []

/-! ## Merging vertices -/

/-- The collision tables: bins of packets, each with a list of nodes, and the time. -/
structure Mem (n : Nat) (N : Type) where
  bins : Fin n → Nat → List (List N)
  clock : Nat

/-- `assimilated` (merge.c:52-69): the node is pushed after the head of the class of `r`. -/
def assimilated [DecidableEq N] (r m : N) : List N → List N
  | [] => []
  | h :: t => if h = r then h :: m :: t else h :: t

/-- What `vertex_merging_task` does with a node it hasn't seen (merge.c:178-186), where the search in the bin (merge.c:131-133,
180-181) is the same as for partitions. -/
def visit [DecidableEq N] [DecidableEq P] (prop : N → P) (hash : P → Nat) (eq : Nat → P → P → Bool × Int) (i : Fin n)
    (s : Mem n N) (m : N) : Mem n N × Int :=
  let bin := s.bins i (hash (prop m))
  let x := Classify.search prop eq m (bin.filterMap List.head?) s.clock
  let bin' := match x.1 with
    | none => bin ++ [[m]]
    | some r => bin.map (assimilated r m)
  (⟨Function.update s.bins i (Function.update (s.bins i) (hash (prop m)) bin'), x.2.1⟩, x.2.2)

/-- `vertex_merging_task` (merge.c:121-198).  What happens to nodes after a kill or an error is left out. -/
def task [DecidableEq N] [DecidableEq P] (g : Gr N V L) (prop : N → P) (hash : P → Nat) (eq : Nat → P → P → Bool × Int)
    (hn : 0 < n) : Task n N (Trav.Job n N (Mem n N)) Unit :=
  Trav.task (g.next false) (visit prop hash eq) (fun m => hash (prop m)) hn

def start : Trav.Job n N (Mem n N) := Trav.start ⟨fun _ _ => [], 0⟩

/-- `_cru_unpacked` (table.c:79-110) with Judy arrays: bins by ascending hash values, each in front of the previous ones. -/
def unpacked (bins : Nat → List (List N)) (hashes : List Nat) : List (List N) := hashes.foldl (fun r h => bins h ++ r) []

/-- The classes made by all workers (merge.c:194). -/
def classes (prop : N → P) (hash : P → Nat) (x : Trav.Job n N (Mem n N)) : List (List N) :=
  (List.finRange n).flatMap fun i => unpacked (x.mem.bins i) (judyKeys (fun m => hash (prop m)) (x.seen i))

/-- `fuse_vertices` (merge.c:76-108), the classes of nodes: the head of the list a node is in. -/
def classOf [DecidableEq N] (classes : List (List N)) (m : N) : N :=
  ((classes.find? fun k => decide (m ∈ k)).bind List.head?).getD m

/-- `fuse_vertices` (merge.c:76-108), the vertex at the head of a class.  `vop` is the value of the vertex fold
(`_cru_reduced_nodes`, `Model/Fold.lean`) if there's one; otherwise classes have one member (merge.c:99). -/
def composite [DecidableEq N] (vertex : N → V) (vop : Option (List N → V)) (classes : List (List N)) (m : N) : V :=
  match vop with
  | none => vertex m
  | some f => match classes.find? fun k => decide (k.head? = some m) with
    | none => vertex m
    | some k => f k

/-- The graph after `edge_merging_task` (merge.c:346-385), accessible from the base node. -/
def fused [DecidableEq N] (g : Gr N V L) (o : EdgeOps N L) (vop : Option (List N → V)) (addr : N → Nat) (classes : List (List N)) :
    Gr N V L where
  nodes := []
  base := g.base
  vertex := composite g.vertex vop classes
  out m := match classes.find? fun k => decide (k.head? = some m) with
    | none => g.out m
    | some k => fusedEdges o (classOf classes) addr (k.map g.out)
  inn _ := []

/-- `_cru_pruning_task` (stretch.c:359-402) with the tag `CLU`: nodes go to the lanes given by hashes of their properties, and each
worker returns the queue of the nodes it has seen. -/
def pruning [DecidableEq N] (g : Gr N V L) (prop : N → P) (hash : P → Nat) (hn : 0 < n) : Task n N (Trav.Job n N Unit) Unit :=
  Trav.task (g.next false) (fun _ _ _ => ((), 0)) (fun m => hash (prop m)) hn

/-- The node list made by `_cru_node_union` (crew.c:365-399) from the queues in order (`Model/Queue.lean`). -/
def collected (g : Gr N V L) (x : Trav.Job n N Unit) : Gr N V L := { g with nodes := (List.finRange n).flatMap x.seen }

/-- `_cru_merged` (merge.c:505-537) after properties have been set (props.c), leaving the state `x`: the graph that may be returned
if there's no error and the later phases aren't killed.  Property setting doesn't report the kill flag (launch.c:70, route.c:667-668),
and it's cleared at merge.c:477.  With no vertex operation, it's an error for a class to have more than one member (merge.c:99). -/
def Merges [DecidableEq N] {X : Type} [DecidableEq X] (g : Gr N V L) (c : Partition.Classifier N X) (o : EdgeOps N L)
    (vop : Option (List N → V)) (addr : N → Nat) (hn : 0 < n) (x : Trav.Job n N (Partition.Mem N X)) (R : Gr N V L) : Prop :=
  (∀ i, x.err i = 0) ∧ ∃ y : State n N (Trav.Job n N (Mem n N)),
    Net.Reach (task g x.mem.prop c.hash c.equal hn) g.base start y ∧ y.main = .done ∧ (∀ i, y.g.err i = 0) ∧ y.g.killed = 0 ∧
    (vop = none → ∀ k ∈ classes x.mem.prop c.hash y.g, k.length ≤ 1) ∧ ∃ z : State n N (Trav.Job n N Unit),
      Net.Reach (pruning (fused g o vop addr (classes x.mem.prop c.hash y.g)) x.mem.prop c.hash hn) g.base (Trav.start ()) z ∧
      z.main = .done ∧ (∀ i, z.g.err i = 0) ∧ z.g.killed = 0 ∧
      R = collected (fused g o vop addr (classes x.mem.prop c.hash y.g)) z.g

end Cru.Merge
