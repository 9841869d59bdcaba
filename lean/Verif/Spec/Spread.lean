import Verif.Spec.Build
import Verif.Spec.Graph

/-!
# What spreading should do

`b` is a builder with a connector and `g` the given graph.  Nodes of the result are of any type `R`, where `old` gives the nodes that come from `g`.
No workers, packets or tables here.
-/

namespace Cru.Spread

open Build

variable {N V L R : Type}

/-- No two nodes of a graph have equal vertices, as in any graph built by `cru_built`. -/
def Distinct (b : Builder V L) (g : Gr N V L) : Prop :=
  ∀ m ∈ g.nodes, ∀ m' ∈ g.nodes, b.vEq (g.vertex m) (g.vertex m') = true → m = m'

/-- A vertex that isn't equal to any of the given graph. -/
def Novel (b : Builder V L) (g : Gr N V L) (v : V) : Prop := ∀ m ∈ g.nodes, b.vEq v (g.vertex m) = false

/-- A vertex that the connector can be called on: that of a node without outgoing edges, or one created by such a call and not equal to any in
the given graph. -/
inductive Due (b : Builder V L) (g : Gr N V L) : V → Prop
  | leaf {m} : m ∈ g.nodes → g.out m = [] → Due b g (g.vertex m)
  | novel {u l v} : Due b g u → (b.connect .whole u).1 = 0 → (l, v) ∈ (b.connect .whole u).2 → Novel b g v → Due b g v

/-- Edges `es` were passed to `cru_connect`, and the graph has the edges `fs` for them, with the same labels and equal vertices, in this order. -/
def Drawn (b : Builder V L) (r : Gr R V L) (es : List (L × V)) (fs : List (L × R)) : Prop :=
  List.Forall₂ (fun e f => f.1 = e.1 ∧ b.vEq e.2 (r.vertex f.2) = true) es fs

/-- The result of spreading the graph `g` with the connector of `b`. -/
structure Spreads (b : Builder V L) (g : Gr N V L) (old : N → R) (r : Gr R V L) : Prop where
  /-- The result is a proper graph with the same base vertex, and no two of its vertices are equal. -/
  wf : r.WF
  distinct : Distinct b r
  base : r.base = old g.base
  /-- The given nodes are all there with their vertices. -/
  inj : Function.Injective old
  vertex : ∀ m, r.vertex (old m) = g.vertex m
  kept : ∀ m ∈ g.nodes, old m ∈ r.nodes
  /-- Those having outgoing edges keep them and acquire no others. -/
  same : ∀ m ∈ g.nodes, g.out m ≠ [] → r.out (old m) = (g.out m).map fun e => (e.1, old e.2)
  /-- The others have those the connector asks for. -/
  leaf : ∀ m ∈ g.nodes, g.out m = [] → (b.connect .whole (g.vertex m)).1 = 0 ∧ Drawn b r (b.connect .whole (g.vertex m)).2 (r.out (old m))
  /-- A new vertex is one that the connector was asked to connect, and isn't equal to any in the given graph.  It has the edges the connector
  asks for, without repetitions. -/
  novel : ∀ t ∈ r.nodes, (∀ m ∈ g.nodes, t ≠ old m) → Novel b g (r.vertex t) ∧ Due b g (r.vertex t) ∧
    (b.connect .whole (r.vertex t)).1 = 0 ∧ Drawn b r (b.uniq (b.connect .whole (r.vertex t)).2) (r.out t)

/-- The number of edges that end in `m`. -/
def inDegree [DecidableEq N] (g : Gr N V L) (m : N) : Nat := ((g.nodes.flatMap g.out).map Prod.snd).count m

/-- How often the connector is called on each vertex of the result, where `calls` says how often it was. -/
structure Called [DecidableEq N] (b : Builder V L) (g : Gr N V L) (old : N → R) (r : Gr R V L) (calls : R → Nat) : Prop where
  /-- Once on each new vertex. -/
  novel : ∀ t ∈ r.nodes, (∀ m ∈ g.nodes, t ≠ old m) → calls t = 1
  /-- Never on vertices with outgoing edges. -/
  same : ∀ m ∈ g.nodes, g.out m ≠ [] → calls (old m) = 0
  /-- Once on a vertex without them, if it creates edges then. -/
  once : ∀ m ∈ g.nodes, g.out m = [] → (b.connect .whole (g.vertex m)).2 ≠ [] → calls (old m) = 1
  /-- Otherwise, once for each edge that leads there, and once more for the base node. -/
  again : ∀ m ∈ g.nodes, g.out m = [] → (b.connect .whole (g.vertex m)).2 = [] →
    calls (old m) = inDegree g m + if m = g.base then 1 else 0
  /-- And on nothing else. -/
  none : ∀ t, t ∉ r.nodes → calls t = 0

/-- The connector returns the error `e` when called on a vertex it can be called on. -/
def Raised (b : Builder V L) (g : Gr N V L) (e : Int) : Prop := e ≠ 0 ∧ ∃ v, Due b g v ∧ (b.connect .whole v).1 = e

/-- There are more than `k` new vertices, unequal to one another, with hashes that belong to the same worker out of `n`. -/
def Crowded (b : Builder V L) (g : Gr N V L) (n k : Nat) : Prop :=
  ∃ (c : Nat) (vs : List V), k < vs.length ∧ vs.Pairwise (fun v w => b.vEq v w = false) ∧
    ∀ v ∈ vs, Novel b g v ∧ b.vHash v % 1031 % n = c ∧ ∃ u l, Due b g u ∧ (l, v) ∈ (b.connect .whole u).2

/-- Among the new nodes, no more than `k` have hashes that belong to the same worker out of `n`. -/
def Fits (b : Builder V L) (g : Gr N V L) (old : N → R) (r : Gr R V L) (n k : Nat) : Prop :=
  ∀ (c : Nat) (ts : List R), ts.Nodup → (∀ t ∈ ts, t ∈ r.nodes ∧ (∀ m ∈ g.nodes, t ≠ old m) ∧ b.vHash (r.vertex t) % 1031 % n = c) → ts.length ≤ k

end Cru.Spread
