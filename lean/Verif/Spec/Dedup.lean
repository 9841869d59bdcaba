import Verif.Model.Dedup
import Verif.Spec.Graph
import Verif.Spec.Grouping

/-! # What deduplication is supposed to do -/

namespace Cru.Dedup

variable {N V L : Type}

/-- Vertices are equal according to the user's predicate. -/
def Orders.Same (o : Orders V L) (a b : V) : Prop := (o.equal a b).1 = true

/-- What the user guarantees: equality of vertices and of labels are equivalence relations, and equal vertices have equal hashes. -/
structure Orders.Lawful (o : Orders V L) : Prop where
  vertex : IsEquality fun a b => (o.equal a b).1
  hash : HashRespects o.hash fun a b => (o.equal a b).1
  label : IsEquality o.leq

/-- The graph `r` consists of vertices of `g` that aren't equal to each other, and each edge of `r` stands for one of `g` between
equal vertices with the same label. -/
structure Fuses (o : Orders V L) (g r : Gr N V L) : Prop where
  base : r.base = g.base
  vertex : r.vertex = g.vertex
  nodes : ∀ c ∈ r.nodes, c ∈ g.nodes
  inn : ∀ c ∈ r.nodes, r.inn c = []
  reach : Covers (r.next false) r.base r.nodes
  unique : r.nodes.Pairwise fun a b => ¬ o.Same (g.vertex a) (g.vertex b)
  edge : ∀ c ∈ r.nodes, ∀ e ∈ r.out c, ∃ m ∈ g.nodes, o.Same (g.vertex m) (g.vertex c) ∧
    ∃ f ∈ g.out m, f.1 = e.1 ∧ o.Same (g.vertex f.2) (g.vertex e.2)

/-- Each vertex of `g` has an equal one in `r`, and each edge of `g` is represented exactly once in `r`. -/
structure Complete (o : Orders V L) (g r : Gr N V L) : Prop where
  nodes : ∀ m ∈ g.nodes, ∃ c ∈ r.nodes, o.Same (g.vertex m) (g.vertex c)
  edges : ∀ m ∈ g.nodes, ∀ f ∈ g.out m, ∀ c ∈ r.nodes, o.Same (g.vertex m) (g.vertex c) →
    ∃ e ∈ r.out c, o.leq e.1 f.1 = true ∧ o.Same (g.vertex f.2) (g.vertex e.2)
  once : ∀ c ∈ r.nodes, (r.out c).Pairwise fun e f => ¬ (o.leq e.1 f.1 = true ∧ o.Same (g.vertex e.2) (g.vertex f.2))

/-- The graphs that can be deduplicated properly: edges with equal labels from vertices that are to be fused lead to equal vertices, and edges with
equal labels from a vertex that isn't to be fused don't lead to different vertices that are. -/
structure Regular (o : Orders V L) (g : Gr N V L) : Prop where
  fused : ∀ a ∈ g.nodes, (∃ a' ∈ g.nodes, a' ≠ a ∧ o.Same (g.vertex a') (g.vertex a)) → ∀ b ∈ g.nodes, o.Same (g.vertex a) (g.vertex b) →
    ∀ e ∈ g.out a, ∀ f ∈ g.out b, o.leq e.1 f.1 = true → o.Same (g.vertex e.2) (g.vertex f.2)
  single : ∀ a ∈ g.nodes, (∀ b ∈ g.nodes, o.Same (g.vertex a) (g.vertex b) → b = a) →
    ∀ e ∈ g.out a, ∀ f ∈ g.out a, o.leq e.1 f.1 = true → o.Same (g.vertex e.2) (g.vertex f.2) → e.2 = f.2

end Cru.Dedup
