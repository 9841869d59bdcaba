import Verif.Model.Graph
import Mathlib.Logic.Relation

/-! # Reachability and well-formed graphs -/

namespace Cru

variable {N V L : Type}

/-- `b` can be reached from `a` by following any number of arcs. -/
abbrev Reaches (out : N → List N) (a b : N) : Prop := Relation.ReflTransGen (fun x y => y ∈ out x) a b

namespace Gr

/-- The list of nodes has every node reachable from the base node, once, and nothing else. -/
structure WF (g : Gr N V L) : Prop where
  nodup : g.nodes.Nodup
  reach : ∀ m, m ∈ g.nodes ↔ Reaches (g.next false) g.base m

/-- Every outgoing edge has a reverse incoming edge with the same label, and the other way around, as often. -/
def Duplex [DecidableEq N] [DecidableEq L] (g : Gr N V L) : Prop :=
  ∀ a ∈ g.nodes, ∀ b ∈ g.nodes, ∀ l, (g.out a).count (l, b) = (g.inn b).count (l, a)

end Gr

/-- `ms` lists, once each, the nodes reachable from `a`. -/
structure Covers {N : Type} (out : N → List N) (a : N) (ms : List N) : Prop where
  nodup : ms.Nodup
  mem : ∀ m, m ∈ ms ↔ Reaches out a m

end Cru
