import Verif.Model.Gather
import Verif.Spec.Free

/-! # What it means to put the nodes of a graph on lists -/

namespace Cru.Gather

variable {n : Nat} {N V L : Type}

/-- Every node is on the list of its own worker once, and every label of the graph has been disposed of once or is attached to one
edge. -/
structure Gathered (g : Gr N V L) (lane : N → Fin n) (s : Job n N V L) : Prop where
  nodes : (survivors s).Perm g.nodes
  lanes : ∀ i, ∀ m ∈ s.deletions i, lane m = i
  labels : (s.labels ++ g.nodes.flatMap fun m => (s.out m).map Prod.fst).Perm (g.nodes.flatMap fun m => (g.out m).map Prod.fst)

/-- The graph has not been changed. -/
def Intact (g : Gr N V L) (s : Job n N V L) : Prop := s.out = g.out ∧ s.labels = []

end Cru.Gather
