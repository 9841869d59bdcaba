import Verif.Spec.Build
import Verif.Spec.Graph

/-! # The graph returned by `cru_built`, as the other operations see it -/

namespace Cru.Build

variable {n : Nat} {V L : Type}

/-- The queues of the lanes are joined in order (crew.c:366-399).  Incoming edges are not made until an operation needs
them. -/
def Graph.toGr (G : Graph n V L) : Gr (NodeId n) (Option V) L where
  nodes := (List.finRange n).flatMap fun i => (List.range (G.nodes i).length).map fun k => (i, k)
  base := G.base
  vertex t := (G.at t).map GNode.vertex
  out t := ((G.at t).map fun nd => nd.edges.filterMap fun e => e.2.map fun d => (e.1, d)).getD []
  inn _ := []

end Cru.Build
