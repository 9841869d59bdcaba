import Verif.Model.Bag
import Verif.Model.Build

/-!
# A graph in memory, as the operations other than building see it

Nodes are identified by their addresses, of type `N`.  The hash of a node is any function of its address
(`_cru_scalar_hash`, ports.c), modelled as a parameter.
-/

namespace Cru

/-- `struct cru_graph_s` (graph.h) and its `struct node_s` list (nodes.h): the list of nodes linked by `next_node`, the base
node, and for each node its vertex and its lists of outgoing and incoming edges, an edge being its label and remote node. -/
structure Gr (N V L : Type) where
  nodes : List N
  base : N
  vertex : N → V
  out : N → List (L × N)
  inn : N → List (L × N)

namespace Gr

variable {N V L : Type}

/-- The nodes at the other ends of the edges followed by a traversal: outgoing edges, or incoming ones when backwards
(`_cru_scattered`, scatter.c:69-89; `_cru_scatter_out`, scatter.c:99-120). -/
def next (g : Gr N V L) (backwards : Bool) (m : N) : List N := (if backwards then g.inn m else g.out m).map Prod.snd

end Gr

end Cru
