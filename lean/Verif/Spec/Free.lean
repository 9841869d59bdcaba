import Verif.Model.Free

/-! # What it means to reclaim a graph -/

namespace Cru.Free

variable {N V L : Type}

/-- Everything in the graph has been disposed of once: the storage of each node, each vertex, and each edge's label.  Nothing
was touched after having been freed. -/
structure Disposed (g : Gr N V L) (l : Log N V L) : Prop where
  nodes : l.freed.Perm g.nodes
  vertices : l.vertices.Perm (g.nodes.map g.vertex)
  labels : l.labels.Perm (g.nodes.flatMap fun m => (g.out m).map Prod.fst)
  safe : l.undef = false

/-- Nothing in the graph has been disposed of. -/
def Leaked (l : Log N V L) : Prop := l.freed = [] ∧ l.vertices = [] ∧ l.labels = []

end Cru.Free
