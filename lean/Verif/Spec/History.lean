import Verif.Spec.Duplex

/-! # What's true of every graph -/

namespace Cru.History

variable {N V L : Type}

/-- Either no node has incoming edges, or all nodes have exactly the reverse edges of those leading to them. -/
structure Paired (g : Gr N V L) : Prop where
  ends : ∀ [DecidableEq N], (∀ m ∈ g.nodes, g.inn m = []) ∨ Duplex.Exact g g.inn

end Cru.History
