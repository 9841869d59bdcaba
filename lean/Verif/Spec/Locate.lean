import Verif.Spec.Graph
import Verif.Model.Locate

/-! # What it means to find a vertex -/

namespace Cru.Locate

variable {N V L : Type}

/-- A vertex `w` is the initial vertex `v` or equal to it according to the user. -/
def Matches (eq : V → V → Int × Bool) (v w : V) : Prop := w = v ∨ eq v w = (0, true)

/-- Comparing the initial vertex to the vertices in the graph raises no errors. -/
def Clear (g : Gr N V L) (eq : V → V → Int × Bool) (v : V) : Prop := ∀ m ∈ g.nodes, g.vertex m ≠ v → (eq v (g.vertex m)).1 = 0

end Cru.Locate
