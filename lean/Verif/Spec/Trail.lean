import Verif.Spec.Spread
import Verif.Spec.Words

/-! # Paths in spread graphs -/

namespace Cru.Spread

open Build

variable {N V L : Type}

/-- There's a path from one vertex to another, up to equality, spelling a word by way of edges of the given graph, and of edges that the connector makes for a vertex
it can be called on. -/
inductive Trail (b : Builder V L) (g : Gr N V L) : V → List L → V → Prop
  | nil {u v : V} : b.vEq u v = true → Trail b g u [] v
  | kept {u v : V} {m k : N} {l : L} {w : List L} : m ∈ g.nodes → b.vEq u (g.vertex m) = true → (l, k) ∈ g.out m → Trail b g (g.vertex k) w v →
      Trail b g u (l :: w) v
  | made {u u' t v : V} {l : L} {w : List L} : Due b g u' → b.vEq u u' = true → (l, t) ∈ (b.connect .whole u').2 → Trail b g t w v → Trail b g u (l :: w) v

end Cru.Spread
