import Verif.Model.SetProps
import Verif.Spec.Duplex
import Verif.Spec.Grouping

/-! # What the property of a vertex should be if it depends on incoming edges -/

namespace Cru.Partition

variable {N V L X : Type}

/-- The value of a rule for a vertex: `P` applied to the vertex, the labels and origins of all edges to it if there's a fold over those, and the labels and
termini of the edges from it. -/
def value [DecidableEq N] (c : Rule V L X) (P : V → List (L × V) → List (L × V) → Option X) (g : Gr N V L) (m : N) : Option X :=
  P (g.vertex m)
    (if c.incident then (Duplex.reversed g.out g.nodes m).map fun e => (e.1, g.vertex e.2) else [])
    ((g.out m).map fun e => (e.1, g.vertex e.2))

/-- What's assumed of the user's functions: the property raises no errors, is a function of its operands and doesn't depend on the order of incoming edges;
the predicate raises no errors, is an equivalence relation and respected by the hash. -/
structure Rule.Sound (c : Rule V L X) (P : V → List (L × V) → List (L × V) → Option X) (same : Option X → Option X → Bool) : Prop where
  prop : ∀ t v i o, c.prop t v i o = (P v i o, 0)
  order : ∀ v i i' o, i.Perm i' → P v i o = P v i' o
  equal : ∀ t x y, c.equal t x y = (same x y, 0)
  equality : IsEquality same
  respects : HashRespects c.hash same

end Cru.Partition
