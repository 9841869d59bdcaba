import Verif.Model.StretchAcc

/-! # Vocabulary for the storage in stretching -/

namespace Cru.Stretch

variable {N V L : Type}

/-- The vertices and labels in a graph. -/
def contents (g : Gr N V L) : Multiset (V ⊕ L) :=
  (g.nodes : Multiset N).bind fun m => .inl (g.vertex m) ::ₘ (((g.out m).map fun e => .inr e.1 : List (V ⊕ L)) : Multiset (V ⊕ L))

/-- The vertices and labels in the graph returned, if any. -/
def returned : Outcome V L → Multiset (V ⊕ L)
  | .ok g => contents g
  | _ => 0

end Cru.Stretch
