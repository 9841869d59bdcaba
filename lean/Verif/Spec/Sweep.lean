import Verif.Model.Sweep

/-! # Vocabulary for what workers do at their ends (C136) -/

namespace Cru.Sweep

open Cru.Net

variable {n : Nat} {P G E X V L : Type}

/-- The steps of the system extended. -/
def nets : List (Act n E) → List (Action n E)
  | [] => []
  | .net a :: as => a :: nets as
  | .finish _ :: as => nets as

/-- The workers in the order of the code following their loops. -/
def finished : List (Act n E) → List (Fin n)
  | [] => []
  | .net _ :: as => finished as
  | .finish i :: as => i :: finished as

/-- A step of the calling thread or a worker. -/
def Moves (T : Task n P G E) (ep : Fin n → X → X) (k : Nat) (p : Option P) (s s' : St n P G X) : Prop :=
  step T ep k p (.net .main) s = some s' ∨ (∃ i, step T ep k p (.net (.worker i)) s = some s') ∨ ∃ i, step T ep k p (.finish i) s = some s'

/-- Vertices and labels of a list of nodes. -/
def objects (ms : List (Node V L)) : Multiset (V ⊕ L) :=
  ((ms.map fun m => Sum.inl m.vertex : List (V ⊕ L)) : Multiset (V ⊕ L)) +
    ((ms.flatMap fun m => m.labels.map Sum.inr : List (V ⊕ L)) : Multiset (V ⊕ L))

/-- All that's left in a port. -/
def contents (l : Left V L) : Multiset (V ⊕ L) :=
  ((l.disconnections.map Sum.inr : List (V ⊕ L)) : Multiset (V ⊕ L)) + objects l.survivors + objects l.deletions

end Cru.Sweep
