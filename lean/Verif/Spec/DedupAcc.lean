import Verif.Model.DedupAcc
import Verif.Spec.SpawnAcc

/-! # What edges hold -/

namespace Cru.DedupAcc

open Fold
open Request (Env)
open SpawnAcc (heldLabels)

variable {N V : Type}

/-- The log entries of the labels of edges. -/
def labels (c : Env) (es : List (Edge N V)) : Multiset (Nat × Nat) := heldLabels c (es.map Edge.label)

end Cru.DedupAcc
