import Verif.Model.Fold
import Mathlib.Data.Multiset.MapFold

/-! # Vocabulary of the fold properties -/

namespace Cru.Fold

variable {V : Type}

/-- The entry a value `r` with destructor `d` has in the logs of storage made and freed: none if it is null or
has no destructor. -/
def owned (d : Option Nat) (r : Option (Obj V)) : Multiset (Nat × Nat) :=
  match d, r with
  | some n, some o => {(o.id, n)}
  | _, _ => 0

end Cru.Fold
