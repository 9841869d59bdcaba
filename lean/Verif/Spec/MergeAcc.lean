import Verif.Model.MergeAcc
import Verif.Spec.Fold

/-! # What nodes hold -/

namespace Cru.MergeAcc

open Fold

variable {V : Type}

/-- The log entries of what is in a list, if its destructor is `d`. -/
def held (d : Option Nat) (xs : List (Option (Obj V))) : Multiset (Nat × Nat) := (xs.map (owned d)).sum

/-- The log entries of the storage of a node, if the destructors of its vertex, its labels and its property are `v`, `e` and `p`. -/
def Item.held (v e p : Option Nat) (m : Item V) : Multiset (Nat × Nat) :=
  owned v m.vertex + MergeAcc.held e (labels m.out) + owned p m.prop

/-- The same for a list of nodes. -/
def storage (v e p : Option Nat) (k : List (Item V)) : Multiset (Nat × Nat) := (k.map (Item.held v e p)).sum

end Cru.MergeAcc
