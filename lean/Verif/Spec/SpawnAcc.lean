import Verif.Model.SpawnAcc
import Verif.Spec.Request

/-! # What new nodes hold -/

namespace Cru.SpawnAcc

open Fold
open Request (Env)

variable {n : Nat} {K V : Type}

/-- The log entries of labels. -/
def heldLabels (c : Env) (ls : List (Option (Obj V))) : Multiset (Nat × Nat) := (ls.map (owned c.eFree)).sum

/-- The log entries of the vertex of a node and of the labels of its edges. -/
def Node.held (c : Env) (a : Node V) : Multiset (Nat × Nat) := owned c.vFree a.vertex + heldLabels c a.out

/-- Those of a list of nodes. -/
def held (c : Env) (as : List (Node V)) : Multiset (Nat × Nat) := (as.map (Node.held c)).sum

/-- Those of the nodes in all queues. -/
def allHeld (c : Env) (as : Fin n → List (Node V)) : Multiset (Nat × Nat) := ∑ i, held c (as i)

end Cru.SpawnAcc
