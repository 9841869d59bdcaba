import Verif.Model.BuildAcc
import Verif.Spec.DedupAcc

/-! # What packets and vertices hold -/

namespace Cru.BuildAcc

open Fold
open Request (Env)
open SpawnAcc (allHeld)

variable {n : Nat} {V : Type}

/-- The log entry of the vertex in a packet. -/
def Pkt.held (c : Env) : Pkt V → Multiset (Nat × Nat)
  | .fresh v _ => owned c.vFree v
  | .known _ _ _ => 0

/-- Those of packets. -/
def inFlight (c : Env) (m : Multiset (Pkt V)) : Multiset (Nat × Nat) := (m.map (Pkt.held c)).sum

/-- The log entries of vertices to which nothing refers. -/
def leaked (c : Env) (vs : List (Option (Obj V))) : Multiset (Nat × Nat) := (vs.map (owned c.vFree)).sum

/-- The log entries of everything in the lists, queues and packets, or to which nothing refers. -/
def outstanding (c : Env) (s : Job n V) (m : Multiset (Pkt V)) : Multiset (Nat × Nat) :=
  allHeld c s.nodes + allHeld c s.given + inFlight c m + leaked c s.lost

end Cru.BuildAcc
