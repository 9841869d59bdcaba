import Verif.Model.Resource

/-!
# What an operation needs from the system, and what it owns

Stated without reference to the order of anything but the requests.
-/

namespace Cru.Resource

/-- The code reported if a request for memory is refused: always `ENOMEM`. -/
def memoryCode : Int → Int := fun _ => 12

/-- The code reported if a mutex is refused with the code `e`: `ENOMEM`, `EAGAIN` or `EPERM` if it's one of them. -/
def mutexCode (e : Int) : Int := if e ∈ [12, 11, 1] then e else -797

/-- The code reported if a condition is refused with the code `e`: `ENOMEM` or `EAGAIN` if it's one of them. -/
def condCode (e : Int) : Int := if e ∈ [12, 11] then e else -798

/-- The code reported if a read-write lock in a port is refused: an internal error. -/
def rwlockCode : Int → Int := fun _ => -1315

/-- The requests made for an operation with `n` workers: for the router with its lock and condition and two arrays, and for each worker
a port with two locks, a condition, and a pod in two blocks. -/
def requests (n : Nat) : List (Int → Int) :=
  [memoryCode, mutexCode, condCode, memoryCode, memoryCode] ++
    (List.replicate n [memoryCode, mutexCode, condCode, rwlockCode, memoryCode, memoryCode]).flatten

/-- The code reported for a sequence of requests from time `t` on: that of the first one refused, or zero. -/
def verdict (sys : Nat → Int) : Nat → List (Int → Int) → Int
  | _, [] => 0
  | t, c :: l => if sys t = 0 then verdict sys (t + 1) l else c (sys t)

/-- What a pod owns. -/
def Pod.owns (p : Pod) : Multiset Res := {⟨p.id, .memory⟩, ⟨p.pod, .memory⟩}

/-- What a port owns. -/
def Port.owns (p : Port) : Multiset Res :=
  {⟨p.id, .memory⟩, ⟨p.id, .mutex⟩, ⟨p.id, .cond⟩, ⟨p.id, .rwlock⟩} + p.peers.owns

/-- What a place in the array of ports owns. -/
def slotOwns : Option Port → Multiset Res
  | none => 0
  | some p => p.owns

/-- What a router owns. -/
def Router.owns (r : Router) : Multiset Res :=
  {⟨r.id, .memory⟩, ⟨r.id, .mutex⟩, ⟨r.id, .cond⟩} +
    (match r.threads with
      | none => 0
      | some t => {⟨t, .memory⟩}) +
    match r.ports with
      | none => 0
      | some (a, ps) => ⟨a, .memory⟩ ::ₘ (ps.map slotOwns).sum

/-- A router is complete for `n` workers: it has both arrays, and a port for each of them, which has room for packets to each of
them. -/
def Router.Complete (n : Nat) (r : Router) : Prop :=
  r.lanes = n ∧ r.threads.isSome ∧ ∃ a ps, r.ports = some (a, ps) ∧ ps.length = n ∧
    ∀ i (h : i < ps.length), ∃ p, ps[i] = some p ∧ p.own = i ∧ p.peers.arity = n

/-- The first of a list of error codes that isn't zero. -/
def firstOf : List Int → Int
  | [] => 0
  | e :: l => if e ≠ 0 then e else firstOf l

/-- What comes of a stage. -/
def Stage.run : Stage → Run
  | .shared x => x
  | .plain x => x
  | .extra x => x

/-- Whether a stage uses the operation's own router rather than another. -/
def Stage.own : Stage → Bool
  | .extra _ => false
  | _ => true

/-- Whether the latest stage that used the operation's own router was killed. -/
def killedLast (l : List Stage) : Bool := (l.filter Stage.own).getLast?.any fun s => s.run.killed

/-- What a partition owns. -/
def Partition.owns (p : Partition) : Multiset Res := {⟨p.id, .memory⟩, ⟨p.id, .rwlock⟩, ⟨p.maps, .memory⟩}

end Cru.Resource
