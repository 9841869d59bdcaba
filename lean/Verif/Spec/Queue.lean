import Verif.Model.Queue

/-!
# Lists in memory
-/

namespace Cru.Queue

variable {N : Type}

/-- The nodes of the list are linked in order, forward by their next node fields, the last of which is NULL, and backward by
the addresses of the pointers to them, the first of which is given. -/
def Linked (h : Heap N) : Option (Slot N) → List N → Prop
  | _, [] => True
  | p, n :: l => h.prev n = p ∧ h.next n = l.head? ∧ Linked h (some (.next n)) l

/-- A queue of the given nodes, all different. -/
structure IsQueue (h : Heap N) (q : Queue N) (l : List N) : Prop where
  front : q.front = l.head?
  back : q.back = l.getLast?
  nodup : l.Nodup
  linked : Linked h (some (.front q.id)) l

/-- A free-standing list of the given nodes, all different. -/
structure IsList (h : Heap N) (first : Option N) (l : List N) : Prop where
  first : first = l.head?
  nodup : l.Nodup
  linked : Linked h none l

/-- Two states of memory agree on nodes other than those given. -/
def SameElsewhere (l : List N) (h h' : Heap N) : Prop := ∀ n, n ∉ l → h'.next n = h.next n ∧ h'.prev n = h.prev n

/-- The queues returned by a crew, of which some may be NULL, and the nodes in them. -/
structure AreQueues (h : Heap N) (rs : List (Option (Queue N))) (ls : List (List N)) : Prop where
  each : List.Forall₂ (fun r l => match r with | none => l = [] | some r => IsQueue h r l) rs ls
  disjoint : ls.flatten.Nodup

/-- The first of some error codes that is not zero. -/
def firstError : List Int → Int
  | [] => 0
  | e :: l => if e ≠ 0 then e else firstError l

/-- The status of a queue, zero for NULL. -/
def statusOf (r : Option (Queue N)) : Int := (r.map (·.status)).getD 0

/-- The front of a queue. -/
def frontOf (r : Option (Queue N)) : Option N := r.bind (·.front)

end Cru.Queue
