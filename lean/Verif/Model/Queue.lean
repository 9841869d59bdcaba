import Mathlib.Data.List.Basic
import Mathlib.Logic.Function.Basic
import Verif.Model.Errs

/-!
# Node queues and their union (queue.c, crew.c:365-399)

Nodes and their links are modelled as memory: each node has a next node and the address of the pointer to it, which is either
the front of a queue or the next node field of another.  Simplifications: memory is not exhausted, and threads are joined
without error, so the results of a crew are given as the list of the queues they return, in the order of the crew.
-/

namespace Cru.Queue

variable {N : Type} [DecidableEq N]

/-- An address of a pointer to a node: the front of a queue, or the next node field of a node. -/
inductive Slot (N : Type)
  | front (queue : Nat)
  | next (node : N)
  deriving DecidableEq

/-- The fields `next_node` and `previous` of all nodes (nodes.h). -/
structure Heap (N : Type) where
  next : N → Option N
  prev : N → Option (Slot N)

/-- `node_queue_s` (queue.h:34-40), and the address of it. -/
structure Queue (N : Type) where
  id : Nat
  front : Option N
  back : Option N
  status : Int
  basic : Bool

/-- Assignment to `next_node`. -/
def Heap.setNext (h : Heap N) (n : N) (x : Option N) : Heap N := { h with next := Function.update h.next n x }

/-- Assignment to `previous`. -/
def Heap.setPrev (h : Heap N) (n : N) (x : Option (Slot N)) : Heap N := { h with prev := Function.update h.prev n x }

/-- The loop at queue.c:51-52.  The number of iterations is limited by a parameter, which is at least the length of the list
wherever this function is used in a theorem. -/
def walk (h : Heap N) : Nat → N → N
  | 0, n => n
  | k + 1, n =>
    match h.next n with
    | none => n
    | some m => walk h k m

/-- `_cru_queue_of` (queue.c:36-54), with the new queue allocated at a given address. -/
def queueOf (fuel id : Nat) (n : Option N) (err : Int) (h : Heap N) : Heap N × Queue N × Int :=
  match n with
  | none => (h, ⟨id, none, none, err, false⟩, 0)
  | some a => (h.setPrev a (some (.front id)), ⟨id, some a, some (walk h fuel a), err, false⟩, 0)

/-- `_cru_nodes_of` (queue.c:63-80). -/
def nodesOf (q : Option (Queue N)) (err : Int) (h : Heap N) : Heap N × Option N × Int :=
  match q with
  | none => (h, none, err)
  | some q =>
    match q.front with
    | none => (h, none, Errs.raise err q.status)
    | some a => (h.setPrev a none, some a, Errs.raise err q.status)

/-- `_cru_enqueued_node` (queue.c:115-144), with a new queue if any allocated at a given address.  The Boolean tells success. -/
def enqueued (id : Nat) (n : N) (q : Option (Queue N)) (err : Int) (h : Heap N) : Heap N × Option (Queue N) × Int × Bool :=
  if (h.next n).isSome then (h, q, Errs.raise err (-1426), false)
  else if (h.prev n).isSome then (h, q, Errs.raise err (-1427), false)
  else
    let q := q.getD ⟨id, none, none, 0, false⟩
    if q.front.isNone ≠ q.back.isNone then (h, some q, Errs.raise err (-1428), false)
    else match q.back with
      | some b =>
        if (h.next b).isSome then (h, some q, Errs.raise err (-1429), false)
        else ((h.setPrev n (some (.next b))).setNext b (some n), some { q with back := some n }, err, true)
      | none => (h.setPrev n (some (.front q.id)), some { q with front := some n, back := some n }, err, true)

/-- `_cru_append_nodes` (queue.c:154-185). -/
def append (q r : Option (Queue N)) (err : Int) (h : Heap N) : Heap N × Option (Queue N) × Int × Bool :=
  match r, q with
  | none, q => (h, q, err, true)
  | some r, none => (h, some r, err, true)
  | some r, some q =>
    if r.front.isNone ≠ r.back.isNone then (h, some q, Errs.raise err (-1431), false)
    else if q.front.isNone ≠ q.back.isNone then (h, some q, Errs.raise err (-1432), false)
    else
      let q := { q with status := if q.status ≠ 0 then q.status else r.status }
      match r.front, r.back, q.front, q.back with
      | some rf, some rb, some _, some qb =>
        if (h.next rb).isSome then (h, some q, Errs.raise err (-1433), false)
        else if (h.next qb).isSome then (h, some q, Errs.raise err (-1434), false)
        else if h.prev rf ≠ some (.front r.id) then (h, some q, Errs.raise err (-1435), false)
        else ((h.setNext qb (some rf)).setPrev rf (some (.next qb)), some { q with back := some rb }, err, true)
      | rf, rb, qf, qb =>
        let q := { q with front := qf.or rf, back := qb.or rb }
        match q.front with
        | none => (h, some q, err, true)
        | some f => (h.setPrev f (some (.front q.id)), some q, err, true)

/-- Part of the state of `_cru_node_union`. -/
structure Union (N : Type) where
  heap : Heap N
  queue : Option (Queue N)
  base : Option N
  hit : Bool
  err : Int

/-- One iteration of the loop at crew.c:388-396, for the queue from the `i`-th worker.  `baseBay` is none if there is no base. -/
def unionStep (baseBay : Option Nat) (i : Nat) (r : Option (Queue N)) (u : Union N) : Union N :=
  match r with
  | none => u
  | some r =>
    let u := match baseBay with
      | none => u
      | some j =>
        if r.basic || i == j then
          if u.hit then
            { u with base := r.front, err := Errs.raise u.err (-746) }
          else { u with base := r.front, hit := true }
        else u
    let a := append u.queue (some r) u.err u.heap
    { u with heap := a.1, queue := a.2.1, err := a.2.2.1 }

/-- The loop. -/
def unionLoop (baseBay : Option Nat) : Nat → List (Option (Queue N)) → Union N → Union N
  | _, [], u => u
  | i, r :: rs, u => unionLoop baseBay (i + 1) rs (unionStep baseBay i r u)

/-- `_cru_node_union` (crew.c:365-399): the memory, the first node, the base node and the error. -/
def nodeUnion (baseBay : Option Nat) (rs : List (Option (Queue N))) (err : Int) (h : Heap N) :
    Heap N × Option N × Option N × Int :=
  let u := unionLoop baseBay 0 rs ⟨h, none, none, false, err⟩
  let r := nodesOf u.queue u.err u.heap
  (r.1, r.2.1, u.base, r.2.2)

end Cru.Queue
