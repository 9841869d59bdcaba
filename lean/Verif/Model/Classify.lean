import Verif.Model.Trav
import Verif.Model.Table

/-!
# Partitions (classes.c:157-214, 231-349, 367-381, 436-463)

`prop` is the property of each node, computed beforehand (`_cru_set_properties`, `Model/Props.lean`).  A class is identified
with the node it was allocated for: allocation gives a new address each time.  `eq t x y` is the result of the user's predicate
when called at time `t`, with the error it raises.  Vertex maps are those without Judy arrays (`Model/Table.lean`), which behave
as those with if vertices are distinct.  Allocation failures and overflow of reference counts are left out.
-/

namespace Cru.Classify

open Net

variable {n : Nat} {N V L P : Type}

/-- The collision tables and the vertex maps of the workers, the reference counts of classes, and the time. -/
structure Mem (n : Nat) (N V : Type) where
  collisions : Fin n → Nat → List N
  maps : Fin n → List (V × N)
  refs : N → Nat
  clock : Nat

/-- Search the bin for a node with an equal property (classes.c:240-242, 286-287): the node if any, the time, and the error.
The predicate isn't called for identical properties.  If it raises an error, `FAILED` (errs.h:56) gives zero, so the search
ends there. -/
def search [DecidableEq P] (prop : N → P) (eq : Nat → P → P → Bool × Int) (m : N) : List N → Nat → Option N × Nat × Int
  | [], t => (none, t, 0)
  | r :: rs, t =>
    if prop m = prop r then (some r, t, 0)
    else
      let x := eq t (prop m) (prop r)
      if x.2 ≠ 0 then (some r, t + 1, x.2)
      else if x.1 then (some r, t + 1, 0)
      else search prop eq m rs (t + 1)

/-- What is done with a node (classes.c:284-297): a node with a property not met before gets a new class and is added to the
bin.  Another gets a shared copy of the class of the node with the equal property; with no such class it gets none. -/
def visit [DecidableEq V] [DecidableEq P] (vertex : N → V) (prop : N → P) (hash : P → Nat) (eq : Nat → P → P → Bool × Int)
    [DecidableEq N] (i : Fin n) (s : Mem n N V) (m : N) : Mem n N V × Int :=
  let bin := s.collisions i (hash (prop m))
  let x := search prop eq m bin s.clock
  match x.1 with
  | none =>
    let a := Table.associateNj (s.maps i) (vertex m) m
    ({ s with
        collisions := Function.update s.collisions i (Function.update (s.collisions i) (hash (prop m)) (bin ++ [m]))
        maps := Function.update s.maps i a.1
        refs := Function.update s.refs m 0
        clock := x.2.1 }, x.2.2)
  | some r =>
    match Table.imageNj (vertex r) (s.maps i) with
    | none => ({ s with clock := x.2.1 }, x.2.2)
    | some c =>
      let a := Table.associateNj (s.maps i) (vertex m) c
      ({ s with
          maps := Function.update s.maps i a.1
          refs := Function.update s.refs c (if a.2.isSome then s.refs c else s.refs c + 1)
          clock := x.2.1 }, x.2.2)

/-- `classifying_task` (classes.c:231-305).  Nodes go to the lane given by the hashes of their properties
(`_cru_scattered_by_hashes`, scatter.c:214-245; launch.c:107-108). -/
def task [DecidableEq N] [DecidableEq V] [DecidableEq P] (g : Gr N V L) (prop : N → P) (hash : P → Nat)
    (eq : Nat → P → P → Bool × Int) (hn : 0 < n) : Task n N (Trav.Job n N (Mem n N V)) Unit :=
  Trav.task (g.next false) (visit g.vertex prop hash eq) (fun m => hash (prop m)) hn

def start : Trav.Job n N (Mem n N V) := Trav.start ⟨fun _ _ => [], fun _ => [], fun _ => 0, 0⟩

/-- `cru_class_of` (classes.c:436-463) before any classes are united: the maps are searched in turn. -/
def classOf [DecidableEq V] (s : Mem n N V) (v : V) : Option N :=
  (List.finRange n).findSome? fun i => Table.imageNj v (s.maps i)

/-- `cru_class_size` (classes.c:367-381). -/
def classSize (s : Mem n N V) (c : N) : Nat := s.refs c + 1

/-- What `_cru_partition_of` returns when the properties have been set and the workers have finished: `_cru_status_launched`
is non-zero if the initial packet was sent (launch.c:108, 114), whatever the errors, so the partition is returned
(classes.c:342-344) along with the error of a worker, if any, or the one for the kill flag (route.c:688-690). -/
def returned (s : Trav.Job n N (Mem n N V)) (err : Int) : Option (Mem n N V) × Int :=
  (some s.mem, if err ≠ 0 then err else if s.killed ≠ 0 then Build.intKil else 0)

end Cru.Classify
