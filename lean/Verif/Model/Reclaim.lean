import Verif.Model.Table
import Mathlib.Logic.Function.Basic
import Mathlib.Data.List.Perm.Basic
import Mathlib.Data.List.FinRange

/-!
# The memory of classes in a partition (classes.c:157-214, 284-298, 392-427; table.c:669-728; emu.c:303-351)

Classes are numbered in the order of their allocation.  `dead` lists those that have been freed, and `bad` tells whether a class was
used or freed after that, which is undefined behaviour.  Any of the allocations may fail.  Classes are made and copied in any order by
workers, each with its own map, and united in any way when the partition is finished.  Overflow of reference counts is left out.
-/

namespace Cru.Reclaim

variable {n : Nat} {V : Type} [DecidableEq V]

/-- The number of classes allocated, their `references` and `superclass` fields (classes.h:49-55), the vertex maps, the classes freed, and
whether a freed one was used. -/
structure Heap (n : Nat) (V : Type) where
  next : Nat
  refs : Nat → Nat
  sup : Nat → Option Nat
  maps : Fin n → List (V × Nat)
  dead : List Nat
  bad : Bool

def empty : Heap n V := ⟨0, fun _ => 0, fun _ => none, fun _ => [], [], false⟩

/-- `_cru_free_class` (classes.c:178-191). -/
def freeClass (h : Heap n V) (c : Nat) : Heap n V :=
  if c ∈ h.dead then { h with bad := true }
  else if h.refs c ≠ 0 then { h with refs := Function.update h.refs c (h.refs c - 1) }
  else { h with dead := c :: h.dead }

/-- `new_class` (classes.c:157-170), if there is enough memory. -/
def newClass (h : Heap n V) : Heap n V × Nat :=
  ({ h with next := h.next + 1, refs := Function.update h.refs h.next 0 }, h.next)

/-- `copied_class` (classes.c:201-214). -/
def copiedClass (h : Heap n V) (c : Nat) : Heap n V :=
  if c ∈ h.dead then { h with bad := true } else { h with refs := Function.update h.refs c (h.refs c + 1) }

/-- `_cru_associate` (table.c:702-728, emu.c:327-351), where `store` tells whether there is enough memory for an entry.  The class is freed
if there isn't, or if the vertex has a class already. -/
def associate (h : Heap n V) (i : Fin n) (v : V) (c : Nat) (store : Bool) : Heap n V :=
  if c ∈ h.dead then { h with bad := true }
  else if store && (Table.imageNj v (h.maps i)).isNone then { h with maps := Function.update h.maps i (h.maps i ++ [(v, c)]) }
  else freeClass h c

/-- What is done to classes by the workers, and by `cru_united`. -/
inductive Act (n : Nat) (V : Type)
  /-- A vertex with a property not met before (classes.c:292), and whether the two allocations succeed. -/
  | first (i : Fin n) (v : V) (alloc store : Bool)
  /-- A vertex with the same property as another (classes.c:297), and whether the map of the latter can be searched (table.c:656) and
  the former stored. -/
  | again (i : Fin n) (v u : V) (look store : Bool)
  /-- A write to a superclass field (classes.c:505-506, 511-512). -/
  | unite (x y : Nat)

def act (h : Heap n V) : Act n V → Heap n V
  | .first i v alloc store =>
    if alloc then associate (newClass h).1 i v (newClass h).2 store else h
  | .again i v u look store =>
    match if look then Table.imageNj u (h.maps i) else none with
    | none => h
    | some c => associate (copiedClass h c) i v c store
  | .unite x y => { h with sup := Function.update h.sup x (some y), bad := h.bad || decide (x ∈ h.dead) || decide (y ∈ h.dead) }

/-- `cru_free_partition` (classes.c:392-427), in the background (classes.c:112-141) or not: the entries of all maps are visited in some
order, which depends on addresses (table.c:669-694, emu.c:303-317). -/
def Frees (h : Heap n V) (h' : Heap n V) : Prop :=
  ∃ l : List (V × Nat), l.Perm ((List.finRange n).flatMap h.maps) ∧ h' = l.foldl (fun h x => freeClass h x.2) h

/-- Classes written to by `cru_united` are those of vertices in the partition. -/
def Proper (h : Heap n V) : Act n V → Prop
  | .unite x y => (∃ i, ∃ e ∈ h.maps i, e.2 = x) ∧ ∃ i, ∃ e ∈ h.maps i, e.2 = y
  | _ => True

/-- Any history. -/
inductive History : Heap n V → Prop
  | empty : History empty
  | act {h} (a : Act n V) : History h → Proper h a → History (act h a)

end Cru.Reclaim
