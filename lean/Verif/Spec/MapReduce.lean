import Verif.Model.MapReduce
import Verif.Spec.Graph

/-! # What `cru_mapreduced` should return -/

namespace Cru.MapReduce

open Net Fold

variable {n : Nat} {N V L X : Type}

/-- The vertices of a zone (cru_zone(7)): `ms` lists, once each, those reachable from the initial one, forward or backwards. -/
structure IsZone (g : Gr N V L) (backwards : Bool) (initial : N) (ms : List N) : Prop where
  nodup : ms.Nodup
  mem : ∀ m, m ∈ ms ↔ Reaches (g.next backwards) initial m

/-- The combination of a non-empty list of values by a binary operator. -/
def combined {Y : Type} (op : Y → Y → Y) : List Y → Option Y
  | [] => none
  | y :: ys => some (ys.foldl (fun acc z => op z acc) y)

/-- Callbacks that always succeed and are functions of their operands. -/
structure Plain (o : Ops N X) (f : N → Option X) (op : Option X → Option X → Option X) : Prop where
  map : ∀ t m, o.map t m = ⟨f m, 0⟩
  red : ∀ t x y, o.red t x y = ⟨op x y, 0⟩
  comm : ∀ x y, op x y = op y x
  assoc : ∀ x y z, op (op x y) z = op x (op y z)

/-- The workers on `n` lanes can finish with `s`. -/
def Ends [DecidableEq N] (o : Ops N X) (g : Gr N V L) (backwards : Bool) (hash : N → Nat) (hn : 0 < n) (initial : N)
    (s : Job n N X) : Prop :=
  ∃ x : State n N (Job n N X), Net.Reach (task o g backwards hash hn) initial start x ∧ x.main = .done ∧ x.g = s

/-- `cru_mapreduced` with `n` lanes can return `r`: by the sequential version (entry.c:585-588) or by the workers. -/
def Returns [DecidableEq N] (o : Ops N X) (g : Gr N V L) (backwards stored : Bool) (hash : N → Nat) (hn : 0 < n) (initial : N)
    (r : Except Int (Option X)) : Prop :=
  if usesSequential g stored initial n then
    r = if (sequential o g.nodes).2.err ≠ 0 then .error (sequential o g.nodes).2.err
      else .ok ((sequential o g.nodes).1.map Obj.val)
  else ∃ s a b, Ends o g backwards hash hn initial s ∧ Outcomes o s r a b

/-- The values a callback can have passed on: the right ones in a worker's log are those returned by an earlier callback
that didn't fail. -/
def Call.good : Call N X → Option (Option X)
  | .map _ r => if r.ux = 0 then some r.val else none
  | .reduce _ _ r => if r.ux = 0 then some r.val else none

/-- The error code a callback assigned. -/
def Call.ux : Call N X → Int
  | .map _ r => r.ux
  | .reduce _ _ r => r.ux

end Cru.MapReduce
