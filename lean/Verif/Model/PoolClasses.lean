import Verif.Model.Pool
import Verif.Model.Classes

/-!
# Classes of a partition used by several threads, one access of memory at a time (classes.c:436-518)

What `cru_class_of` and `cru_united` do to the fields `superclass` of classes, in terms of the machine in `Model/Pool.lean`, where the only
lock is the one of the partition, its field `loch`, and the address of a field is given by its class.

Left out: the vertex maps (classes.c:451-453) and the fields `references` and `classed`, which aren't written while there's a partition;
errors of the lock, which are internal errors; invalid arguments, which have undefined effects according to the documentation.  A field
that's loaded both for the condition of a loop and for its next round (classes.c:458-459, 496-499) is loaded just once here.
-/

namespace Cru.PoolClasses

open Cru.Pool Cru.Classes

variable {k : Nat} {U : Type}

/-- A thread, where `none` is the null pointer. -/
abbrev Thread (k : Nat) := Code (Fin k) (Option (Fin k)) Unit

/-- `while (i->superclass) i = i->superclass` (classes.c:458-459).  Without fuel the thread stops, and never releases the lock. -/
def climb : Nat → Fin k → (Fin k → Thread k) → Thread k
  | 0, _, _ => .done
  | fuel + 1, i, K => .load i fun
    | none => K i
    | some s => climb fuel s K

/-- `for (xs = 0; x->superclass; x = x->superclass) xs += x->references` (classes.c:496-499). -/
def weigh (refs : Fin k → Nat) : Nat → Fin k → Nat → (Fin k → Nat → Thread k) → Thread k
  | 0, _, _, _ => .done
  | fuel + 1, x, xs, K => .load x fun
    | none => K x xs
    | some s => weigh refs fuel s (xs + refs x) K

/-- `for (; (s = xl->superclass); xl = s) xl->superclass = y` (classes.c:504-505, 510-511). -/
def redirect (y : Fin k) : Nat → Fin k → Thread k → Thread k
  | 0, _, _ => .done
  | fuel + 1, xl, K => .load xl fun
    | none => K
    | some s => .store xl (some y) (redirect y fuel s K)

/-- `cru_class_of` (classes.c:456-462) for a vertex whose class was `c` when the partition was built. -/
def classOf (c : Fin k) (K : Fin k → Thread k) : Thread k :=
  .rdlock () <| climb (k + 1) c fun r => .unlock () (K r)

/-- `cru_united` (classes.c:493-517). -/
def united (refs : Fin k → Nat) (xl yl : Fin k) (K : Thread k) : Thread k :=
  .wrlock () <| weigh refs (k + 1) xl 0 fun x xs => weigh refs (k + 1) yl 0 fun y ys =>
    if x = y then .unlock () K
    else if xs < ys then redirect y (k + 1) xl (.store x (some y) (.unlock () K))
    else redirect x (k + 1) yl (.store y (some x) (.unlock () K))

/-- What a thread of the user does with the partition: calls of `cru_class_of` for vertices, whose results may affect what's done then, and
calls of `cru_united`. -/
inductive Prog (k : Nat) (U : Type) where
  | done
  | classOf (v : U) (next : Fin k → Prog k U)
  | united (x y : Fin k) (next : Prog k U)

variable (cls : U → Fin k) (refs : Fin k → Nat)

/-- The same in terms of memory, where `cls` gives the class each vertex was in when the partition was built. -/
def compile : Prog k U → Thread k
  | .done => .done
  | .classOf v next => classOf (cls v) fun r => compile (next r)
  | .united x y next => united refs x y (compile next)

/-- Several threads, and a partition. -/
def start (progs : List (Prog k U)) (p : Part k) : State (Fin k) (Option (Fin k)) Unit := Pool.init (progs.map (compile cls p.refs)) p.sup

end Cru.PoolClasses
