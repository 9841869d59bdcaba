import Mathlib.Logic.Function.Basic

/-!
# Classes of a partition (classes.c:367-381, 436-518)

A partition has `k` classes, allocated when it is built (`Model/Classify.lean`).  A class is a `struct cru_class_s` (classes.h)
with its `superclass` pointer and its `references` field.  The bodies of `cru_class_of` and `cru_united` from the lock to the
unlock are atomic, because they hold the lock of the partition (classes.c:456, 493).  Arguments are valid: the documentation
says that effects are undefined otherwise.

The loops that follow superclass pointers are given `fuel`; running out of it is `none`, which stands for a loop that doesn't
end.
-/

namespace Cru.Classes

/-- The classes of a partition. -/
structure Part (k : Nat) where
  sup : Fin k → Option (Fin k)
  refs : Fin k → Nat

variable {k : Nat}

/-- `while (i->superclass) i = i->superclass` (classes.c:458-459). -/
def climb (p : Part k) : Nat → Fin k → Option (Fin k)
  | 0, _ => none
  | fuel + 1, i => match p.sup i with
    | none => some i
    | some s => climb p fuel s

/-- `for (xs = 0; x->superclass; x = x->superclass) xs += x->references` (classes.c:496-499). -/
def weigh (p : Part k) : Nat → Fin k → Nat → Option (Fin k × Nat)
  | 0, _, _ => none
  | fuel + 1, x, xs => match p.sup x with
    | none => some (x, xs)
    | some s => weigh p fuel s (xs + p.refs x)

/-- `for (; (s = xl->superclass); xl = s) xl->superclass = y` (classes.c:504-505, 510-511). -/
def redirect (y : Fin k) : Nat → Fin k → Part k → Option (Part k)
  | 0, _, _ => none
  | fuel + 1, xl, p => match p.sup xl with
    | none => some p
    | some s => redirect y fuel s { p with sup := Function.update p.sup xl (some y) }

/-- `x->superclass = y` (classes.c:506, 512). -/
def link (p : Part k) (x y : Fin k) : Part k := { p with sup := Function.update p.sup x (some y) }

/-- `cru_class_of` (classes.c:451-463) for a vertex whose class was `c` when the partition was built. -/
def classOf (p : Part k) (c : Fin k) : Option (Fin k) := climb p (k + 1) c

/-- `cru_united` (classes.c:471-518). -/
def united (p : Part k) (xl yl : Fin k) : Option (Part k) := do
  let (x, xs) ← weigh p (k + 1) xl 0
  let (y, ys) ← weigh p (k + 1) yl 0
  if x = y then return p
  if xs < ys then
    let p ← redirect y (k + 1) xl p
    return link p x y
  else
    let p ← redirect x (k + 1) yl p
    return link p y x

/-- `cru_class_size` (classes.c:367-381).  Overflow of the reference count is left out. -/
def classSize (p : Part k) (c : Fin k) : Nat := p.refs c + 1

end Cru.Classes
