import Verif.Model.Classes
import Mathlib.Logic.Relation
import Mathlib.Data.Fintype.Card

/-! # What uniting classes should do -/

namespace Cru.Classes

variable {k : Nat} {U : Type}

/-- A use of the API: `cru_class_of` for a vertex, or `cru_united` for the results of two earlier calls of it, given by
their positions among all of them. -/
inductive Op (U : Type) where
  | classOf (v : U)
  | united (i j : Nat)

/-- A partition with a history: the vertices that were asked for, the answers, and the pairs united. -/
structure Use (k : Nat) (U : Type) where
  part : Part k
  asked : List (U × Fin k)

/-- Do an operation; `none` if it doesn't return.  An operation on an answer not obtained before isn't possible and is
ignored. -/
def Use.step (cls : U → Fin k) (u : Use k U) : Op U → Option (Use k U)
  | .classOf v => (classOf u.part (cls v)).map fun c => { u with asked := u.asked ++ [(v, c)] }
  | .united i j => match u.asked[i]?, u.asked[j]? with
    | some x, some y => (united u.part x.2 y.2).map fun p => { u with part := p }
    | _, _ => some u

/-- Do some operations. -/
def Use.run (cls : U → Fin k) : List (Op U) → Use k U → Option (Use k U)
  | [], u => some u
  | o :: os, u => (u.step cls o).bind (Use.run cls os)

/-- The vertices asked for in the first operations. -/
def askedBy (ops : List (Op U)) : List U := ops.filterMap fun o => match o with
  | .classOf v => some v
  | .united _ _ => none

/-- Vertices `v` and `w` have been declared to belong together: they were in the same class to begin with, or `cru_united` was
called for the classes of `v` and `w` obtained before. -/
inductive Declared (cls : U → Fin k) (ops : List (Op U)) : U → U → Prop
  | initially {v w} : cls v = cls w → Declared cls ops v w
  | united {v w before i j after} : ops = before ++ .united i j :: after → (askedBy before)[i]? = some v →
      (askedBy before)[j]? = some w → Declared cls ops v w

/-- A new partition of some vertices: no class has a superclass, and the reference count of a class is one less than the number
of its vertices. -/
structure Fresh (p : Part k) (vs : List U) (cls : U → Fin k) : Prop where
  sup : ∀ c, p.sup c = none
  refs : ∀ c, p.refs c + 1 = vs.countP fun v => cls v = c

end Cru.Classes
