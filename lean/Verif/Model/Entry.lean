import Verif.Model.Build

/-!
# The entry point `cru_built` (entry.c:186-218)

Storage-failing paths (router or crew not allocated) are left out.
-/

namespace Cru.Entry

variable {n : Nat} {V L : Type}

/-- How a call ends: undefined behaviour, or a return with a graph or null, its attribute, the error code, and the
vertices the entry point itself passed to the vertex destructor. -/
inductive CallEnd (R V : Type) where
  | undefined
  | returned (graph : Option (R × Nat)) (err : Int) (destroyed : List V)

/-- The arguments of `cru_built` as seen on entry: the error left by `API_ENTRY` (entry.c:79-92), what
`_cru_inferred_builder` makes of the specification (`none` if it is a null pointer), whether the specification has a
vertex destructor, whether a vertex is a null pointer, and the attribute. -/
structure Call (V L : Type) where
  api : Int
  spec : Option (Except Int (Build.Builder V L))
  vFree : Bool
  isNull : V → Bool
  attr : Nat

/-- Label `x` (entry.c:215-217) when no graph was built. -/
def Call.giveUp {R : Type} (c : Call V L) (v₀ : V) (err : Int) : CallEnd R V :=
  .returned none err (if c.isNull v₀ = false ∧ c.vFree = true then [v₀] else [])

/-- `cru_built` (entry.c:186-218), where `build b` is what `_cru_built` returns for the inferred specification `b`: the
assignment `g->g_store = b->attribute` (entry.c:211) dereferences the pointer without a test. -/
def cruBuilt {R : Type} (c : Call V L) (v₀ : V) (build : Build.Builder V L → Except Int R) : CallEnd R V :=
  if c.api ≠ 0 then c.giveUp v₀ c.api
  else
    match c.spec with
    | none => c.giveUp v₀ 0
    | some (.error e) => c.giveUp v₀ e
    | some (.ok b) =>
      match build b with
      | .error _ => .undefined
      | .ok g => .returned (some (g, c.attr)) 0 []

end Cru.Entry
