import Verif.Model.Infer
import Verif.Model.Fab

/-!
# Fabricators with functions left out (infer.c:652-693, repl.c:203-214)

The user's functions depend only on their operands and raise no errors.
-/

namespace Cru.Fab

open Infer

variable {V L : Type}

/-- The user's fabricators, by number.  The types of fabricated vertices and labels are those of the given ones. -/
structure Env (V L : Type) where
  vertex : Nat → V → V
  label : Nat → L → L

/-- Calling a fabricator (fab.c:76, 80): `_cru_identity_uop` returns its operand.  Others aren't filled in, and NULL isn't called
(C153). -/
def call {X : Type} (user : Nat → X → X) : Field → X → X
  | some (.user n) => user n
  | _ => id

/-- `cru_fabricated` (entry.c:256-280) with a specification as the user has given it, for a graph with the signature `s`. -/
def FabricatedBy {n : Nat} {N : Type} [DecidableEq N] (u : Env V L) (a : Fabricator) (s : Sig) (addr : N → Nat) (hn : 0 < n) (g : Gr N V L)
    (r : Except Int (Gr (Spawn.Id n) (Option V) L)) : Prop :=
  match inferredFabricator a s with
  | .error e => r = .error e
  | .ok a' => Fabricated (call u.vertex a'.vFab) (call u.label a'.eFab) addr hn g r

end Cru.Fab
