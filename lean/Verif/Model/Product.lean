import Verif.Model.Infer
import Verif.Model.Cross

/-!
# Crossers with functions left out (infer.c:77-103, repl.c)

The user's functions depend only on their operands and raise no errors.
-/

namespace Cru.Cross

open Infer

variable {V V' L L' W M : Type}

/-- The user's functions of two operands, by number. -/
structure Env (V V' L L' W M : Type) where
  vprod : Nat → V → V' → W
  bpred : Nat → L → L' → Bool
  bop : Nat → L → L' → M

/-- Calling a predicate on labels: `_cru_true_bpred` (repl.c:103-112).  No others are filled in, and NULL isn't called (C153). -/
def Env.callBpred (u : Env V V' L L' W M) : Field → L → L' → Bool
  | some (.user n) => u.bpred n
  | some .trueBpred => fun _ _ => true
  | _ => fun _ _ => false

/-- Calling an operator on labels (cross.c:198).  None are filled in. -/
def Env.callBop (u : Env V V' L L' W M) : Field → Option (L → L' → M)
  | some (.user n) => some (u.bop n)
  | _ => none

/-- Calling an operator on vertices (cross.c:293).  None are filled in. -/
def Env.callVprod (u : Env V V' L L' W M) : Field → Option (V → V' → W)
  | some (.user n) => some (u.vprod n)
  | _ => none

/-- A completed specification, as it's used by `_cru_crossing_task` (cross.c:317-393), unless it needs functions that nobody has given. -/
def Env.crosser (u : Env V V' L L' W M) (c : Infer.Crosser) (vertexLimit : Nat) : Option (Crosser V V' L L' W M) :=
  match u.callVprod c.vProd, u.callBop c.bop with
  | some vp, some op => some ⟨vp, u.callBpred c.bpred, op, vertexLimit⟩
  | _, _ => none

/-- `cru_crossed` (entry.c:227-248) with a specification as the user has given it, of graphs that aren't empty and may be the same. -/
def CrossedBy {n : Nat} {N : Type} [DecidableEq N] (u : Env V V' L L' W M) (c : Infer.Crosser) (vertexLimit : Nat) (addr : N → Nat) (hn : 0 < n)
    (g : Gr N V L) (h : Gr N V' L') (r : Except Int (Gr (Spawn.Id n) (Option W) M)) : Prop :=
  match inferredCrosser c with
  | .error e => r = .error e
  | .ok c' => ∃ x, u.crosser c' vertexLimit = some x ∧ Crossed x addr hn g h r

end Cru.Cross
