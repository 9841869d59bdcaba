import Verif.Model.Infer
import Verif.Model.Compose

/-!
# Compositions with functions left out (infer.c:173-201, repl.c)

Labels are scalars, and properties are of any type.  The user's functions depend only on their operands and raise no errors.
-/

namespace Cru.Compose

open Infer

variable {P L : Type}

/-- The user's functions of four operands, by number. -/
structure Env (P L : Type) where
  qpred : Nat → P → L → P → L → Bool
  qop : Nat → P → L → P → L → L

/-- Calling a predicate: `_cru_true_qpred` (repl.c:162-172).  Others aren't of this type, and NULL isn't called (C153). -/
def Env.callQpred (u : Env P L) : Field → P → L → P → L → Bool
  | some (.user n) => u.qpred n
  | some .trueQpred => fun _ _ _ _ => true
  | _ => fun _ _ _ _ => false

/-- Calling an operator: `_cru_identity_qop` returns its second operand (repl.c:395-408).  Others aren't of this type, and NULL isn't called (C153). -/
def Env.callQop (u : Env P L) : Field → P → L → P → L → L
  | some (.user n) => u.qop n
  | some .identityQop => fun _ x _ _ => x
  | _ => fun _ _ _ z => z

/-- A completed specification, as it's used by `compose` (compose.c:222-228). -/
def Env.composer (u : Env P L) (c : Infer.Composer) (destructive fix : Bool) : Composer P L :=
  ⟨u.callQpred c.qpred, u.callQop c.qop, destructive, fix⟩

/-- `_cru_equality_bpred` (repl.c:120-128), which is the order inferred for scalars. -/
def scalarEqual [DecidableEq L] (a b : L) : Bool := decide (a = b)

end Cru.Compose
