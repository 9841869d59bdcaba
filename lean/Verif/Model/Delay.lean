import Verif.Model.Infer
import Verif.Model.Postpone
import Verif.Model.Closure

/-!
# Postponers with functions left out (infer.c:612-642, repl.c)

Labels are scalars.  The user's functions depend only on their operands and raise no errors.
-/

namespace Cru.Postpone

open Infer

variable {V L : Type}

/-- The user's functions, by number. -/
structure Env (V L : Type) where
  tpred : Nat → Option V → L → Option V → Bool
  bpred : Nat → L → L → Bool
  bop : Nat → L → L → L

/-- Calling the predicate `postponable` (postpone.c:76).  None is filled in. -/
def Env.callTpred (u : Env V L) : Field → Option V → L → Option V → Bool
  | some (.user n) => u.tpred n
  | _ => fun _ _ _ => false

/-- Calling a predicate on labels: `_cru_true_bpred` (repl.c:103-112) and `_cru_equality_bpred` (repl.c:119-128).  Others aren't filled in,
and NULL isn't called (C153). -/
def Env.callBpred [DecidableEq L] (u : Env V L) : Field → L → L → Bool
  | some (.user n) => u.bpred n
  | some .trueBpred => fun _ _ => true
  | some .equalityBpred => Compose.scalarEqual
  | _ => fun _ _ => false

/-- Calling an operator on labels: `_cru_identity_bop` returns its left operand (repl.c:245-255).  Others aren't filled in, and NULL isn't
called (C153). -/
def Env.callBop (u : Env V L) : Field → L → L → L
  | some (.user n) => u.bop n
  | some .identityBop => fun x _ => x
  | _ => fun _ y => y

/-- A completed specification, as it's used by `postpone` (postpone.c:130-162). -/
def Env.postponer [DecidableEq L] (u : Env V L) (p : Infer.Postponer) (fix : Bool) : Postponer V L :=
  ⟨u.callTpred p.postponable, u.callBpred p.bpred, u.callBop p.bop, fix⟩

/-- `cru_postponed` (entry.c:990-1018) with a specification as the user has given it, for a half duplex graph with the signature `s`, as in
`Postpones` unless it's rejected. -/
def PostponedBy {n : Nat} {N : Type} [DecidableEq N] [DecidableEq L] (u : Env V L) (p : Infer.Postponer) (s : Sig) (fix : Bool) (addr : N → Nat) (hn : 0 < n)
    (g : Gr N V L) (M : Mem N V L) (ks : List (Nat × Nat)) (err : Int) : Prop :=
  match inferredPostponer p s with
  | .error e => err = e
  | .ok r => Postpones (u.postponer r.1 fix) (u.callBpred r.2.eOrder.equal) addr hn g M ks err

end Cru.Postpone
