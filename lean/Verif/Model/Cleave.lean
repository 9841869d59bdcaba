import Verif.Model.Repl
import Verif.Model.Split

/-!
# Splitters with functions left out (infer.c:238-272, repl.c)

Vertices, labels and properties are words; NULL is zero.  The user's functions depend only on their operands and raise no errors.
-/

namespace Cru.Repl

open Infer

/-- The user's predicates, by number. -/
structure Preds where
  bpred : Nat → Word → Word → Bool
  tpred : Nat → Word → Word → Word → Bool

/-- Calling the predicate `fissile` (split.c:96): `_cru_true_bpred` (repl.c:103-112).  Others aren't filled in, and NULL isn't called (C153). -/
def Preds.callBpred (q : Preds) : Field → Word → Word → Bool
  | some (.user n) => q.bpred n
  | some .trueBpred => fun _ _ => true
  | _ => fun _ _ => false

/-- Calling the predicate of a labeler (split.c:123-126, 191-194): `_cru_true_tpred` (repl.c:140-150).  Others aren't filled in, and NULL isn't
called (C153). -/
def Preds.callTpred (q : Preds) : Field → Word → Word → Word → Bool
  | some (.user n) => q.tpred n
  | some .trueTpred => fun _ _ _ => true
  | _ => fun _ _ _ => false

/-- The result of calling an operator, or NULL after an error. -/
def value : Except Int Word → Word
  | .ok w => w
  | .error _ => 0

/-- Calling `ana` or `cata` (split.c:102, 112).  NULL isn't called (C153). -/
def opOf (u : Env) (f : Field) (v p : Word) : Word := f.elim 0 fun b => value (u.callBop b v p)

/-- A labeler (split.c:123-126, 191-194). -/
def labelerOf (u : Env) (q : Preds) (c : Ctop) : Split.Labeler Word Word :=
  ⟨q.callTpred c.tpred, fun p l r => c.top.elim 0 fun t => value (u.callTop t p l r)⟩

/-- A completed specification as it's used by the tasks in split.c.  Simplification: an error in the property, which only an undefined
vacuous case can raise, is left out. -/
def splitterOf (u : Env) (q : Preds) (x : Infer.Splitter) : Split.Splitter Word Word Word where
  fissile := q.callBpred x.fissile
  ana := opOf u x.ana
  cata := opOf u x.cata
  outAna := labelerOf u q x.outAna
  outCata := labelerOf u q x.outCata
  inAna := labelerOf u q x.inAna
  inCata := labelerOf u q x.inCata
  probe v ins outs := value (mappedNode u x.prop v ins outs)

/-- `cru_split` (entry.c:723-745) with a specification as the user has given it, and the given limit on the number of vertices, for a graph
with the signature `s`. -/
def SplitBy {n : Nat} {N : Type} [DecidableEq N] (u : Env) (q : Preds) (x : Infer.Splitter) (s : Sig) (limit : Nat) (g : Gr N Word Word)
    (addr : Split.Twin N → Nat) (hn : 0 < n) (k₁ k₂ k₃ : Nat) (r : Except Int (Gr (Split.Twin N) Word Word)) : Prop :=
  match inferredSplitter x s with
  | .error e => r = .error e
  | .ok y => Split.Splits (splitterOf u q y.1) 0 0 y.2.vFree.isSome limit g addr hn k₁ k₂ k₃ r

end Cru.Repl
