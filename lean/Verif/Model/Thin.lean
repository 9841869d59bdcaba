import Verif.Model.Repl
import Verif.Model.Hash

/-!
# Filters with functions left out (infer.c:503-565, repl.c)

Vertices, labels and results are words; NULL is zero.  The user's functions depend only on their operands and raise no errors.
-/

namespace Cru.Repl

open Infer

/-- The user's hashes, equalities and thinners, by number. -/
structure Orders where
  hash : Nat → Word → Nat
  equal : Nat → Word → Word → Bool
  lt : Nat → Word × Word → Word × Word → Bool

/-- Calling a hash: `_cru_scalar_hash` (repl.c:44-61).  NULL and the placeholder aren't called (C153). -/
def Orders.callHash (o : Orders) : Field → Word → Nat
  | some (.user n) => o.hash n
  | some .scalarHash => fun w => (Cru.Hash.scalarHash w).toNat
  | _ => fun _ => 0

/-- Calling an equality: `_cru_equality_bpred` (repl.c:119-128).  NULL and the placeholder aren't called (C153). -/
def Orders.callEqual (o : Orders) : Field → Word → Word → Bool
  | some (.user n) => o.equal n
  | some .equalityBpred => fun a b => decide (a = b)
  | _ => fun _ _ => false

/-- The thinner (edges.c, brig.c): none is filled in. -/
def Orders.thinner (o : Orders) : Field → Option (Word × Word → Word × Word → Bool)
  | some (.user n) => some (o.lt n)
  | _ => none

/-- Whether a result passes (filters.c:285, 327, 365). -/
def passing : Except Int Word → Bool
  | .ok w => decide (w ≠ 0)
  | .error _ => false

/-- The edge test (filters.c:415-418): none if the fold is empty.  A single edge is tested by `MAP` (filters.c:275, 285), which prefers the binary
map, and several by `_cru_reduced_edges` (filters.c:327, 365). -/
def edgeTest (u : Env) (e : Fold) : Option (Filter.EdgeTest Word Word) :=
  if emptyFold e then none
  else some ⟨Field.given e.vacuousCase .undefinedNop, fun v x => passing (seed u e v x), fun v es => passing (reducedEdges u e v es)⟩

/-- The ordering (filters.c:417). -/
def filterOrder (o : Orders) (r : Order) : Option ((Word → Nat) × (Word → Word → Bool)) :=
  if emptyOrder r then none else some (o.callHash r.hash, o.callEqual r.equal)

/-- The first error in a list of results. -/
def firstError : List (Except Int Word) → Int
  | [] => 0
  | .ok _ :: rs => firstError rs
  | .error e :: _ => e

/-- The error raised by the edge test on the edges of a vertex.  Simplification: the classes are tested in the order of their first members, and
again for further members, which makes a difference only if there are several errors. -/
def edgeFault (u : Env) (o : Orders) (e : Fold) (r : Order) (v : Word) (es : List (Word × Word)) : Int :=
  if emptyFold e then 0
  else match filterOrder o r with
    | none => if Field.given e.vacuousCase .undefinedNop then firstError (es.map fun x => reducedEdges u e v [x]) else firstError (es.map (seed u e v))
    | some q => firstError (es.map fun x => reducedEdges u e v (es.filter fun y => q.2 x.1 y.1))

/-- A completed specification as it's used by the tasks in filters.c. -/
def filterOf (u : Env) (o : Orders) (f : Infer.Filter) : Filter.Filter Word Word where
  probe := probe u f.kernel.vOp
  edge := edgeTest u f.kernel.eOp
  order := filterOrder o f.order
  thinner := o.thinner f.thinner
  fault := edgeFault u o f.kernel.eOp f.order

/-- `cru_filtered` (entry.c:877-903) with a specification as the user has given it and without a zone, for a graph with the signature `s` that
has incoming edges. -/
def FilteredBy {n : Nat} {N : Type} [DecidableEq N] (u : Env) (o : Orders) (f : Infer.Filter) (s : Sig) (g : Gr N Word Word) (addr : N → Nat) (hn : 0 < n)
    (k₁ k₂ k₃ : Nat) (r : Except Int (Option (Gr N Word Word))) : Prop :=
  match inferredFilter f s with
  | .error e => r = .error e
  | .ok f' => Filter.Filters (filterOf u o f') g false g.base addr hn k₁ k₂ k₃ r

end Cru.Repl
