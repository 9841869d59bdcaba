import Verif.Model.SplitAcc
import Verif.Spec.SpawnAcc
import Mathlib.Algebra.BigOperators.Group.Finset.Basic
import Mathlib.Data.Fintype.Prod

/-! # What the nodes of a graph being split hold -/

namespace Cru.SplitAcc

open Fold
open Request (Env)
open SpawnAcc (heldLabels)
open Split (Twin)

variable {n : Nat} {N V : Type}

/-- The log entries of the labels of edges. -/
def labels (c : Env) (es : List (Edge N V)) : Multiset (Nat × Nat) := heldLabels c (es.map Edge.label)

/-- The log entries of a vertex and the labels of its edges. -/
def held (c : Env) (h : Heap n N V) (t : Twin N) : Multiset (Nat × Nat) := owned c.vFree (h.vertex t) + labels c (h.out t)

/-- Those of vertices. -/
def heldOld (c : Env) (xs : List (Option (Obj V))) : Multiset (Nat × Nat) := (xs.map (owned c.vFree)).sum

/-- All vertices, labels and vertex properties, and the vertices kept to be freed later. -/
def allHeld [Fintype N] (c : Env) (pf : Option Nat) (h : Heap n N V) : Multiset (Nat × Nat) :=
  ∑ t : Twin N, (held c h t + owned pf (h.prop t)) + ∑ i, heldOld c (h.old i)

/-- A packet holds the label of the edge to be connected. -/
def Pkt.held (c : Env) : Pkt N V → Multiset (Nat × Nat)
  | .connect _ e => owned c.eFree e.label
  | _ => 0

/-- Those of all packets on their way. -/
def sent (c : Env) (ps : Multiset (Pkt N V)) : Multiset (Nat × Nat) := (ps.map (Pkt.held c)).sum

/-- The addresses of edges. -/
def ids (es : List (Edge N V)) : Multiset Nat := ↑(es.map Edge.id)

/-- A graph that's about to be split (split.c:309-317): every node is on one port's list, nothing else is, no edge is in two places, and
everything made and not freed is held by one node. -/
structure Ready [Fintype N] [DecidableEq N] (c : Env) (pf : Option Nat) (h : Heap n N V) : Prop where
  stock : ∀ m b, Multiset.count (m, b) (∑ i, (h.stock i : Multiset (Twin N))) = if b then 0 else 1
  blank : ∀ m, h.vertex (m, true) = none ∧ h.prop (m, true) = none ∧ h.out (m, true) = []
  old : ∀ i, h.old i = []
  whole : ∀ m, h.split m = false
  dst : ∀ m, ∀ e ∈ h.out (m, false), e.dst.2 = false
  nodup : (∑ t : Twin N, ids (h.out t)).Nodup
  below : ∀ k ∈ ∑ t : Twin N, ids (h.out t), k < h.next
  fine : h.bad = false
  past : ∀ x ∈ h.world.made, x.1 < h.world.clock
  exact : Request.Exact h.world (allHeld c pf h)

end Cru.SplitAcc
