import Verif.Model.PostponeAcc
import Verif.Spec.DedupAcc
import Verif.Spec.Graph
import Mathlib.Algebra.BigOperators.Group.Finset.Basic

/-! # What the nodes of a graph hold while edges are postponed -/

namespace Cru.PostponeAcc

open Fold
open Request (Env Exact)
open DedupAcc (Edge labels)

variable {n : Nat} {N V : Type}

/-- The log entries of a vertex and of the labels of its outgoing edges. -/
def held (c : Env) (h : Heap n N V) (m : N) : Multiset (Nat × Nat) := owned c.vFree (h.vertex m) + labels c (h.out m)

/-- Those of all nodes. -/
def graphHeld [Fintype N] (c : Env) (h : Heap n N V) : Multiset (Nat × Nat) := ∑ m, held c h m

/-- Those of all edges waiting to be attached. -/
def waiting [Fintype N] (c : Env) (h : Heap n N V) : Multiset (Nat × Nat) := ∑ m, labels c (h.post m)

/-- A half duplex graph: all nodes are reachable from the base node, there are no other edges, and everything made and not freed is held by
one node. -/
structure Ready [Fintype N] (c : Env) (b : N) (h : Heap n N V) : Prop where
  reach : ∀ m, Reaches (fun m => (h.out m).map Edge.dst) b m
  half : ∀ m, h.post m = []
  past : ∀ x ∈ h.world.made, x.1 < h.world.clock
  exact : Exact h.world (graphHeld c h)

/-- A full duplex graph: for every outgoing edge there's an incoming edge of the other node with the same label. -/
structure Full [Fintype N] (c : Env) (b : N) (h : Heap n N V) : Prop where
  reach : ∀ m, Reaches (fun m => (h.out m).map Edge.dst) b m
  both : ∀ x, ∀ e ∈ h.out x, ⟨e.label, x⟩ ∈ h.post e.dst
  past : ∀ x ∈ h.world.made, x.1 < h.world.clock
  exact : Exact h.world (graphHeld c h)

/-- A list of all nodes. -/
def Lists (ms : List N) : Prop := ms.Nodup ∧ ∀ m, m ∈ ms

end Cru.PostponeAcc
