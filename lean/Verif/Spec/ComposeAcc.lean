import Verif.Model.ComposeAcc
import Verif.Spec.DedupAcc

/-! # What the nodes of a graph hold while edges are composed -/

namespace Cru.ComposeAcc

open Fold
open Request (Env Exact)
open DedupAcc (Edge labels)

variable {n : Nat} {N V : Type}

/-- The log entries of a vertex and of the labels of its outgoing edges. -/
def held (c : Env) (h : Heap n N V) (m : N) : Multiset (Nat × Nat) := owned c.vFree (h.vertex m) + labels c (h.out m)

/-- Those of properties. -/
def propsHeld (o : Ops V) : Option (Props V) → Multiset (Nat × Nat)
  | none => 0
  | some p => owned o.lFree p.loc + owned o.aFree p.adj

/-- Those of all nodes in the graph. -/
def graphHeld (c : Env) (h : Heap n N V) : Multiset (Nat × Nat) := (h.nodes.map (held c h)).sum

/-- Those of the labels of other edges. -/
def sideHeld (c : Env) (h : Heap n N V) : Multiset (Nat × Nat) := (h.nodes.map fun m => labels c (h.bypass m)).sum

/-- A half duplex graph: its nodes are those reachable from the base node, there are no other edges and no properties, and everything made and
not freed is held by one node. -/
structure Ready (c : Env) (b : N) (h : Heap n N V) : Prop where
  wf : (graph b h).WF
  half : ∀ m, h.bypass m = []
  bare : ∀ m, h.props m = none
  past : ∀ x ∈ h.world.made, x.1 < h.world.clock
  exact : Exact h.world (graphHeld c h)

/-- A full duplex graph: for every outgoing edge there's an incoming edge of the other node with the same label.  Only its own nodes have incoming
edges. -/
structure Full (c : Env) (b : N) (h : Heap n N V) : Prop where
  wf : (graph b h).WF
  both : ∀ x, ∀ e ∈ h.out x, ⟨e.label, x⟩ ∈ h.bypass e.dst
  within : ∀ m, m ∉ h.nodes → h.bypass m = []
  bare : ∀ m, h.props m = none
  past : ∀ x ∈ h.world.made, x.1 < h.world.clock
  exact : Exact h.world (graphHeld c h)

end Cru.ComposeAcc
