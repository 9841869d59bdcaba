import Verif.Model.MutateAcc

/-! # What the nodes of a graph hold while it's mutated -/

namespace Cru.MutateAcc

open Fold
open Request (Env Exact)
open DedupAcc (Edge)

variable {n : Nat} {N V : Type}

/-- The log entries of the labels of edges, if their destructor is `d`. -/
def lab (d : Option Nat) (es : List (Edge N V)) : Multiset (Nat × Nat) := (es.map fun e => owned d e.label).sum

/-- The destructors for a node: those of the mutated graph if it has been mutated. -/
def envAt (c : Env) (k : Ops V) (h : Heap n N V) (m : N) : Env := if h.mark m = .mutated then revisedEnv c k else c

/-- The log entries of a vertex and of the labels of its outgoing edges.  Outgoing edges are mutated along with the vertex if propagating forward,
and along with the remote vertex if not. -/
def held (c : Env) (k : Ops V) (fwd : Bool) (h : Heap n N V) (m : N) : Multiset (Nat × Nat) :=
  owned (envAt c k h m).vFree (h.vertex m) +
    ((h.out m).map fun e => owned (envAt c k h (if fwd then m else e.dst)).eFree e.label).sum

/-- Those of all nodes. -/
def graphHeld [Fintype N] (c : Env) (k : Ops V) (fwd : Bool) (h : Heap n N V) : Multiset (Nat × Nat) := ∑ m, held c k fwd h m

/-- The heap after bounding: nothing is mutated, every node is in the list of survivors or deletions of its worker, the survivors are in the
zone, and everything made and not freed is held by one node. -/
structure Ready [Fintype N] (c : Env) (lane : N → Fin n) (h : Heap n N V) : Prop where
  marks : ∀ m, h.mark m = .clear ∨ h.mark m = .unreachable
  zone : ∀ i, ∀ m ∈ h.survivors i, h.mark m = .clear
  lanes : ∀ i m, m ∈ h.survivors i ∨ m ∈ h.deletions i → lane m = i
  all : ∀ m, m ∈ h.survivors (lane m) ∨ m ∈ h.deletions (lane m)
  once : ∀ i, (h.survivors i ++ h.deletions i).Nodup
  fresh : ∀ i, h.started i = false
  kept : h.lost = 0
  past : ∀ x ∈ h.world.made, x.1 < h.world.clock
  exact : Exact h.world (∑ m, (owned c.vFree (h.vertex m) + lab c.eFree (h.out m)))

/-- The vertex destructor of the graph reports no errors. -/
def Safe (c : Env) : Prop := ∀ d, c.vFree = some d → ∀ t, c.fails d t = 0

/-- The kernel has an edge operator, or else the graph has no destructor for labels. -/
def Firm (c : Env) (k : Ops V) : Prop := k.eop.isSome = true ∨ c.eFree = none

/-- Each node has as many outgoing edges to another as the other has incoming edges from it. -/
def Duplex [DecidableEq N] (h : Heap n N V) : Prop := ∀ s m, ((h.out s).map Edge.dst).count m = ((h.inn m).map Edge.dst).count s

/-- All of the graph is to be mutated: every node is in the zone, those without prerequisites are in the lists of survivors, and there are no
cyclic prerequisites. -/
structure Whole [DecidableEq N] (p : Mutate.Plan) (h : Heap n N V) : Prop where
  zone : ∀ m, h.mark m = .clear
  duplex : Duplex h
  first : ∀ m, prerequisites p h m = [] → ∃ i, m ∈ h.survivors i
  acyclic : ∀ m, ¬ Relation.TransGen (fun x y => y ∈ (prerequisites p h x).map Edge.dst) m m

/-- The destructors are the same after mutation. -/
def Unchanged (c : Env) (k : Ops V) : Prop := (revisedEnv c k).vFree = c.vFree ∧ (revisedEnv c k).eFree = c.eFree

end Cru.MutateAcc
