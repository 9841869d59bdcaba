import Verif.Model.Duplex
import Verif.Spec.MapReduce

/-! # What incoming edges should be -/

namespace Cru.Duplex

open Net

variable {n : Nat} {N V L X : Type}

/-- The reverse edges of all edges to a node from the given ones. -/
def reversed [DecidableEq N] (out : N → List (L × N)) (nodes : List N) (m : N) : List (L × N) :=
  nodes.flatMap fun a => ((out a).filter fun e => decide (e.2 = m)).map fun e => (e.1, a)

/-- Incoming edges are exactly the reverse edges, in any order. -/
def Exact [DecidableEq N] (g : Gr N V L) (inn : N → List (L × N)) : Prop :=
  ∀ m ∈ g.nodes, (inn m).Perm (reversed g.out g.nodes m)

/-- `cru_mapreduced` (entry.c:555-595) with a zone whose initial vertex is that of the node `initial`, and no folds over edges: what it leaves of the
incoming edges, and what it returns. -/
def Mapreduced [DecidableEq N] (o : MapReduce.Ops N X) (g : Gr N V L) (backwards stored : Bool) (addr : N → Nat) (hn : 0 < n) (initial : N)
    (inn : N → List (L × N)) (r : Except Int (Option X)) : Prop :=
  ∃ err, Prepared backwards addr hn g inn err ∧
    if err ≠ 0 then r = .error err else MapReduce.Returns o { g with inn := inn } backwards stored addr hn initial r

end Cru.Duplex
