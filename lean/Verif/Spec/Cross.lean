import Verif.Model.Cross
import Verif.Spec.Spawn

/-! # What the product of two graphs should be -/

namespace Cru.Cross

variable {N V V' L L' W M : Type}

/-- The edges that a pair of nodes should have in the product: one for each pair of an edge of the first node and an edge of the
second whose labels satisfy the predicate, labelled with the product of the labels, and leading to the pair of nodes the edges lead to. -/
def joint (x : Crosser V V' L L' W M) (g : Gr N V L) (h : Gr N V' L') (p : N × N) : List (M × (N × N)) :=
  (g.out p.1).flatMap fun l => ((h.out p.2).filter fun r => x.bpred l.1 r.1).map fun r => (x.bop l.1 r.1, (l.2, r.2))

/-- `pairs` lists, once each, the pairs of nodes reachable by such edges from the pair of base nodes. -/
def Pairs (x : Crosser V V' L L' W M) (g : Gr N V L) (h : Gr N V' L') (pairs : List (N × N)) : Prop :=
  Covers (fun p => (joint x g h p).map (·.2)) (g.base, h.base) pairs

/-- The graph `r` has one node for each of the pairs, whose vertex is the product of their vertices, and whose edges are as above. -/
def IsProduct {J : Type} (x : Crosser V V' L L' W M) (g : Gr N V L) (h : Gr N V' L') (pairs : List (N × N)) (r : Gr J (Option W) M) : Prop :=
  Depicts pairs (g.base, h.base) (fun p => x.vprod (g.vertex p.1) (h.vertex p.2)) (joint x g h) r

/-- How many of the pairs are sent to a lane. -/
def share [DecidableEq N] {n : Nat} (addr : N → Nat) (hn : 0 < n) (pairs : List (N × N)) (i : Fin n) : Nat :=
  (pairs.filter fun p => decide (Build.lane hn (rash addr p) = i)).length

end Cru.Cross
