import Verif.Model.Compose
import Verif.Spec.Graph
import Verif.Spec.Grouping

/-!
# What composing edges should do

`p` gives the local and the adjacent property of each node.
-/

namespace Cru.Compose

variable {N V L P : Type}

/-- Whether an edge `e` of `m` followed by an edge `e'` of the terminus of `e` is selected. -/
def selects (c : Composer P L) (p : N → P × P) (m : N) (e e' : L × N) : Bool := c.qpred (p m).1 e.1 (p e'.2).2 e'.1

/-- The edges to be added to `m`: one to the terminus of each edge of each adjacent node, if selected. -/
def called (c : Composer P L) (p : N → P × P) (out : N → List (L × N)) (m : N) : List (L × N) :=
  (out m).flatMap fun e => ((out e.2).filter (selects c p m e)).map fun e' => (c.qop (p m).1 e.1 (p e'.2).2 e'.1, e'.2)

/-- What the manual calls for (cru_composer.7, cru_prop_pair.7), where the adjacent property is the one of the intermediate vertex. -/
def documented (c : Composer P L) (p : N → P × P) (out : N → List (L × N)) (m : N) : List (L × N) :=
  (out m).flatMap fun e => ((out e.2).filter fun e' => c.qpred (p m).1 e.1 (p e.2).2 e'.1).map fun e' =>
    (c.qop (p m).1 e.1 (p e.2).2 e'.1, e'.2)

/-- An edge of `m` is composed with some edge. -/
def isComposed (c : Composer P L) (p : N → P × P) (out : N → List (L × N)) (m : N) (e : L × N) : Bool :=
  (out e.2).any (selects c p m e)

/-- Edges with equal labels and the same terminus. -/
def Same (eq : L → L → Bool) (a b : L × N) : Prop := a.2 = b.2 ∧ eq a.1 b.1 = true

/-- `R` has the vertices of `g`, and the edges of `g` with those called for, once each. -/
structure Extends (eq : L → L → Bool) (new : N → List (L × N)) (g R : Gr N V L) : Prop where
  base : R.base = g.base
  vertex : R.vertex = g.vertex
  nodes : R.nodes.Perm g.nodes
  wf : R.WF
  out : ∀ m ∈ g.nodes, ∃ dropped, IsTransversal (Same eq) (g.out m ++ new m) (R.out m) dropped

/-- `R` has the vertices of `g` that are reachable by edges of `g` other than those that are composed, and those called for, and it
has these edges, once each. -/
structure Replaces (eq : L → L → Bool) (new : N → List (L × N)) (gone : N → L × N → Bool) (g R : Gr N V L) : Prop where
  base : R.base = g.base
  vertex : R.vertex = g.vertex
  nodes : ∀ m ∈ R.nodes, m ∈ g.nodes
  wf : R.WF
  out : ∀ m ∈ R.nodes, ∃ dropped, IsTransversal (Same eq) ((g.out m).filter (fun e => !gone m e) ++ new m) (R.out m) dropped

/-- Edges that follow from those of `g`: the existing ones, and the ones called for by those that follow. -/
inductive Derives (c : Composer P L) (p : N → P × P) (g : Gr N V L) : N → L × N → Prop
  | old {m : N} {e : L × N} : e ∈ g.out m → Derives c p g m e
  | new {m : N} {e e' : L × N} : Derives c p g m e → Derives c p g e.2 e' → selects c p m e e' = true →
      Derives c p g m (c.qop (p m).1 e.1 (p e'.2).2 e'.1, e'.2)

end Cru.Compose
