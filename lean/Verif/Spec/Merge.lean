import Verif.Model.Merge
import Verif.Spec.Graph
import Verif.Spec.Grouping

/-!
# Quotients of graphs

What merging related vertices should make of a graph, without saying how.
-/

namespace Cru.Merge

variable {N V L : Type}

/-- The outgoing edges of the members of a class that the pruner keeps, given the outgoing edges of each member.  The pruner is told
whether every member has an edge with an equal label. -/
def survivors (eq : L → L → Bool) (pruner : Option (Bool → L → Bool)) (ms : List (List (L × N))) : List (L × N) :=
  ms.flatten.filter fun e => pruner.elim true fun f => f (ms.all fun es => es.any fun e' => eq e.1 e'.1) e.1

/-- The edges `out` are the ones a class should have if its members have edges `ms`, where `cls` takes each node to its class: one for
each label and class of termini if there's no edge operation, and otherwise just one for each class of termini, with the label made
by reducing all the edges to it. -/
structure IsFused [DecidableEq N] (o : EdgeOps N L) (cls : N → N) (ms : List (List (L × N))) (out : List (L × N)) : Prop where
  dedup : o.red = none → ∃ dropped, IsTransversal (fun a b => a.2 = b.2 ∧ o.eq a.1 b.1 = true)
    ((survivors o.eq o.pruner ms).map fun e => (e.1, cls e.2)) out dropped
  once : ∀ red, o.red = some red → (out.map Prod.snd).Nodup
  mem : ∀ red, o.red = some red → ∀ t, t ∈ out.map Prod.snd ↔ ∃ e ∈ survivors o.eq o.pruner ms, cls e.2 = t
  label : ∀ red, o.red = some red → ∀ e ∈ out, ∃ b, b.Perm ((survivors o.eq o.pruner ms).filter fun e' => cls e'.2 = e.2) ∧ e.1 = red b

/-- `R` is `g` with related vertices merged, and `cls` takes each node to the one that stands for its class in `R`. -/
structure IsQuotient [DecidableEq N] (g R : Gr N V L) (rel : N → N → Prop) (o : EdgeOps N L) (vop : Option (List N → V)) (cls : N → N) :
    Prop where
  member : ∀ a ∈ g.nodes, cls a ∈ g.nodes ∧ rel a (cls a)
  same : ∀ a ∈ g.nodes, ∀ b ∈ g.nodes, rel a b → cls a = cls b
  base : R.base = cls g.base
  wf : R.WF
  /-- the nodes of `R` stand for classes -/
  nodes : ∀ m ∈ R.nodes, m ∈ g.nodes ∧ cls m = m
  /-- every class is there, unless edges to it are pruned -/
  all : o.pruner = none → ∀ a ∈ g.nodes, cls a ∈ R.nodes
  /-- the vertex and the edges of a class are made from the members, in some order -/
  content : ∀ m ∈ R.nodes, ∃ k : List N, k.Perm (g.nodes.filter fun a => cls a = m) ∧ k.head? = some m ∧
    R.vertex m = vop.elim (g.vertex m) (· k) ∧ IsFused o cls (k.map g.out) (R.out m)

end Cru.Merge
