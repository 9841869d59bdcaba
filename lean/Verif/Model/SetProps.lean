import Verif.Model.Partition
import Verif.Model.Duplex

/-!
# `cru_partition_of` with folds over incoming edges (props.c:277-315, classes.c:314-349)

This is `Model/Partition.lean` with what's left out there: incoming edges are derived before the properties are computed, and removed
thereafter.  It's assumed that the tasks can be started, and that there's memory enough.
-/

namespace Cru.Partition

open Net Duplex

variable {n : Nat} {N V L X : Type}

/-- A `cru_classifier`: whether there's a fold over incoming edges, the property of a vertex with the labels and the adjacent vertices of its
incoming edges and of its outgoing edges, when computed at a certain time (nodes.c:380-414), with the error raised, and the other functions of
`Classifier`. -/
structure Rule (V L X : Type) where
  incident : Bool
  prop : Nat → V → List (L × V) → List (L × V) → Option X × Int
  hash : Option X → Nat
  equal : Nat → Option X → Option X → Bool × Int
  destroy : Nat → X → Int

/-- The operands corresponding to a list of edges. -/
def operands (g : Gr N V L) (es : List (L × N)) : List (L × V) := es.map fun e => (e.1, g.vertex e.2)

/-- The rule applied to the nodes of a graph (nodes.c:401-406). -/
def Rule.on (c : Rule V L X) (g : Gr N V L) : Classifier N X where
  map t m := c.prop t (g.vertex m) (if c.incident then operands g (g.inn m) else []) (operands g (g.out m))
  hash := c.hash
  equal := c.equal
  destroy := c.destroy

/-- Free all incoming edges (props.c:308-312). -/
def cleared [DecidableEq N] (nodes : List N) (inn : N → List (L × N)) : N → List (L × N) := fun m => if m ∈ nodes then [] else inn m

/-- The end of `_cru_set_properties` if the properties have been set (props.c:300-307): the incoming edges left, and the error. -/
def Razed [DecidableEq N] (addr : N → Nat) (hn : 0 < n) (g : Gr N V L) (inn : N → List (L × N)) (e : Int) : Prop :=
  if halfDuplex g = true then inn = g.inn ∧ e = 0
  else ∃ inn', Launched (half g.out addr hn) g inn' e ∧ inn = if e ≠ 0 then cleared g.nodes inn' else inn'

/-- `cru_partition_of`: the partition returned, the error, the incoming edges and the properties left.  `k` is the kill flag at the end of property
setting.  If there's an error when incoming edges have been derived, then nothing else is done (props.c:296-297, classes.c:337-340).  If there's
one after properties have been set, then all incoming edges are freed (props.c:308-314). -/
def PartitionOf [DecidableEq N] [DecidableEq V] [DecidableEq X] (c : Rule V L X) (g : Gr N V L) (addr : N → Nat) (hn : 0 < n) (k : Nat)
    (result : Option (Classify.Mem n N V)) (e : Int) (left : N → List (L × N)) (end_ : Mem N X) : Prop :=
  ∃ inn e₀, Prepared c.incident addr hn g inn e₀ ∧
    if e₀ ≠ 0 then result = none ∧ e = e₀ ∧ left = inn ∧ end_ = clear
    else
      let g' : Gr N V L := { g with inn := inn }
      ∃ x : State n N (Trav.Job n N (Mem N X)),
        Net.Reach (setTask g' (c.on g').map addr hn) g'.base (Trav.start clear) x ∧ x.main = .done ∧ k = x.g.killed ∧
        ((∃ e₁, Status x.g.err e₁ ∧ e₁ ≠ 0 ∧ result = none ∧ e = e₁ ∧ left = cleared g.nodes inn ∧
          Unsets g' c.destroy addr hn x.g.mem e₁ end_) ∨
        (Status x.g.err 0 ∧ ∃ e₂, Razed addr hn g' left e₂ ∧
          if e₂ ≠ 0 then result = none ∧ e = e₂ ∧ Unsets g' c.destroy addr hn x.g.mem e₂ end_
          else Finishes g' (c.on g') addr hn x.g result e end_))

end Cru.Partition
