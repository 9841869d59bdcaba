import Verif.Model.Count
import Verif.Spec.Graph

/-! # What the counting functions return -/

namespace Cru.Count

open Net

variable {N V L : Type}

/-- A call with `n` lanes can return the count `c`, with an error or without. -/
def Returns [DecidableEq N] (W : Nat) (k : Kind) (g : Gr N V L) (hash : N → Nat) (n : Nat) (c : Nat) (failed : Prop) : Prop :=
  n = 1 ∧ c = listCount W k g ∧ ¬ failed ∨
  n ≠ 1 ∧ ∃ (hn : 0 < n) (s : State n N (Job n N)), Net.Reach (task W k g hash hn) g.base start s ∧ s.main = .done ∧
    c = summation W s.g ∧ (failed ↔ ∃ i, s.g.err i ≠ 0)

/-- The right answers. -/
def vertexCount (g : Gr N V L) : Nat := g.nodes.length
def terminusCount (g : Gr N V L) : Nat := (g.nodes.filter fun m => (g.out m).isEmpty).length
def edgeCount (g : Gr N V L) : Nat := (g.nodes.flatMap fun m => g.out m).length

def rightCount (g : Gr N V L) : Kind → Nat
  | .vertices => vertexCount g
  | .termini => terminusCount g
  | .edges => edgeCount g

end Cru.Count
