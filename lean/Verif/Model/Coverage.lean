import Verif.Model.Mutate

/-!
# Mutations of part of a graph (mutate.c:75-121, 844-847, graph.c:305-323, infer.c:394-426)

Before anything is mutated, `cru_mutated` may check that the zone covers the whole graph.
-/

namespace Cru.Mutate

open Net

/-- The vertex and edge destructors in the signature of a graph, or the fields `m_free` of the vertex and edge operators of a kernel.  Functions are
given by their addresses, null pointers by `none`. -/
structure Destructors where
  v : Option Nat
  e : Option Nat
  deriving DecidableEq

/-- `_cru_compatible` (graph.c:305-323) for the destructors `d` of a graph and those of a kernel. -/
def compatible (d k : Destructors) : Bool := if d.v ≠ k.v then false else if d.e ≠ k.e then false else true

variable {n : Nat} {N V L : Type}

/-- The destructors of the graph after mutation (`inferred_sig`, infer.c:409-419, mutate.c:797). -/
def inferred (k : Kernel V L) (d f : Destructors) : Destructors where
  v := if k.vop.isNone || decide (f.v = d.v) then d.v else f.v
  e := if k.eop.isNone || decide (f.e = d.e) then d.e else f.e

/-- `CRU_TPCMUT`. -/
def tpcMut : Int := -539

/-- `coverage_analyzing_task` (mutate.c:75-121).  Nodes are looked up in the port's field `reachable`, which has no members if it's null. -/
abbrev coverage [DecidableEq N] (g : Gr N V L) (reach : Fin n → Option (List N)) (hash : N → Nat) (hn : 0 < n) :
    Task n N (Trav.Job n N Unit) Unit :=
  Trav.task (g.next false) (fun i _ m => ((), if (reach i).any (fun l => decide (m ∈ l)) then 0 else tpcMut)) hash hn

/-- What the check amounts to (mutate.c:844-847, 855-858), if it's done: it may be an error, and then null is returned, or it's
passed.  `k₀` is the kill flag at the end. -/
def Checked [DecidableEq N] (g : Gr N V L) (reach : Fin n → Option (List N)) (hash : N → Nat) (hn : 0 < n) (k₀ : Nat) (e : Int) : Prop :=
  ∃ x, Reach (coverage g reach hash hn) g.base (Trav.start ()) x ∧ x.main = .done ∧ x.g.killed = k₀ ∧
    ((∃ i, x.g.err i ≠ 0 ∧ e = x.g.err i) ∨ ((∀ i, x.g.err i = 0) ∧ e = 0))

/-- `cru_mutated` (entry.c:955-982, mutate.c:830-859) on a full duplex graph that isn't empty, with initial node `b`, where `d` is the
destructors of the graph and `f` those of the kernel.  A graph is returned with its destructors. -/
inductive Revises [DecidableEq N] (g : Gr N V L) (p : Plan) (b : N) (k : Kernel V L) (d f : Destructors) (hash : N → Nat) (hn : 0 < n)
    (k₀ k₁ k₂ k₃ : Nat) : Except Int (Gr N V L × Destructors) → Prop
  /-- The check fails. -/
  | refused {reach : Fin n → Option (List N)} {e : Int} : Analyzed g p b hash hn k₁ reach → b ≠ g.base → compatible d f = true →
      Checked g reach hash hn k₀ e → e ≠ 0 → Revises g p b k d f hash hn k₀ k₁ k₂ k₃ (.error e)
  /-- The check is passed. -/
  | passed {reach : Fin n → Option (List N)} {s : Job n N V L} {r : Except Int (Gr N V L)} : Analyzed g p b hash hn k₁ reach → b ≠ g.base →
      compatible d f = true → Checked g reach hash hn k₀ 0 → Proceeds g p k hash hn reach k₂ k₃ s r →
      Revises g p b k d f hash hn k₀ k₁ k₂ k₃ (r.map fun h => (h, inferred k d f))
  /-- There's no check. -/
  | unchecked {reach : Fin n → Option (List N)} {s : Job n N V L} {r : Except Int (Gr N V L)} : Analyzed g p b hash hn k₁ reach →
      (b = g.base ∨ compatible d f = false) → Proceeds g p k hash hn reach k₂ k₃ s r →
      Revises g p b k d f hash hn k₀ k₁ k₂ k₃ (r.map fun h => (h, inferred k d f))

end Cru.Mutate
