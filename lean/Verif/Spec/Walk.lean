import Verif.Spec.Stretch
import Verif.Spec.Words

/-! # Paths in stretched graphs -/

namespace Cru.Stretch

open Dedup

variable {N V L : Type}

/-- There's a path from one vertex to another, up to equality, spelling a word by way of edges that aren't deleted and edges to and from vertices passed to `cru_stretch`. -/
inductive Walk (o : Orders V L) (g : Gr N V L) (ask : N → L × N → Answer V L) : V → List L → V → Prop
  | nil {u v : V} : o.Same u v → Walk o g ask u [] v
  | cons {u u' t v : V} {l : L} {w : List L} : o.Same u u' → Made g ask u' l t → Walk o g ask t w v → Walk o g ask u (l :: w) v

/-- The edges from each vertex, along with their origins, so that a word is spelled that gives the edges on the path. -/
def steps (g : Gr N V L) (m : N) : List ((N × L × N) × N) := (g.out m).map fun e => ((m, e), e.2)

/-- Each edge is deleted, and replaced by two with a vertex in between that's equal neither to any in the graph nor to that for another edge. -/
structure Subdivides (o : Orders V L) (g : Gr N V L) (ask : N → L × N → Answer V L) (mid : N → L × N → Req V L) : Prop where
  delete : ∀ m ∈ g.nodes, ∀ e ∈ g.out m, (ask m e).delete = true
  reqs : ∀ m ∈ g.nodes, ∀ e ∈ g.out m, (ask m e).reqs = [mid m e]
  fresh : ∀ m ∈ g.nodes, ∀ e ∈ g.out m, ∀ a ∈ g.nodes, ¬ o.Same (mid m e).vertex (g.vertex a)
  apart : ∀ m ∈ g.nodes, ∀ e ∈ g.out m, ∀ a ∈ g.nodes, ∀ f ∈ g.out a, o.Same (mid m e).vertex (mid a f).vertex → m = a ∧ e = f

/-- The labels on the new path for a path in the given graph. -/
def doubled (mid : N → L × N → Req V L) (p : List (N × L × N)) : List L := p.flatMap fun s => [(mid s.1 s.2).ante, (mid s.1 s.2).post]

end Cru.Stretch
