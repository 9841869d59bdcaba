import Verif.Model.Postpone
import Verif.Spec.Compose

/-!
# What postponing edges should do

`v` gives the vertex of each node, and `es` the outgoing edges of the node `m`.
-/

namespace Cru.Postpone

variable {N V L : Type} [DecidableEq N]

/-- A postponable edge, other than from a vertex to itself. -/
def movable (p : Postponer V L) (v : N → Option V) (m : N) (e : L × N) : Bool :=
  decide (e.2 ≠ m) && p.postponable (v m) e.1 (v e.2)

/-- An edge that's not postponable, other than from a vertex to itself. -/
def stationary (p : Postponer V L) (v : N → Option V) (m : N) (e : L × N) : Bool :=
  decide (e.2 ≠ m) && !p.postponable (v m) e.1 (v e.2)

/-- Whether an edge is to be deleted. -/
def gone (p : Postponer V L) (v : N → Option V) (m : N) (es : List (L × N)) (l : L × N) : Bool :=
  movable p v m l && es.any fun e => stationary p v m e && p.bpred l.1 e.1

/-- The edges to be created, with their origins. -/
def created (p : Postponer V L) (v : N → Option V) (m : N) (es : List (L × N)) : List (N × (L × N)) :=
  (es.filter (movable p v m)).flatMap fun l =>
    (es.filter fun e => stationary p v m e && p.bpred l.1 e.1).map fun e => (e.2, (p.bop l.1 e.1, l.2))

/-- The edges of `g` which are kept at `m`. -/
def kept (p : Postponer V L) (g : Gr N V L) (m : N) : List (L × N) :=
  (g.out m).filter fun l => !gone p (fun m => some (g.vertex m)) m (g.out m) l

/-- The edges which are created at `m`. -/
def arrivals (p : Postponer V L) (g : Gr N V L) (m : N) : List (L × N) :=
  ((g.nodes.flatMap fun o => created p (fun m => some (g.vertex m)) o (g.out o)).filter fun a => decide (a.1 = m)).map (·.2)

/-- What one pass of postponement makes of `g`: the same vertices, all of them reachable, with the edges kept and the edges created; if
any are created at a vertex, repetitions among them all are removed. -/
structure Moved (p : Postponer V L) (eq : L → L → Bool) (g : Gr N V L) (M : Mem N V L) : Prop where
  vertex : ∀ m ∈ g.nodes, M.vertex m = some (g.vertex m)
  nodes : ∀ m, Reaches (fun m => (M.out m).map (·.2)) g.base m ↔ m ∈ g.nodes
  plain : ∀ m ∈ g.nodes, arrivals p g m = [] → (M.out m).Perm (kept p g m)
  merged : ∀ m ∈ g.nodes, arrivals p g m ≠ [] → ∃ dropped, IsTransversal (Compose.Same eq) (arrivals p g m ++ kept p g m) (M.out m) dropped
  none_left : ∀ m ∈ g.nodes, M.post m = []

end Cru.Postpone
