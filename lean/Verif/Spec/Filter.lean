import Verif.Model.Filter
import Verif.Spec.Graph
import Verif.Spec.Grouping

/-! # What filtering is meant to do (cru_filter.7) -/

namespace Cru.Filter

variable {N V L : Type}

/-- The labels of edges and the vertices at their other ends, which is what the user's functions see of them. -/
def ends (g : Gr N V L) (es : List (L × N)) : List (L × V) := es.map fun e => (e.1, g.vertex e.2)

/-- The vertex test of `u`, if there is one, is NULL for `m`. -/
def fails (u : Filter V L) (g : Gr N V L) (m : N) : Bool :=
  u.probe.any fun p => (p (g.vertex m) (ends g (g.inn m)) (ends g (g.out m))).1

/-- The edge `e` from `m` passes the edge test of `u`, if there is one.  If there's an ordering, this depends on all edges from `m`
whose labels are equivalent to that of `e`. -/
def passes (u : Filter V L) (g : Gr N V L) (m : N) (e : L × N) : Bool :=
  match u.edge with
  | none => true
  | some t =>
    match u.order with
    | none => if t.vacuous then t.fold (g.vertex m) (ends g [e]) else t.map (g.vertex m) (e.1, g.vertex e.2)
    | some o => t.fold (g.vertex m) (ends g ((g.out m).filter fun d => o.2 e.1 d.1))

/-- The edges from `m` that pass and lead to vertices that pass. -/
def kept (u : Filter V L) (g : Gr N V L) (m : N) : List (L × N) := (g.out m).filter fun e => passes u g m e && !fails u g e.2

/-- The edges among `es` in the same class as `e`: `e` alone if there's no ordering. -/
def classmates (u : Filter V L) (es : List (L × N)) (e : L × N) : List (L × N) :=
  match u.order with
  | none => [e]
  | some o => es.filter fun d => o.2 e.1 d.1

/-- `rs` are the edges to be left to `m` with the thinner `lt`.  If there is a vertex test and it isn't NULL, they're all its edges.  Otherwise,
they are the class of a passing edge that no passing edge precedes, or nothing if no edge passes. -/
def Thinned (u : Filter V L) (lt : L × V → L × V → Bool) (g : Gr N V L) (m : N) (rs : List (L × N)) : Prop :=
  if u.probe.isSome = true ∧ fails u g m = false then rs.Perm (g.out m)
  else
    ((∀ e ∈ g.out m, passes u g m e = false) → rs = []) ∧
    ((∃ e ∈ g.out m, passes u g m e = true) → ∃ e ∈ g.out m, passes u g m e = true ∧ rs.Perm (classmates u (g.out m) e) ∧
      ∀ d ∈ g.out m, passes u g m d = true → lt (d.1, g.vertex d.2) (e.1, g.vertex e.2) = false)

/-- `R` is `g` with its vertices restricted to the ones that can still be reached from the base vertex, and the edges of each of them to some that
`ok` allows. -/
structure IsFiltered (g : Gr N V L) (ok : N → List (L × N) → Prop) (R : Gr N V L) : Prop where
  base : R.base = g.base
  vertex : ∀ m ∈ R.nodes, R.vertex m = g.vertex m
  nodes : Covers (fun m => (R.out m).map Prod.snd) g.base R.nodes
  out : ∀ m ∈ R.nodes, ok m (R.out m)

/-- What's assumed of the functions supplied by the user: the equality of labels is an equivalence relation, which the hash respects; the fold over a
class doesn't depend on the order; the thinner is a strict weak order, and doesn't tell equivalent edges apart. -/
structure Filter.Lawful (u : Filter V L) : Prop where
  equal : ∀ o, u.order = some o → IsEquality o.2 ∧ HashRespects o.1 o.2
  fold : ∀ t, u.edge = some t → ∀ v es es', es.Perm es' → t.fold v es = t.fold v es'
  thinner : ∀ lt, u.thinner = some lt → IsStrictWeak lt
  compatible : ∀ o lt, u.order = some o → u.thinner = some lt →
    ∀ x x' y y' : L × V, o.2 x.1 x'.1 = true → o.2 y.1 y'.1 = true → lt x y = lt x' y'

/-- The error `e` is raised by the vertex test of `u` on `m`. -/
def ProbeError (u : Filter V L) (g : Gr N V L) (m : N) (e : Int) : Prop :=
  e ≠ 0 ∧ ∃ p, u.probe = some p ∧ (p (g.vertex m) (ends g (g.inn m)) (ends g (g.out m))).2 = e

/-- The error `e` is raised by the functions of `u` applied to the edges of `m`. -/
def EdgeError (u : Filter V L) (g : Gr N V L) (m : N) (e : Int) : Prop :=
  e ≠ 0 ∧ (u.edge.isSome = true ∨ u.thinner.isSome = true) ∧ u.fault (g.vertex m) (ends g (g.out m)) = e

end Cru.Filter
