import Verif.Model.Build
import Verif.Spec.Grouping

/-!
# What a built graph should be

`Reaches b v₀ inc v`: the vertex `v` is reachable from `v₀` by following the edges the user's callback
creates, the last one being described to the callback by `inc`.  No workers, packets or tables here.
-/

namespace Cru.Build

variable {V L : Type}

/-- The user's equality predicates are equivalences and the hashes respect them (cru_order(3)). -/
structure Builder.Sane (b : Builder V L) : Prop where
  v : IsEquality b.vEq
  vh : HashRespects b.vHash b.vEq
  e : IsEquality b.eEq
  eh : HashRespects b.eHash b.eEq

/-- The callback makes equal edges when given equal arguments. -/
def Builder.Respects (b : Builder V L) : Prop :=
  ∀ inc inc' v v', b.incEq inc inc' = true → b.vEq v v' = true →
    ∀ x ∈ (b.connect inc v).2, ∃ x' ∈ (b.connect inc' v').2, b.eEq x.1 x'.1 = true ∧ b.vEq x.2 x'.2 = true

inductive Reaches (b : Builder V L) (v₀ : V) : Incident L → V → Prop
  | base : Reaches b v₀ b.first v₀
  | step {inc v l w} : Reaches b v₀ inc v → (l, w) ∈ (b.connect inc v).2 → Reaches b v₀ (b.along l) w

/-- The edges the user's callback asks for. -/
def Wants (b : Builder V L) (v₀ : V) (v : V) (l : L) (w : V) : Prop :=
  ∃ inc, Reaches b v₀ inc v ∧ (l, w) ∈ (b.connect inc v).2

variable {n : Nat}

/-- The node of a graph at an address. -/
def Graph.at (G : Graph n V L) (t : NodeId n) : Option (GNode n V L) := (G.nodes t.1)[t.2]?

/-- The vertices of `G` are those reachable from `v₀`, one for each class of equal vertices, and its first
vertex is `v₀` itself. -/
structure VerticesOf (b : Builder V L) (v₀ : V) (G : Graph n V L) : Prop where
  base : ∃ nd, G.at G.base = some nd ∧ nd.vertex = v₀
  sound : ∀ t nd, G.at t = some nd → ∃ inc v, Reaches b v₀ inc v ∧ b.vEq v nd.vertex = true
  complete : ∀ inc v, Reaches b v₀ inc v → ∃ t nd, G.at t = some nd ∧ b.vEq v nd.vertex = true
  distinct : ∀ t nd t' nd', G.at t = some nd → G.at t' = some nd' → b.vEq nd.vertex nd'.vertex = true → t = t'

/-- The edges of `G` are those the callback asked for, up to equality of labels and vertices, with nothing
repeated; every edge leads to a node of the graph. -/
structure EdgesOf (b : Builder V L) (v₀ : V) (G : Graph n V L) : Prop where
  sound : ∀ t nd l d, G.at t = some nd → (l, d) ∈ nd.edges → ∃ t' nd' v l' w, d = some t' ∧ G.at t' = some nd' ∧
    Wants b v₀ v l' w ∧ b.vEq v nd.vertex = true ∧ b.eEq l' l = true ∧ b.vEq w nd'.vertex = true
  complete : ∀ v l w t nd, Wants b v₀ v l w → G.at t = some nd → b.vEq v nd.vertex = true →
    ∃ l' t' nd', (l', some t') ∈ nd.edges ∧ b.eEq l l' = true ∧ G.at t' = some nd' ∧ b.vEq w nd'.vertex = true
  distinct : ∀ t nd, G.at t = some nd → nd.edges.Pairwise fun x y => ¬ (b.eEq x.1 y.1 = true ∧ x.2 = y.2)

/-- A one-to-one correspondence between the nodes of two graphs that preserves the initial node, vertices and
labelled edges up to equality. -/
structure Correspond (b : Builder V L) {m : Nat} (G : Graph n V L) (H : Graph m V L) (f : NodeId n → NodeId m) : Prop where
  base : f G.base = H.base
  node : ∀ t nd, G.at t = some nd → ∃ nd', H.at (f t) = some nd' ∧ b.vEq nd.vertex nd'.vertex = true ∧
    nd.edges.length = nd'.edges.length ∧
    (∀ l u, (l, some u) ∈ nd.edges → ∃ l', (l', some (f u)) ∈ nd'.edges ∧ b.eEq l l' = true) ∧
    (∀ l' u', (l', some u') ∈ nd'.edges → ∃ l u, (l, some u) ∈ nd.edges ∧ f u = u' ∧ b.eEq l l' = true)
  injective : ∀ t nd t' nd', G.at t = some nd → G.at t' = some nd' → f t = f t' → t = t'
  surjective : ∀ u nd', H.at u = some nd' → ∃ t nd, G.at t = some nd ∧ f t = u

/-- All callback invocations, of all lanes. -/
def allCalls (g : Job n V L) : List (Incident L × V) := (List.finRange n).flatMap g.calls

/-- Some execution of `cru_built` with `n` lanes ends, and `g` is what its workers leave behind. -/
def Ends (b : Builder V L) (hn : 0 < n) (v₀ : V) (g : Job n V L) : Prop :=
  ∃ s, Net.Reach (task b hn) (firstPacket b v₀) (start v₀) s ∧ s.main = .done ∧ s.g = g

/-- Some execution of `cru_built` with `n` lanes returns `r`. -/
def Returns (b : Builder V L) (hn : 0 < n) (v₀ : V) (r : Except Int (Graph n V L)) : Prop :=
  ∃ g, Ends b hn v₀ g ∧ result b hn v₀ g = r

/-- How often the callback was called for `v` (and, for a subconnector, for an incident edge like `inc`). -/
def timesCalled (b : Builder V L) (g : Job n V L) (inc : Incident L) (v : V) : Nat :=
  (allCalls g).countP fun c => b.incEq inc c.1 && b.vEq v c.2

/-- The vertices handed over to the library: the initial one and every terminus passed to `cru_connect`. -/
def created (b : Builder V L) (v₀ : V) (g : Job n V L) : Multiset V :=
  v₀ ::ₘ (((allCalls g).flatMap fun c => (b.connect c.1 c.2).2.map Prod.snd : List V) : Multiset V)

/-- The labels handed over to the library. -/
def createdLabels (b : Builder V L) (g : Job n V L) : Multiset L :=
  (((allCalls g).flatMap fun c => (b.connect c.1 c.2).2.map Prod.fst : List L) : Multiset L)

/-- The vertices of a graph. -/
def Graph.vertices (G : Graph n V L) : Multiset V := ∑ i, ((G.nodes i).map GNode.vertex : Multiset V)

/-- The edge labels of a graph. -/
def Graph.labels (G : Graph n V L) : Multiset L :=
  ∑ i, (((G.nodes i).flatMap fun nd => nd.edges.map Prod.fst : List L) : Multiset L)

/-- There are at least `k` different vertices satisfying `p`. -/
def AtLeast (b : Builder V L) (k : Nat) (p : V → Prop) : Prop :=
  ∃ vs : List V, vs.length = k ∧ vs.Pairwise (fun v w => ¬ b.vEq v w = true) ∧ ∀ v ∈ vs, p v

end Cru.Build
