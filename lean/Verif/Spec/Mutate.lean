import Verif.Model.Mutate
import Verif.Spec.Graph

/-! # What mutation is supposed to do -/

namespace Cru.Mutate

variable {N V L : Type}

/-- The edges connecting a node to those that must be mutated before it (cru_plan): with `local_first`, the ones it's reached by in a
traversal of the zone, and with `remote_first`, the ones the traversal goes on to. -/
def before (p : Plan) (g : Gr N V L) (m : N) : List (L × N) := if p.backwards = p.remoteFirst then g.inn m else g.out m

/-- The edges in the other direction. -/
def after (p : Plan) (g : Gr N V L) (m : N) : List (L × N) := if p.backwards = p.remoteFirst then g.out m else g.inn m

/-- The nodes that must be mutated before a node. -/
abbrev prior (p : Plan) (g : Gr N V L) (m : N) : List N := (before p g m).map Prod.snd

/-- The nodes whose turn comes: those not left out, without anything before them, or such that everything before them is either left
out or has its turn, and something does. -/
inductive Turn (prior : N → List N) (omitted : N → Prop) : N → Prop
  | first {m : N} : ¬ omitted m → prior m = [] → Turn prior omitted m
  | next {m t : N} : ¬ omitted m → (∀ t ∈ prior m, ¬ omitted t → Turn prior omitted t) → t ∈ prior m → Turn prior omitted t →
      Turn prior omitted m

/-- Each node in the list is preceded by all nodes before it other than those left out. -/
def InTurn (prior : N → List N) (omitted : N → Prop) (l : List N) : Prop :=
  ∀ xs m ys, l = xs ++ m :: ys → ∀ t ∈ prior m, omitted t ∨ t ∈ xs

/-- The vertex that the kernel has for a vertex with the given incoming and outgoing labels and remote vertices (cru_mutator). -/
def Revised (k : Kernel V L) (v : V) (ins outs : List (L × V)) (v' : V) : Prop :=
  match k.vop with
  | none => v' = v
  | some f => f v (if k.noIn then [] else ins) (if k.noOut then [] else outs) = .ok v'

/-- The edges have the labels that the kernel has for them, the vertex on the near side being `v`. -/
def Relabelled (k : Kernel V L) (v : V) (vertex : N → V) (es es' : List (L × N)) : Prop :=
  match k.eop with
  | none => es' = es
  | some f => List.Forall₂ (fun e e' => f v e.1 (vertex e.2) = .ok e'.1 ∧ e'.2 = e.2) es es'

/-- Replace the labels of the edges to a node by the given ones, in order. -/
def patch [DecidableEq N] : (N → Option (List L)) → List (L × N) → List (L × N)
  | _, [] => []
  | f, e :: es =>
    match f e.2 with
    | some (l :: ls) => (l, e.2) :: patch (Function.update f e.2 (some ls)) es
    | _ => e :: patch f es

open Classical in
/-- The edges of `m` in the direction of those before it, with the labels that these have given to them, `post t` being the edges of
`t` in the other direction. -/
noncomputable def arriving [DecidableEq N] (k : Kernel V L) (p : Plan) (g : Gr N V L) (turn : N → Prop) (post : N → List (L × N)) (m : N) :
    List (L × N) :=
  match k.eop with
  | none => before p g m
  | some _ => patch (fun t => if turn t then some (((post t).filter (·.2 = m)).map Prod.fst) else none) (before p g m)

/-- Mutation in order: the new vertex of a node `m` is what the kernel has for it, given the new vertices and edge labels on the side of
the nodes before it and the original ones on the other side.  The labels on the other side are what the kernel has for them given
the new vertex. -/
inductive Becomes [DecidableEq N] (k : Kernel V L) (p : Plan) (g : Gr N V L) (turn : N → Prop) : N → V → List (L × N) → Prop
  | intro {m : N} {v : V} {es : List (L × N)} (val : N → V) (post : N → List (L × N)) :
      (∀ t ∈ prior p g m, turn t → Becomes k p g turn t (val t) (post t)) →
      (∀ t ∈ prior p g m, ¬ turn t → val t = g.vertex t) →
      (let new := (arriving k p g turn post m).map fun e => (e.1, val e.2)
       let old := (after p g m).map fun e => (e.1, g.vertex e.2)
       if p.backwards = p.remoteFirst then Revised k (g.vertex m) new old v else Revised k (g.vertex m) old new v) →
      Relabelled k v g.vertex (after p g m) es → Becomes k p g turn m v es

/-- Mutation regardless of order: the new vertices and labels are what the kernel has given the original ones. -/
def Directly (k : Kernel V L) (p : Plan) (g : Gr N V L) (m : N) (v : V) (es : List (L × N)) : Prop :=
  Revised k (g.vertex m) ((g.inn m).map fun e => (e.1, g.vertex e.2)) ((g.out m).map fun e => (e.1, g.vertex e.2)) v ∧
  Relabelled k v g.vertex (after p g m) es

/-- `h` is `g` with the nodes whose turn comes mutated as the relation `Val` says, and nothing else, except that the same labels
are found at both ends of each edge. -/
structure IsMutated [DecidableEq N] (k : Kernel V L) (p : Plan) (g : Gr N V L) (turn : N → Prop) (Val : N → V → List (L × N) → Prop) (h : Gr N V L) :
    Prop where
  nodes : h.nodes = g.nodes
  base : h.base = g.base
  mutated : ∀ m ∈ g.nodes, turn m → Val m (h.vertex m) (after p h m)
  kept : ∀ m ∈ g.nodes, ¬ turn m → h.vertex m = g.vertex m ∧ after p h m = after p g m
  matched : ∀ m ∈ g.nodes, before p h m = arriving k p g turn (after p h) m

/-- The nodes left out if there's an initial vertex `b` other than the base vertex: those outside the zone, unless the lane they're on
doesn't have any node in the zone. -/
def Omitted {n : Nat} (g : Gr N V L) (p : Plan) (b : N) (lane : N → Fin n) (m : N) : Prop :=
  b ≠ g.base ∧ m ∈ g.nodes ∧ ¬ Reaches (g.next p.backwards) b m ∧ ∃ t, Reaches (g.next p.backwards) b t ∧ lane t = lane m

/-- The kernel's vertices depend on what comes before them. -/
def Kernel.Sequential (k : Kernel V L) (p : Plan) : Prop :=
  k.vop ≠ none ∧ (k.eop ≠ none ∨ (if p.backwards = p.remoteFirst then k.noIn else k.noOut) = false)

/-- The kernel only changes labels, or only changes vertices without looking at anything else. -/
def Kernel.Simultaneous (k : Kernel V L) : Prop := k.vop = none ∨ (k.eop = none ∧ k.noIn = true ∧ k.noOut = true)

/-- What the kernel is limited to if the order isn't constrained (infer.c:468-475): only labels, or only vertices, depending on
labels but not on other vertices. -/
def Kernel.Unconstrained (k : Kernel V L) : Prop :=
  k.vop = none ∨ (k.eop = none ∧ ∀ f, k.vop = some f → ∀ v ins outs ins' outs', ins.map Prod.fst = ins'.map Prod.fst →
    outs.map Prod.fst = outs'.map Prod.fst → f v ins outs = f v ins' outs')

/-- An error that some user function of the kernel may raise. -/
def Raised (k : Kernel V L) (e : Int) : Prop :=
  (∃ f v ins outs x, k.vop = some f ∧ f v ins outs = .error x ∧ e = x.1) ∨
  ∃ f v l w x, k.eop = some f ∧ f v l w = .error x ∧ e = x.1

/-- Two graphs that agree. -/
structure Agree (h h' : Gr N V L) : Prop where
  nodes : h.nodes = h'.nodes
  base : h.base = h'.base
  vertex : ∀ m ∈ h.nodes, h.vertex m = h'.vertex m
  out : ∀ m ∈ h.nodes, h.out m = h'.out m
  inn : ∀ m ∈ h.nodes, h.inn m = h'.inn m

/-- What a full duplex graph is taken to be here. -/
structure Full [DecidableEq N] [DecidableEq L] (g : Gr N V L) : Prop where
  wf : g.WF
  duplex : g.Duplex
  inn : ∀ m ∈ g.nodes, ∀ e ∈ g.inn m, e.2 ∈ g.nodes

end Cru.Mutate
