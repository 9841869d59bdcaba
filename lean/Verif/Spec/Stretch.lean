import Verif.Model.Stretch
import Verif.Spec.Dedup

/-! # What stretching is supposed to do -/

namespace Cru.Stretch

open Dedup

variable {N N' V L : Type}

/-- The expander passes the vertex `v` to `cru_stretch` when called for some edge. -/
def Requested (g : Gr N V L) (ask : N → L × N → Answer V L) (v : V) : Prop :=
  ∃ m ∈ g.nodes, ∃ e ∈ g.out m, ∃ q ∈ (ask m e).reqs, q.vertex = v

/-- The edges there should be, given by the vertices and the label: those that aren't deleted, and for each call to `cru_stretch`,
one to the new vertex and one from it. -/
inductive Made (g : Gr N V L) (ask : N → L × N → Answer V L) : V → L → V → Prop
  | keep {m e} : m ∈ g.nodes → e ∈ g.out m → (ask m e).delete = false → Made g ask (g.vertex m) e.1 (g.vertex e.2)
  | ante {m e q} : m ∈ g.nodes → e ∈ g.out m → q ∈ (ask m e).reqs → Made g ask (g.vertex m) q.ante q.vertex
  | post {m e q} : m ∈ g.nodes → e ∈ g.out m → q ∈ (ask m e).reqs → Made g ask q.vertex q.post (g.vertex e.2)

/-- No two vertices are equal. -/
def Distinct (o : Orders V L) (g : Gr N V L) : Prop := g.nodes.Pairwise fun a b => ¬ o.Same (g.vertex a) (g.vertex b)

/-- The edges that a vertex should have if none that's requested is equal to it. -/
def outgoing (g : Gr N V L) (ask : N → L × N → Answer V L) (m : N) : List (L × V) :=
  ((g.out m).filter fun e => !(ask m e).delete).map (fun e => (e.1, g.vertex e.2)) ++
    (g.out m).flatMap fun e => (ask m e).reqs.map fun q => (q.ante, q.vertex)

/-- The graph `r` is what `g` becomes in one pass, where `old` gives the node of `r` that a node of `g` becomes. -/
structure Expands (o : Orders V L) (g : Gr N V L) (ask : N → L × N → Answer V L) (old : N → N') (r : Gr N' V L) : Prop where
  inj : Function.Injective old
  base : r.base = old g.base
  vertex : ∀ m, r.vertex (old m) = g.vertex m
  inn : ∀ c, r.inn c = []
  reach : Covers (r.next false) r.base r.nodes
  unique : Distinct o r
  nodes : ∀ c ∈ r.nodes, (∃ m ∈ g.nodes, c = old m) ∨
    Requested g ask (r.vertex c) ∧ ∀ m ∈ g.nodes, ¬ o.Same (g.vertex m) (r.vertex c)
  sound : ∀ c ∈ r.nodes, ∀ e ∈ r.out c, ∃ u w, Made g ask u e.1 w ∧ o.Same u (r.vertex c) ∧ o.Same w (r.vertex e.2)
  complete : ∀ c ∈ r.nodes, ∀ u l w, Made g ask u l w → o.Same u (r.vertex c) → ∃ e ∈ r.out c, o.leq e.1 l = true ∧ o.Same w (r.vertex e.2)
  apart : ∀ m ∈ g.nodes, old m ∈ r.nodes → (∀ v, Requested g ask v → ¬ o.Same v (g.vertex m)) →
    ∃ es, es.Perm (outgoing g ask m) ∧ List.Forall₂ (fun e f => e.1 = f.1 ∧ o.Same f.2 (r.vertex e.2)) (r.out (old m)) es
  once : ∀ c ∈ r.nodes, (∀ m, c ≠ old m) → (r.out c).Pairwise fun e f => ¬ (o.leq e.1 f.1 = true ∧ e.2 = f.2)

/-- More than `limit` vertices in the graph or requested, none equal to another, are in the care of worker `i` of `n`. -/
def Crowded {n : Nat} (o : Orders V L) (g : Gr N V L) (ask : N → L × N → Answer V L) (limit : Nat) (i : Fin n) : Prop :=
  ∃ vs : List V, limit < vs.length ∧ (vs.Pairwise fun a b => ¬ o.Same a b) ∧
    ∀ v ∈ vs, ((∃ m ∈ g.nodes, g.vertex m = v) ∨ Requested g ask v) ∧ o.hash v % 1031 % n = i

/-- Two calls to `cru_stretch` for edges of one vertex have equal first arguments and equal second arguments, and the latter are equal to a vertex
in the graph. -/
def Clash (o : Orders V L) (g : Gr N V L) (ask : N → L × N → Answer V L) : Prop :=
  ∃ m ∈ g.nodes, ∃ w ∈ g.nodes, ∃ (i j k l : Nat) (e f : L × N) (q r : Req V L), (g.out m)[i]? = some e ∧ (g.out m)[j]? = some f ∧ (ask m e).reqs[k]? = some q ∧
    (ask m f).reqs[l]? = some r ∧ (i, k) ≠ (j, l) ∧ o.leq q.ante r.ante = true ∧ o.Same q.vertex r.vertex ∧ o.Same q.vertex (g.vertex w)

/-- Some vertex is requested that isn't equal to any in the graph. -/
def Creates (o : Orders V L) (g : Gr N V L) (ask : N → L × N → Answer V L) : Prop :=
  ∃ v, Requested g ask v ∧ ∀ m ∈ g.nodes, ¬ o.Same (g.vertex m) v

/-- Any number of passes are made, each of which creates a vertex, because `st_fix` is set. -/
inductive Grows {P : Type} [DecidableEq L] (o : Orders V L) (x : Stretcher V L P) : {N N' : Type} → Gr N V L → Gr N' V L → Prop
  | none {N : Type} (g : Gr N V L) : Grows o x g g
  | pass {N N' N'' : Type} [DecidableEq N] {g : Gr N V L} {h : Gr N' V L} {r : Gr N'' V L} (inc : N → List (L × N)) (old : N → N') :
      x.fix = true → ({ g with inn := inc } : Gr N V L).Duplex → Expands o g (x.ask g inc) old h → Creates o g (x.ask g inc) → Grows o x h r → Grows o x g r

/-- The expander or the function that compares vertices raises the error. -/
def Raised (o : Orders V L) (g : Gr N V L) (ask : N → L × N → Answer V L) (e : Int) : Prop :=
  e ≠ 0 ∧ ((∃ m ∈ g.nodes, ∃ f ∈ g.out m, (ask m f).err = e) ∨
    ∃ u w, ((∃ m ∈ g.nodes, g.vertex m = u) ∨ Requested g ask u) ∧ ((∃ m ∈ g.nodes, g.vertex m = w) ∨ Requested g ask w) ∧ (o.equal u w).2 = e)

/-- How the last pass on the graph `g` by `n` workers can end, when the number of vertices in it is limited to `k` unless that's zero. -/
def Ends {P : Type} [DecidableEq L] (o : Orders V L) (x : Stretcher V L P) (n k : Nat) (killable : Bool) (g : Gr N V L) : Outcome V L → Prop
  | .undefined => ∃ (_ : DecidableEq N) (inc : N → List (L × N)), ({ g with inn := inc } : Gr N V L).Duplex ∧ Clash o g (x.ask g inc)
  | .error e => e = Build.intKil ∧ killable = true ∨
    ∃ (_ : DecidableEq N) (inc : N → List (L × N)), ({ g with inn := inc } : Gr N V L).Duplex ∧
      (Raised o g (x.ask g inc) e ∨ e = Build.intOvf ∧ k ≠ 0 ∧ ∃ i : Fin n, Crowded o g (x.ask g inc) (max 1 (k / n)) i)
  | .ok (N := N') r => ∃ (_ : DecidableEq N) (inc : N → List (L × N)) (old : N → N'), ({ g with inn := inc } : Gr N V L).Duplex ∧
      Expands o g (x.ask g inc) old r ∧ (x.fix = true → ¬ Creates o g (x.ask g inc)) ∧
      (k ≠ 0 → ∀ i : Fin n, ¬ Crowded o g (x.ask g inc) (max 1 (k / n)) i)

end Cru.Stretch
