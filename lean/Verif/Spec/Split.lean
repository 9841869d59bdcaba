import Verif.Model.Split
import Verif.Spec.Graph

/-!
# What splitting should do

A vertex that isn't replaced, or the one made by `ana` in its place, is told apart from the one made by `cata` by a flag: `(m, false)`
and `(m, true)` are the vertices in place of that of `m`.
-/

namespace Cru.Split

variable {N V L P : Type}

/-- The property of a given vertex. -/
def property (sp : Splitter V P L) (g : Gr N V L) (m : N) : P :=
  sp.probe (g.vertex m) ((g.inn m).map fun e => (e.1, g.vertex e.2)) ((g.out m).map fun e => (e.1, g.vertex e.2))

/-- Whether a vertex is to be replaced. -/
def fissile (sp : Splitter V P L) (g : Gr N V L) (prop : N → P) (m : N) : Bool := sp.fissile (g.vertex m) (prop m)

/-- The vertices after splitting. -/
def vertices (sp : Splitter V P L) (g : Gr N V L) (prop : N → P) (s : Twin N) : V :=
  if s.2 then sp.cata (g.vertex s.1) (prop s.1)
  else if fissile sp g prop s.1 then sp.ana (g.vertex s.1) (prop s.1) else g.vertex s.1

/-- The copies of an edge `e` of `m`, given by an origin and a label, on account of `m` being replaced or not. -/
def origins (sp : Splitter V P L) (g : Gr N V L) (prop : N → P) (m : N) (e : L × N) : List (Twin N × L) :=
  if fissile sp g prop m then
    (sp.outAna.label (prop m) e.1 (prop e.2)).toList.map ((m, false), ·) ++ (sp.outCata.label (prop m) e.1 (prop e.2)).toList.map ((m, true), ·)
  else [((m, false), e.1)]

/-- The copies of one of those in turn, given by a label and a terminus, on account of the vertex of `t`, to which it leads, being replaced
or not.  The property of its origin is `q`. -/
def termini (sp : Splitter V P L) (g : Gr N V L) (prop : N → P) (q : P) (l : L) (t : N) : List (L × Twin N) :=
  if fissile sp g prop t then
    (sp.inAna.label q l (prop t)).toList.map (·, (t, false)) ++ (sp.inCata.label q l (prop t)).toList.map (·, (t, true))
  else [(l, (t, false))]

/-- The outgoing edges after splitting, where `tp` gives the properties of the vertices from which they lead. -/
def copiesBy [DecidableEq N] (sp : Splitter V P L) (g : Gr N V L) (prop : N → P) (tp : Twin N → P) (s : Twin N) : List (L × Twin N) :=
  (g.out s.1).flatMap fun e => ((origins sp g prop s.1 e).filter fun o => decide (o.1 = s)).flatMap fun o =>
    termini sp g prop (tp s) o.2 e.2

/-- The same where `cp` gives the properties of the vertices made by `cata`, and the ones made by `ana` have the properties of those that
they replace. -/
def copies [DecidableEq N] (sp : Splitter V P L) (g : Gr N V L) (prop cp : N → P) (s : Twin N) : List (L × Twin N) :=
  copiesBy sp g prop (fun s => if s.2 then cp s.1 else prop s.1) s

/-- The properties of the vertices after splitting according to the manual: "Properties are also computed for these two new vertices
according to the `sp_prop` field.  For purposes of these computations, the incident and outgoing edges to the new vertices are
identical to those of the vertex being replaced." -/
def documented (sp : Splitter V P L) (g : Gr N V L) (prop : N → P) (s : Twin N) : P :=
  sp.probe (vertices sp g prop s) ((g.inn s.1).map fun e => (e.1, g.vertex e.2)) ((g.out s.1).map fun e => (e.1, g.vertex e.2))

/-- The graph after splitting: whatever's reachable from the base vertex or the one made in its place by `ana`. -/
structure IsSplit [DecidableEq N] (sp : Splitter V P L) (g : Gr N V L) (prop cp : N → P) (R : Gr (Twin N) V L) : Prop where
  base : R.base = (g.base, false)
  nodes : Covers (fun s => (copies sp g prop cp s).map (·.2)) (g.base, false) R.nodes
  vertex : ∀ s ∈ R.nodes, R.vertex s = vertices sp g prop s
  out : ∀ s ∈ R.nodes, (R.out s).Perm (copies sp g prop cp s)
  inn : ∀ s, R.inn s = []

/-- The vertices to which copies of the edges of that of `m` lead, on account of `m` alone. -/
def passages (sp : Splitter V P L) (g : Gr N V L) (prop : N → P) (m : N) : List N :=
  ((g.out m).filter fun e => !(origins sp g prop m e).isEmpty).map (·.2)

/-- The property of a vertex made by `cata`, as it's computed: without incident edges, and each vertex adjacent to it being a given one or
a new one. -/
def IsCataProperty (sp : Splitter V P L) (g : Gr N V L) (prop : N → P) (m : N) (q : P) : Prop :=
  ∃ w : N → V, (∀ t, w t = g.vertex t ∨ w t = vertices sp g prop (t, false)) ∧
    q = sp.probe (sp.cata (g.vertex m) (prop m)) [] ((g.out m).map fun e => (e.1, w e.2))

/-- How many of some nodes have a doppleganger on a given lane. -/
def splits (sp : Splitter V P L) (g : Gr N V L) (prop : N → P) (addr : Twin N → Nat) (hn : 0 < n) (i : Fin n) (ms : List N) : Nat :=
  ms.countP fun m => fissile sp g prop m && decide (Build.lane hn (addr (m, true)) = i)

/-- How many nodes there are on a given lane. -/
def homes (g : Gr N V L) (addr : Twin N → Nat) (hn : 0 < n) (i : Fin n) : Nat :=
  (g.nodes.filter fun m => decide (Build.lane hn (addr (m, false)) = i)).length

end Cru.Split
