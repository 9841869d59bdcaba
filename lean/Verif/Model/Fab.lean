import Verif.Model.Spawn

/-! # Fabrication (fab.c, entry.c:256-280) -/

namespace Cru.Fab

variable {n : Nat} {N V L W M : Type}

/-- The node made by `new_node` (fab.c:76-81) from a node of the given graph.  New edges are inserted before the others
(`_cru_cat_edges`, fab.c:81). -/
def maker (vf : V → W) (ef : L → M) (g : Gr N V L) : Spawn.Maker N W M where
  vertex m := vf (g.vertex m)
  edges m := (g.out m).foldl (fun es e => (ef e.1, e.2) :: es) []

/-- `cru_fabricated` (entry.c:256-280) by `_cru_fabricated` (fab.c:183-205) for a graph that isn't empty, with vertex and edge
fabricators `vf` and `ef`, and the hash of the address of a node `addr` (`_cru_scalar_hash`).  The given graph is only read. -/
def Fabricated [DecidableEq N] (vf : V → W) (ef : L → M) (addr : N → Nat) (hn : 0 < n) (g : Gr N V L)
    (r : Except Int (Gr (Spawn.Id n) (Option W) M)) : Prop :=
  Spawn.Launched (maker vf ef g) 0 addr hn g.base r

end Cru.Fab
