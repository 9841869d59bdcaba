import Verif.Model.Fab
import Verif.Spec.Spawn

/-! # What a fabricated graph should be -/

namespace Cru.Fab

/-- The graph `h` has one node for each node of `g`, with a vertex made from its vertex, connected in the same way by edges whose
labels are made from those of its edges. -/
def IsCopy {J N V L W M : Type} (vf : V → W) (ef : L → M) (g : Gr N V L) (h : Gr J (Option W) M) : Prop :=
  Depicts g.nodes g.base (fun m => vf (g.vertex m)) (fun m => (g.out m).map fun e => (ef e.1, e.2)) h

end Cru.Fab
