import Verif.Model.Repl
import Verif.Spec.Filter
import Verif.Spec.MapReduce

/-! # What a user expects of specifications with functions left out (cru_fold.7, cru_prop.7, cru_filter.7) -/

namespace Cru.Repl

open Infer

/-- `w` is the least of `ws` as unsigned integers. -/
def Least (ws : List Word) (w : Word) : Prop := w ∈ ws ∧ ∀ x ∈ ws, w.toNat ≤ x.toNat

/-- A property with nothing specified. -/
def nothing : Prp := ⟨noFold, noFold, noFold⟩

/-- What the map given in a fold makes of an edge from `v`, which is a pair of a label and a terminus, or the label if there's no map given. -/
def image (u : Env) (f : Fold) (v : Word) (e : Word × Word) : Word :=
  match f.map, f.bmap with
  | some (.user n), _ => u.top n v e.1 e.2
  | _, some (.user n) => u.bop n v e.1
  | _, _ => e.1

/-- The value of the vacuous case, if there is one given. -/
def start (u : Env) (f : Fold) : List Word :=
  match f.vacuousCase with
  | some (.user n) => [u.nop n]
  | _ => []

/-- The test specified by a fold over edges: not passed if the fold isn't specified or fails. -/
def yields (u : Env) (f : Fold) (v : Word) (es : List (Word × Word)) : Bool :=
  !emptyFold f && (match reducedEdges u f v es with
    | .ok w => decide (w ≠ 0)
    | .error _ => false)

/-- The disjunction (cru_filter.7): either of the folds yields a result other than NULL, or neither is specified. -/
def wanted {N : Type} (u : Env) (p : Prp) (g : Gr N Word Word) (m : N) : Bool :=
  emptyFold p.incident && emptyFold p.outgoing ||
    yields u p.incident (g.vertex m) (Filter.ends g (g.inn m)) || yields u p.outgoing (g.vertex m) (Filter.ends g (g.out m))

end Cru.Repl
