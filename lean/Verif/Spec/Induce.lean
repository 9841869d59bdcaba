import Verif.Model.Induce
import Verif.Spec.Graph

/-! # The value of a vertex, by recursion over the graph -/

namespace Cru.Induce

variable {N V L A : Type}

/-- The fold of a function over edge labels and values, from the right operand to the left: the first reduction result is the
vacuous case, and each further one is the reduction of a map result with the previous one. -/
def foldFrom (d : Inducer V L A) (v : V) (r : A) (es : List (L × A)) : Except Failure A :=
  es.foldlM (fun r e => do d.reduction (← d.map v e.1 e.2) r) r

/-- What a vertex and the labels and values of its prerequisites evaluate to (cru_inducer). -/
def local_ (d : Inducer V L A) (v : V) (es : List (L × A)) : Except Failure A :=
  match d.boundary, d.vacuous, es with
  | some f, _, [] => f v
  | _, some a, es => do foldFrom d v (← a) es
  | _, none, e :: es => do foldFrom d v (← d.map v e.1 e.2) es
  | none, none, [] => .error undVac

/-- Node `m` has value `a`: its prerequisites have values, and it evaluates to `a`. -/
inductive Has (d : Inducer V L A) (vertex : N → V) (arcs : N → List (L × N)) : N → A → Prop
  | intro (m : N) (a : A) (val : N → A) : (∀ e ∈ arcs m, Has d vertex arcs e.2 (val e.2)) →
      local_ d (vertex m) ((arcs m).map fun e => (e.1, val e.2)) = .ok a → Has d vertex arcs m a

/-- Evaluating node `m` fails: its prerequisites have values, and evaluation ends with the error. -/
def Fails (d : Inducer V L A) (vertex : N → V) (arcs : N → List (L × N)) (m : N) (x : Failure) : Prop :=
  ∃ val : N → A, (∀ e ∈ arcs m, Has d vertex arcs e.2 (val e.2)) ∧
    local_ d (vertex m) ((arcs m).map fun e => (e.1, val e.2)) = .error x

/-- No node reachable from `b` is on a cycle. -/
def Acyclic (next : N → List N) (b : N) : Prop :=
  ∀ m, Reaches next b m → ¬ Relation.TransGen (fun x y => y ∈ next x) m m

/-- Each node in the list is preceded by all of its prerequisites. -/
def InOrder (next : N → List N) (l : List N) : Prop :=
  ∀ before m after, l = before ++ m :: after → ∀ t ∈ next m, t ∈ before

end Cru.Induce
