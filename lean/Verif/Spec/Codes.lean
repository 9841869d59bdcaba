import Verif.Spec.Orders
import Verif.Model.Errs

/-!
# Vocabulary for the explanation of rejected specifications
-/

namespace Cru.Infer

/-- The folds in a property. -/
def Prp.folds (p : Prp) : List Fold := [p.vertex, p.incident, p.outgoing]

/-- The folds in a kernel. -/
def Kernel.folds (k : Kernel) : List Fold := k.vOp.folds ++ [k.eOp]

/-- The folds in a request. -/
def Request.folds : Request → List Fold
  | .mapreduced p _ => p.folds
  | .induced i _ => [i.fold]
  | .filtered f _ => f.kernel.folds
  | .mutated m _ => m.kernel.folds
  | .composed c => c.loc.folds ++ c.adjacent.folds
  | .stretched x => x.prop.folds
  | .split x => x.prop.folds
  | .merged c => c.classifier.prop.folds ++ c.kernel.folds
  | .deduplicated => []
  | .postponed _ => []
  | .spread _ _ => []
  | .partitioned c => match c with | some c => c.prop.folds | none => []

/-- All functions in the folds and orders of the request come from the user. -/
def Request.Supplied (r : Request) : Prop :=
  (∀ f ∈ r.folds, f.FromUser) ∧ match r with
    | .merged c => c.classifier.order.FromUser
    | .filtered f _ => f.order.FromUser
    | _ => True

/-- The code has a message that no other code has. -/
def Explained (lo hi e : Int) : Prop :=
  ∃ t, Errs.strerror lo hi e = some (.text t) ∧ ∀ d, d ≠ e → Errs.strerror lo hi d ≠ some (.text t)

end Cru.Infer
