import Verif.Model.Calls
import Verif.Spec.Codes

/-!
# Vocabulary for calls of the functions in a specification
-/

namespace Cru.Infer

/-- There is a function in the field, and it isn't one that only raises an error. -/
def Present (f : Field) : Prop := ∃ g, f = some g ∧ g.raises = none

/-- A call of a function that is there, or the documented error about a missing vacuous case. -/
def Step.Fine : Step → Prop
  | .call f => Present f
  | .raise e => e = UNDVAC

/-- A call. -/
def Step.IsCall : Step → Prop
  | .call _ => True
  | .raise _ => False

/-- The functions in a request that are not in folds or orders. -/
def Request.others : Request → List Field
  | .induced i _ => [i.boundaryValue]
  | .filtered f _ => [f.thinner]
  | .composed c => [c.qpred, c.qop]
  | .stretched x => [x.expander]
  | .split x => [x.ana, x.cata, x.fissile, x.inAna.tpred, x.inAna.top, x.inCata.tpred, x.inCata.top, x.outAna.tpred, x.outAna.top, x.outCata.tpred, x.outCata.top]
  | .merged c => [c.pruner]
  | .postponed p => [p.postponable, p.bpred, p.bop]
  | .spread b _ => [b.connector, b.subconnector]
  | _ => []

/-- All functions come from the user. -/
def Request.Given (r : Request) : Prop := r.Supplied ∧ ∀ f ∈ r.others, Infer.FromUser f

/-- The same for the creation of a graph. -/
def Origin.others : Origin → List Field
  | .built b _ => [b.connector, b.subconnector]
  | .crossed c => [c.vProd, c.bpred, c.bop]

/-- The request is to merge, and has neither a classifier nor an operation on vertices. -/
def Request.Classless : Request → Prop
  | .merged c => c.classifier.blank = true ∧ c.kernel.vOp.blank = true
  | _ => False

/-- The request is to induce a value, and has no map. -/
def Request.Mapless : Request → Prop
  | .induced i _ => i.fold.map = none
  | _ => False

end Cru.Infer
