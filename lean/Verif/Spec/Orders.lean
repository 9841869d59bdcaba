import Verif.Model.Orders
import Verif.Spec.Infer

/-!
# Vocabulary for the orders of graphs
-/

namespace Cru.Infer

/-- There is no function to be called: the field is NULL or has the library's placeholder. -/
def Call.Missing : Call → Prop
  | .hash f => f = none ∨ f = some .undefinedHash
  | .equal f => f = none ∨ f = some .undefinedBpred

/-- The function is the library's default for scalars. -/
def Call.Default : Call → Prop
  | .hash f => f = some .scalarHash
  | .equal f => f = some .equalityBpred

/-- Both functions of an order are there. -/
def Order.Complete (o : Order) : Prop := ∀ x ∈ o.calls, ¬ x.Missing

/-- The orders in a request, and the kernels by which orders are determined, come from the user. -/
def Request.FromUser : Request → Prop
  | .filtered f _ => f.order.FromUser
  | .mutated m _ => m.vOrder.FromUser ∧ m.eOrder.FromUser ∧ m.kernel.vOp.FromUser ∧ m.kernel.eOp.FromUser
  | .merged c => c.vOrder.FromUser ∧ c.eOrder.FromUser ∧ c.classifier.order.FromUser ∧ c.kernel.vOp.FromUser ∧ c.kernel.eOp.FromUser
  | .spread b _ => b.sig.vOrder.FromUser ∧ b.sig.eOrder.FromUser
  | .partitioned c => ∀ x, c = some x → x.order.FromUser
  | _ => True

/-- The orders come from the user. -/
def Origin.FromUser : Origin → Prop
  | .built b _ => b.sig.vOrder.FromUser ∧ b.sig.eOrder.FromUser
  | .crossed c => c.sig.vOrder.FromUser ∧ c.sig.eOrder.FromUser

/-- The signatures graphs can have: a graph is built or crossed, and then there are any number of operations, with specifications from the user, that
are accepted. -/
inductive Carried : Sig → Prop
  | created {o : Origin} {s : Sig} {l : List Call} : o.FromUser → create o = .ok (s, l) → Carried s
  | fabricated {a : Fabricator} {s s' : Sig} : Carried s → a.sig.vOrder.FromUser → a.sig.eOrder.FromUser →
      fabricate a s = .ok s' → Carried s'
  | performed {r : Request} {s s' : Sig} {l : List Call} : Carried s → r.FromUser → perform r s = .ok (s', l) → Carried s'

/-- The zone has an initial vertex that has to be searched for. -/
def Request.searches : Request → Bool
  | .mapreduced _ x => x
  | .induced _ x => x
  | .filtered _ x => x
  | .mutated _ x => x
  | _ => false

/-- The request is to merge vertices or edges. -/
def Request.merges : Request → Bool
  | .merged _ => true
  | _ => false

/-- When the equality of vertices is missing after an operation. -/
def lacksEquality (r : Request) (s : Sig) : Prop :=
  match r with
  | .mutated m _ =>
    m.vOrder.equal = none ∧ (s.vOrder.equal = none ∨ (m.kernel.vOp.blank = false ∧ m.kernel.vOp.vertex.mFree ≠ s.vFree))
  | .merged c => if c.kernel.vOp.blank then s.vOrder.equal = none else c.vOrder.equal = none
  | .stretched _ => False
  | .split _ => False
  | _ => s.vOrder.equal = none

end Cru.Infer
