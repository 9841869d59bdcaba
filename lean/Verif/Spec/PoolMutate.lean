import Verif.Spec.Pool

/-!
# Vocabulary about mutation in terms of memory
-/

namespace Cru.Pool

variable {N E X : Type}

/-- The lists of a graph in full duplex form have just the edges that they ought to have, each once. -/
structure Shape.Proper (G : Shape N E) : Prop where
  pre : ∀ n e, e ∈ G.pre n ↔ G.dst e = n
  dep : ∀ n e, e ∈ G.dep n ↔ G.src e = n
  once : ∀ n, (G.pre n).Nodup ∧ (G.dep n).Nodup

/-- If there's a vertex operator, and there's also an edge operator or a fold that depends on remote vertices, then a priority is requested,
and there's an edge operator or a fold over the edges on the side of the prerequisites. -/
def Ops.Sound (o : Ops X) : Prop :=
  o.vop.isSome = true → o.eop.isSome = true ∨ o.before = .all ∨ o.after = .all →
    o.ordered = true ∧ (o.eop.isSome = true ∨ o.before ≠ .nothing)

/-- What's accepted by `cru_mutated` if no priority is requested (infer.c:462-475): a vertex operator alone, whose folds don't depend on
remote vertices, or no vertex operator. -/
def Ops.Accepted (o : Ops X) : Prop :=
  o.ordered = false → o.vop.isSome = true → o.eop = none ∧ o.before ≠ .all ∧ o.after ≠ .all

variable [Zero X]

/-- What a fold gets to see of the labels `l` and the remote vertices `w` of edges `es`. -/
def view (s : Sight) (l w : E → X) (es : List E) : List (X × X) :=
  match s with
  | .nothing => []
  | .labels => es.map fun e => (l e, 0)
  | .all => es.map fun e => (l e, w e)

variable (o : Ops X) (G : Shape N E) (m : Loc N E → X)

/-- The label that an edge gets if its origin becomes `v`, given the memory `m` before the mutation. -/
def label (e : E) (v : X) : X :=
  match o.eop with
  | none => m (.near e)
  | some g => g v (m (.near e)) (m (.vertex (G.dst e)))

/-- What a vertex becomes, given the memory `m` before the mutation: it stays what it is without a vertex operator, and otherwise it's the
result of that for the original vertex, what prerequisites and their labels become, and the original labels and vertices on the other
side. -/
inductive Final : N → X → Prop
  | keep {n} : o.vop = none → Final n (m (.vertex n))
  | new {n} (f : X → List (X × X) → List (X × X) → X) (w : E → X) : o.vop = some f →
      (o.before = .all ∨ (o.eop.isSome = true ∧ o.before ≠ .nothing) → ∀ e ∈ G.pre n, Final (G.src e) (w e)) →
      Final n (f (m (.vertex n)) (view o.before (fun e => label o G m e (w e)) w (G.pre n))
        (view o.after (fun e => m (.near e)) (fun e => m (.vertex (G.dst e))) (G.dep n)))

end Cru.Pool
