import Verif.Model.Mail
import Verif.Spec.Pool

/-!
# Workers that exchange packets, as it ought to be

Lists are lists, and to hand one over or to take one takes a single step.
-/

namespace Cru.Mail

/-- Where a packet can be: in a local variable of a worker or in a field of a port. -/
inductive Place (R I : Type) where
  | var (t : Nat) (r : R)
  | cell (d : Cell I)
  deriving DecidableEq

/-- All workers and the lists of packets at all places. -/
structure Post (R I P : Type) where
  clients : List (Client R I P)
  lists : Place R I → List P

variable {R I P : Type} [DecidableEq R] [DecidableEq I]

/-- Everything at place `a` gets to place `b`, before anything that's there. -/
def transfer (a b : Place R I) (f : Place R I → List P) : Place R I → List P :=
  Function.update (Function.update f a []) b (f a ++ Function.update f a [] b)

/-- The first packet at place `a` gets to place `b`. -/
def transferHead (a b : Place R I) (p : P) (l : List P) (f : Place R I → List P) : Place R I → List P :=
  Function.update (Function.update f a l) b (p :: Function.update f a l b)

/-- One step of worker `t`: what it has to do after that, and the lists then. -/
def act (t : Nat) (f : Place R I → List P) : Client R I P → Option (Client R I P × (Place R I → List P))
  | .done => none
  | .shift r r' k => some (k, if f (.var t r') = [] then transfer (.var t r) (.var t r') f else f)
  | .take r d k => some (k, if f (.var t r) = [] then transfer (.cell d) (.var t r) f else f)
  | .wait r d k =>
    if f (.var t r) = [] then
      if f (.cell d) = [] then some (.take r d k, f) else some (k, transfer (.cell d) (.var t r) f)
    else some (k, f)
  | .move r into k =>
    match f (.var t r) with
    | [] => some (k none, f)
    | p :: l => some (k (some p), transferHead (.var t r) (.var t (into p)) p l f)
  | .send r d k => some (k, transfer (.var t r) (.cell d) f)
  | .undefer i k =>
    some (k, if f (.cell (.assigned i)) = [] then transfer (.cell (.deferred i)) (.cell (.assigned i)) f else f)

/-- What is reached by any sequence of such steps. -/
inductive Post.Reach (a₀ : Post R I P) : Post R I P → Prop
  | init : Post.Reach a₀ a₀
  | step {a : Post R I P} {t c c' f} : Post.Reach a₀ a → a.clients[t]? = some c → act t a.lists c = some (c', f) →
      Post.Reach a₀ ⟨a.clients.set t c', f⟩

/-- No packet is at more than one place or twice in a list. -/
def Distinct (f : Place R I → List P) : Prop := (∀ a, (f a).Nodup) ∧ ∀ a b p, p ∈ f a → p ∈ f b → a = b

/-- Following pointers from `x` yields the list of packets, up to the pointer `e`. -/
def Linked (m : Loc I P → Option P) (e : Option P) : Option P → List P → Prop
  | x, [] => x = e
  | x, p :: l => x = some p ∧ Linked m e (m (.next p)) l

/-- The packets in memory are those in the lists: `h` are the pointers in local variables. -/
def Represents (f : Place R I → List P) (h : Nat → R → Option P) (m : Loc I P → Option P) : Prop :=
  (∀ t r, Linked m none (h t r) (f (.var t r))) ∧ ∀ d, Linked m none (m (.cell d)) (f (.cell d))

end Cru.Mail
