import Verif.Model.Links

/-!
# Vocabulary about linked lists
-/

namespace Cru.Links

variable {R N : Type} [DecidableEq R] [DecidableEq N]

/-- The list in memory that begins at a pointer, each member of which points back to the pointer to it. -/
def Chain (h : Heap R N) : Slot R N → List N → Prop
  | p, [] => h.ptr p = none
  | p, n :: l => h.ptr p = some n ∧ h.prev n = some p ∧ Chain h (.next n) l

/-- The same without pointers back. -/
def Chain₁ (f : Slot R N → Option N) : Slot R N → List N → Prop
  | p, [] => f p = none
  | p, n :: l => f p = some n ∧ Chain₁ f (.next n) l

/-- The list whose first member is `x`, if any.  Nothing is said about where the first one points back to. -/
def Run (h : Heap R N) : Option N → List N → Prop
  | x, [] => x = none
  | x, n :: l => x = some n ∧ Chain h (.next n) l

/-- The same without pointers back. -/
def Run₁ (f : Slot R N → Option N) : Option N → List N → Prop
  | x, [] => x = none
  | x, n :: l => x = some n ∧ Chain₁ f (.next n) l

/-- The pointer after the members `a` of a list that begins at `p`. -/
def after (p : Slot R N) (a : List N) : Slot R N := (a.getLast?.map Slot.next).getD p

/-- The memory has list `ls r` at each variable `r`, and no node is in two places.  Other nodes are on their own. -/
structure Has (h : Heap R N) (ls : R → List N) : Prop where
  chain : ∀ r, Chain h (.root r) (ls r)
  once : ∀ r, (ls r).Nodup
  apart : ∀ r r' n, n ∈ ls r → n ∈ ls r' → r = r'
  loose : ∀ n, (∀ r, n ∉ ls r) → h.prev n = none ∧ h.ptr (.next n) = none

/-- The nodes pushed to `r`, the last one first. -/
def pushes (r : R) : List (Op R N) → List N
  | [] => []
  | .sever _ :: os => pushes r os
  | .push n r' :: os => pushes r os ++ if r' = r then [n] else []

/-- Each node that's pushed has been severed before, and nothing is done to it after that.  `d` are the nodes severed and not pushed yet, and
`f` those that have been pushed. -/
inductive Orderly : List N → List N → List (Op R N) → Prop
  | done {d f} : Orderly d f []
  | sever {d f n os} : n ∉ d → n ∉ f → Orderly (n :: d) f os → Orderly d f (.sever n :: os)
  | push {d f n r os} : n ∈ d → Orderly (d.erase n) (n :: f) os → Orderly d f (.push n r :: os)

end Cru.Links
