import Mathlib.Data.List.Perm.Basic
import Mathlib.Data.List.Pairwise

/-!
# Partitions and transversals of lists

The vocabulary of "grouped by" and "one of each kind", independent of any algorithm.
-/

namespace Cru

variable {α : Type}

/-- `b` is `es` split into non-empty groups, with two members in the same group exactly when related. -/
structure IsGrouping (rel : α → α → Prop) (es : List α) (b : List (List α)) : Prop where
  perm : b.flatten.Perm es
  nonempty : ∀ g ∈ b, g ≠ []
  within : ∀ g ∈ b, ∀ x ∈ g, ∀ y ∈ g, rel x y
  across : b.Pairwise fun g g' => ∀ x ∈ g, ∀ y ∈ g', ¬ rel x y

/-- `out` has exactly one member of each kind occurring in `es`, and `dropped` is the rest. -/
structure IsTransversal (rel : α → α → Prop) (es out dropped : List α) : Prop where
  perm : (out ++ dropped).Perm es
  distinct : out.Pairwise fun x y => ¬ rel x y
  covers : ∀ e ∈ es, ∃ o ∈ out, rel o e

/-- A user-supplied equality predicate is an equivalence relation, and a hash respects it. -/
structure IsEquality (eq : α → α → Bool) : Prop where
  refl : ∀ a, eq a a = true
  symm : ∀ a b, eq a b = true → eq b a = true
  trans : ∀ a b c, eq a b = true → eq b c = true → eq a c = true

def HashRespects (h : α → Nat) (eq : α → α → Bool) : Prop := ∀ a b, eq a b = true → h a = h b

/-- A user-supplied `precedes` predicate is a strict weak order: asymmetric, and incomparability is transitive
(stated in the usual contrapositive form). -/
structure IsStrictWeak (lt : α → α → Bool) : Prop where
  asymm : ∀ a b, lt a b = true → lt b a = false
  weak : ∀ a b c, lt a b = true → lt a c = true ∨ lt c b = true

end Cru
