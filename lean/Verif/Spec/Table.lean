import Verif.Model.Table
import Verif.Spec.Grouping

/-!
# What multiset tables are for

Tables are made by recording labels in them and by merging one into another.
-/

namespace Cru.Table

variable {L H : Type}

/-- The tables any sequence of operations can make. -/
inductive Made [DecidableEq H] (hash : L → H) (eq : L → L → Bool) : Table L H → Prop
  | empty : Made hash eq fun _ => []
  | record (l : L) {t} : Made hash eq t → Made hash eq (record hash eq l t)
  | merge {t q} : Made hash eq t → Made hash eq q → Made hash eq (merge eq t q)

/-- The labels of one set recorded in an empty table, in the given order. -/
def recorded [DecidableEq H] (hash : L → H) (eq : L → L → Bool) (ls : List L) : Table L H :=
  ls.foldl (fun t l => record hash eq l t) fun _ => []

/-- `Merged ts t` means `t` comes of making a table from each member of `ts` and merging them all, two at a time in whatever
arrangement. -/
inductive Merged [DecidableEq H] (hash : L → H) (eq : L → L → Bool) : List (List L) → Table L H → Prop
  | one (ls : List L) : Merged hash eq [ls] (recorded hash eq ls)
  | both {as bs t q} : Merged hash eq as t → Merged hash eq bs q → Merged hash eq (as ++ bs) (merge eq t q)

/-- How many of the sets have a member equal to the label. -/
def containing (eq : L → L → Bool) (l : L) (sets : List (List L)) : Nat := sets.countP fun ls => ls.any fun x => eq l x

/-- The operations on a set of nodes. -/
inductive SetOp (N : Type)
  | testAndSet (n : N)
  | clear (n : N)

section Sets
variable {N : Type} [DecidableEq N]

/-- The list left by some operations, latest last. -/
def runSet (ops : List (SetOp N)) : List N :=
  ops.foldl (fun s o => match o with | .testAndSet n => (testAndSet n s).2 | .clear n => clearMembership n s) []

/-- A node is in the set as of some operations if it has been set and not cleared since. -/
def InSet (ops : List (SetOp N)) (n : N) : Prop := ∃ a b, ops = a ++ .testAndSet n :: b ∧ .clear n ∉ b

end Sets

section Maps
variable {V C : Type} [DecidableEq V]

/-- Associations made one after another in an initially empty map, with Judy arrays: the map, the error and freed classes. -/
def associated (xs : List (V × C)) : (V → Option C) × Int × List C :=
  xs.foldl (fun s x => let r := associate s.1 x.1 x.2 s.2.1; (r.1, r.2.1, s.2.2 ++ r.2.2.toList)) (fun _ => none, 0, [])

/-- The same without Judy arrays. -/
def associatedNj (xs : List (V × C)) : List (V × C) × List C :=
  xs.foldl (fun s x => let r := associateNj s.1 x.1 x.2; (r.1, s.2 ++ r.2.toList)) ([], [])

/-- The class first associated with a vertex. -/
def firstOf (xs : List (V × C)) (v : V) : Option C := (xs.find? fun x => decide (x.1 = v)).map Prod.snd

end Maps

end Cru.Table
