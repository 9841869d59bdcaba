import Mathlib.Data.List.Basic

/-!
# Multiset tables, node sets and vertex maps (table.c:295-728, emu.c)

A table maps hashes to bins, which are linked lists in the order of their links.  With Judy arrays the bins are indexed by
hash values; without them there is a single bin, so `H` is then the unit type and `hash` constant.  Simplifications: memory
is never exhausted, the equality predicate raises no errors, and multiplicities, whose overflow is an internal error
(emu.c:90), are natural numbers.
-/

namespace Cru.Table

variable {L H : Type}

/-- `multiset_table_bin`: labels with multiplicities numbered from zero. -/
abbrev Bin (L : Type) := List (L × Nat)

/-- `multiset_table`. -/
abbrev Table (L H : Type) := H → Bin L

/-- `_cru_multirecord` (emu.c:34-53): append the label unless one equal to it is there. -/
def multirecord (eq : L → L → Bool) (l : L) : Bin L → Bin L
  | [] => [(l, 0)]
  | x :: t => if eq l x.1 then x :: t else x :: multirecord eq l t

/-- `_cru_record_edge` (table.c:300-324). -/
def record [DecidableEq H] (hash : L → H) (eq : L → L → Bool) (l : L) (t : Table L H) : Table L H :=
  fun h => if h = hash l then multirecord eq l (t h) else t h

/-- One round of `_cru_multimerge` (emu.c:84-99): add an entry of the other list. -/
def mergeEntry (eq : L → L → Bool) (q : L × Nat) : Bin L → Bin L
  | [] => [q]
  | p :: t => if eq p.1 q.1 then (p.1, p.2 + q.2 + 1) :: t else p :: mergeEntry eq q t

/-- `_cru_multimerge` (emu.c:60-103). -/
def multimerge (eq : L → L → Bool) (t q : Bin L) : Bin L := q.foldl (fun t x => mergeEntry eq x t) t

/-- `_cru_merge` (table.c:383-411): merge bins of equal hashes. -/
def merge (eq : L → L → Bool) (t q : Table L H) : Table L H := fun h => multimerge eq (t h) (q h)

/-- The search loop of `_cru_already_recorded` and `_cru_multiplicity` (table.c:374, 433). -/
def find (hash : L → H) (eq : L → L → Bool) (l : L) (t : Table L H) : Option (L × Nat) := (t (hash l)).find? fun x => eq l x.1

/-- `_cru_already_recorded` (table.c:359-376). -/
def alreadyRecorded (hash : L → H) (eq : L → L → Bool) (l : L) (t : Table L H) : Bool := (find hash eq l t).isSome

/-- `_cru_multiplicity` (table.c:418-435). -/
def multiplicity (hash : L → H) (eq : L → L → Bool) (l : L) (t : Table L H) : Nat :=
  match find hash eq l t with
  | some x => x.2
  | none => 0

/-! ## Node sets without Judy arrays (emu.c:147-268) -/

section Sets
variable {N : Type} [DecidableEq N]

/-- `_cru_member_nj` (emu.c:153-164). -/
def member (node : N) : List N → Bool
  | [] => false
  | x :: s => if x = node then true else member node s

/-- `_cru_set_membership_nj` (emu.c:172-190). -/
def setMembership (node : N) (s : List N) : List N := node :: s

/-- `_cru_clear_membership_nj` (emu.c:198-217): the first occurrence is unlinked. -/
def clearMembership (node : N) : List N → List N
  | [] => []
  | x :: s => if x = node then s else x :: clearMembership node s

/-- `_cru_test_and_set_membership_nj` (emu.c:226-249). -/
def testAndSet (node : N) (s : List N) : Bool × List N := if member node s then (true, s) else (false, node :: s)

end Sets

/-! ## Vertex maps (table.c:635-728, emu.c:274-351) -/

section Maps
variable {V C : Type} [DecidableEq V]

/-- `CRU_PARDPV` (include/cru/error_codes.h:62). -/
def PARDPV : Int := -536

/-- `_cru_associate` with Judy arrays (table.c:702-728): the map, the error code, and the class if it had to be freed. -/
def associate (m : V → Option C) (v : V) (h : C) (err : Int) : (V → Option C) × Int × Option C :=
  match m v with
  | some _ => (m, if err ≠ 0 then err else PARDPV, some h)
  | none => (fun u => if u = v then some h else m u, err, none)

/-- `_cru_image_nj` (emu.c:282-294). -/
def imageNj (v : V) : List (V × C) → Option C
  | [] => none
  | x :: m => if x.1 = v then some x.2 else imageNj v m

/-- `_cru_associate_nj` (emu.c:327-351). -/
def associateNj (m : List (V × C)) (v : V) (h : C) : List (V × C) × Option C :=
  match imageNj v m with
  | some _ => (m, some h)
  | none => (m ++ [(v, h)], none)

end Maps

end Cru.Table
