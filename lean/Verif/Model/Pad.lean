import Mathlib.Logic.Function.Basic

/-!
# Sizes of specifications in development builds (copy.c:36-92)

Specifications of operations, such as `struct cru_builder_s`, are copied to the heap (copy.c:108-637).  In development builds the blocks are
padded, so that blocks of different types have different sizes and a confusion of types is detected by the memory checker.
-/

namespace Cru.Pad

/-- The variables of `_cru_open_copy` (copy.c:74-92): the index `i` and the array `pad`.  Tags are numbered from 0 rather than from
`NON + 1`. -/
structure St where
  i : Nat
  pad : Nat → Nat

/-- Initially (copy.c:82, 84). -/
def start : St := ⟨0, fun _ => 0⟩

/-- The inner loop (copy.c:85-87): whether it's left because the padded size of `i` equals one of those before. -/
def clash (size : Nat → Nat) (s : St) : Bool := (List.range s.i).any fun j => size j + s.pad j == size s.i + s.pad s.i

/-- One iteration of the outer loop (copy.c:84-87) for `m` types, with sizes `size` in units (copy.c:38-67); `none` when it has ended. -/
def step (m : Nat) (size : Nat → Nat) (s : St) : Option St :=
  if s.i < m then
    some (if clash size s then { s with pad := Function.update s.pad s.i (s.pad s.i + 1) } else { s with i := s.i + 1 })
  else none

/-- That many iterations, or fewer if it ends. -/
def iterate (m : Nat) (size : Nat → Nat) : Nat → St → St
  | 0, s => s
  | k + 1, s =>
    match step m size s with
    | none => s
    | some t => iterate m size k t

/-- The size of a block in bytes (copy.c:88-89, 121), with units of `2 ^ q` bytes. -/
def bytes (q : Nat) (sizeof pad : Nat → Nat) (i : Nat) : Nat := sizeof i + pad i * 2 ^ q

end Cru.Pad
