import Verif.Model.Resource

/-!
# Numbers of threads and sizes of arrays for them (config.h.in, entry.c, route.c, classes.c)

An unsigned number is less than two to the power of 32.  Internal errors are negative numbers as in `Model/Errs.lean`.
-/

namespace Cru.Lanes

/-- `NPROC` (config.h.in:17), where `s` is what `sysconf` returns, which is -1 in case of an error. -/
def nproc (s : Int) : Nat := (s % 2 ^ 32).toNat

/-- The number of lanes as it's passed on by any API function (entry.c:244, 276, 476, 506, 537, 575, 624, 670, 706, 812, 893, 927, 976, 1042). -/
def passed (p lanes : Nat) : Nat := if lanes ≠ 0 then lanes else if p ≠ 0 then p else 1

/-- The number of threads used by an API function given a number of lanes (entry.c:244, route.c:125-128). -/
def threads (s : Int) (lanes : Nat) : Nat := Resource.capped (nproc s) (passed (nproc s) lanes)

/-- `pointer_array_size` and `thread_id_array_size` (route.c:57-89), where `size_t` has the given number of bits, the members of the array have the given
size, and `e₁` and `e₂` are the internal errors. -/
def arraySize (bits : Nat) (e₁ e₂ : Int) (size l : Nat) : Except Int Nat :=
  if l * size % 2 ^ bits < l then .error e₁ else if l * size % 2 ^ bits < size then .error e₂ else .ok (l * size % 2 ^ bits)

/-- `pointer_array_size` (route.c:57-70). -/
def pointerArraySize (bits size l : Nat) : Except Int Nat := arraySize bits (-1441) (-1442) size l

/-- `thread_id_array_size` (route.c:76-89). -/
def threadArraySize (bits size l : Nat) : Except Int Nat := arraySize bits (-1443) (-1444) size l

/-- `map_size` (classes.c:55-68). -/
def mapSize (bits size p : Nat) : Except Int Nat := if p = 0 then .error (-603) else arraySize bits (-604) (-605) size p

/-- The arrays of ports and of threads for a call of an API function (route.c:129-147), where sizes of pointers and thread identifiers are given. -/
def arrays (bits ptr tid : Nat) (s : Int) (lanes : Nat) : Except Int (Nat × Nat) :=
  match pointerArraySize bits ptr (threads s lanes), threadArraySize bits tid (threads s lanes) with
  | .ok a, .ok b => .ok (a, b)
  | .error e, _ => .error e
  | .ok _, .error e => .error e

/-- The number of maps in a partition made by `cru_partition_of`, and the size of the array for them (entry.c:670-671, route.c:423, classes.c:87-94). -/
def maps (bits ptr : Nat) (s : Int) (lanes : Nat) : Except Int (Nat × Nat) :=
  (mapSize bits ptr (passed (nproc s) lanes)).map fun m => (passed (nproc s) lanes, m)

end Cru.Lanes
