import Mathlib.Data.List.Basic

/-!
# The memory checker of test builds (wrap.c)

Every function here holds `wrap_lock` from beginning to end (wrap.c:249-276, 314-331, 374-393, 416-421, 449-453, 492-499), so that any
execution by several threads is a sequence of calls.  Locks are taken not to fail, and counters not to wrap around.
-/

namespace Cru.Wrap

variable {F : Type}

/-- `CRU_DEVDBF`, `CRU_DEVMLK`, `CRU_DEVIAL` (cru.h), and `ENOMEM`. -/
def devDbf : Int := -516
def devMlk : Int := -518
def devIal : Int := -517
def noMem : Int := 12

/-- `SIZE_LIMIT` (wrap.c:36) and `ERR_LIMIT` (wrap.c:30). -/
def sizeLimit : Nat := 256
def errLimit : Nat := 64

/-- How it's compiled: whether `SOFT_LIMIT` is defined (config.h.in:43), and `MALLOX` (ptr.h.in:41). -/
structure Cfg where
  soft : Bool
  mallox : Nat

/-- The static variables (wrap.c:46-77).  `allowed` is `none` for `UINTPTR_MAX`, `tests` is `test_count` and `errs` is `err_count`.  A
row of the heap tracker is a list of the callers in it with their counts, in order.  `thrown` is whether any internal error has been
thrown globally.  The arrays of locations for messages (wrap.c:65-74) are left out. -/
structure St (F : Type) where
  allowed : Option Nat
  count : Nat
  freed : Nat
  doubleFree : Bool
  errs : Nat
  tests : Nat
  tracker : Nat → List (F × Nat)
  thrown : Bool

/-- The initial values (wrap.c:46-77, 103-115). -/
def init : St F := ⟨none, 0, 0, false, 0, 0, fun _ => [], false⟩

/-- The calls: `_cru_malloc_wrapper` where `lib` is whether `malloc` succeeds, `_cru_free_wrapper`, `_cru_allocation_allowed`,
`crudev_limit_allocations`, `crudev_allocations_performed` and `crudev_all_clear`, where `reserved` is the number of packets and crews
in reserve.  The number `q` is the size in quanta, i.e. `s >> QUANTUM`. -/
inductive Op (F : Type)
  | malloc (file : F) (q : Nat) (lib : Bool)
  | free (file : F) (q : Nat)
  | simulate
  | limit (k : Nat)
  | performed
  | allClear (reserved : Nat)

/-- The result, as a number, and `*err`, where it was zero beforehand. -/
structure Res where
  val : Nat
  err : Int
deriving DecidableEq

/-- `malloc_call_count < malloc_calls_allowed`. -/
def under (s : St F) : Bool :=
  match s.allowed with
  | none => true
  | some k => decide (s.count < k)

/-- `malloc_call_count > malloc_calls_allowed`. -/
def over (s : St F) : Bool :=
  match s.allowed with
  | none => false
  | some k => decide (k < s.count)

/-- The loop that counts an allocation (wrap.c:266-268), with `none` if it ends with `i >= MALLOX`. -/
def bump [DecidableEq F] (mallox : Nat) (file : F) : List (F × Nat) → Option (List (F × Nat))
  | [] => if 0 < mallox then some [(file, 1)] else none
  | (f, k) :: t =>
    if mallox = 0 then none
    else if f = file then some ((f, k + 1) :: t)
    else (bump (mallox - 1) file t).map ((f, k) :: ·)

/-- Recording an allocation (wrap.c:262-269). -/
def track [DecidableEq F] (c : Cfg) (file : F) (q : Nat) (s : St F) : St F :=
  if q = 0 then { s with thrown := true }
  else if sizeLimit ≤ q - 1 then s
  else match bump c.mallox file (s.tracker (q - 1)) with
    | none => { s with thrown := true }
    | some r => { s with tracker := Function.update s.tracker (q - 1) r }

/-- `_cru_malloc_wrapper` (wrap.c:223-280).  The size isn't zero. -/
def malloc [DecidableEq F] (c : Cfg) (file : F) (q : Nat) (lib : Bool) (s : St F) : St F × Res :=
  if c.soft = true ∧ s.tests ≠ 0 ∧ 0 < s.count + lib.toNat then (track c file q { s with count := s.count + lib.toNat }, ⟨lib.toNat, 0⟩)
  else if c.soft = false ∧ over s = true then ({ s with thrown := true }, ⟨0, 0⟩)
  else if under s = true ∧ 0 < s.count + lib.toNat then (track c file q { s with count := s.count + lib.toNat }, ⟨lib.toNat, 0⟩)
  else ({ s with tests := s.tests + 1 }, ⟨0, 0⟩)

/-- The search for the caller (wrap.c:320-321): the count found, decremented, if it's not zero. -/
def drop [DecidableEq F] (mallox : Nat) (file : F) : List (F × Nat) → Option (List (F × Nat))
  | [] => none
  | (f, k) :: t =>
    if mallox = 0 then none
    else if f = file then (if k = 0 then none else some ((f, k - 1) :: t))
    else (drop (mallox - 1) file t).map ((f, k) :: ·)

/-- `_cru_free_wrapper` (wrap.c:287-334). -/
def free [DecidableEq F] (c : Cfg) (file : F) (q : Nat) (s : St F) : St F :=
  if q = 0 then { s with freed := s.freed + 1, thrown := true }
  else if sizeLimit ≤ q - 1 then { s with freed := s.freed + 1 }
  else match drop c.mallox file (s.tracker (q - 1)) with
    | some r => { s with freed := s.freed + 1, tracker := Function.update s.tracker (q - 1) r }
    | none =>
      if errLimit ≤ s.errs then { s with doubleFree := true, errs := s.errs + 1, freed := s.freed + 1 }
      else { s with doubleFree := true, errs := s.errs + 1 }

/-- `_cru_allocation_allowed` (wrap.c:351-396). -/
def simulate (c : Cfg) (s : St F) : St F × Res :=
  if s.doubleFree = true then (s, ⟨0, devDbf⟩)
  else if s.count < s.freed then (s, ⟨0, -1747⟩)
  else if c.soft = true ∧ s.tests ≠ 0 then ({ s with count := s.count + 1, freed := s.freed + 1 }, ⟨1, 0⟩)
  else if c.soft = false ∧ over s = true then (s, ⟨0, -1748⟩)
  else if under s = true then ({ s with count := s.count + 1, freed := s.freed + 1 }, ⟨1, 0⟩)
  else ({ s with tests := s.tests + 1 }, ⟨0, noMem⟩)

/-- `_crudev_all_clear` (wrap.c:467-502). -/
def allClear (reserved : Nat) (s : St F) : Res :=
  if s.doubleFree = true then ⟨0, devDbf⟩
  else if s.count < s.freed then ⟨0, -1758⟩
  else if s.freed + reserved < s.count then ⟨0, devMlk⟩
  else ⟨1, 0⟩

/-- All calls; `crudev_limit_allocations` is wrap.c:403-423 and `crudev_allocations_performed` is wrap.c:437-456. -/
def step [DecidableEq F] (c : Cfg) (s : St F) : Op F → St F × Res
  | .malloc f q lib => malloc c f q lib s
  | .free f q => (free c f q s, ⟨0, 0⟩)
  | .simulate => simulate c s
  | .limit k => if k < s.count then (s, ⟨0, devIal⟩) else ({ s with allowed := some k }, ⟨0, 0⟩)
  | .performed => (s, ⟨s.count, 0⟩)
  | .allClear r => (s, allClear r s)

/-- A sequence of calls, with their results. -/
def run [DecidableEq F] (c : Cfg) : St F → List (Op F) → St F × List (Op F × Res)
  | s, [] => (s, [])
  | s, o :: os =>
    let r := run c (step c s o).1 os
    (r.1, (o, (step c s o).2) :: r.2)

end Cru.Wrap
