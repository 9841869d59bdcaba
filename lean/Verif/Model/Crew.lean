import Mathlib.Data.Multiset.AddSub
import Mathlib.Logic.Function.Basic

/-!
# The crew reserve (crew.c:35-242)

A crew is a record needed by each launch of a router (launch.c:59, 105, 152, 201, 248, 292, 342), from before any thread is created
until all threads have been joined (crew.c:327, 354, 397, 434, 497).  All accesses to the reserve are in critical sections with
`crew_lock`, so each of them is one step.  Locks are taken not to fail.

Simplified: a thread is in at most one launch at a time.  User functions called by workers may launch others, but a worker is another
thread.  The fields other than `c_held` are left out.
-/

namespace Cru.Crew

/-- `RESERVE_CREW_LIMIT` (crew.c:35). -/
def limit : Nat := 8

/-- The reserve list and its counter (crew.c:44-47), the crews returned to the heap, and for each thread the crew it's using if any, with
whether its field `c_held` isn't null, i.e. whether it has come from the reserve (crew.c:153, 236).  Crews are named by numbers in the
order of their allocation, the next one being `made`. -/
structure State (T : Type) where
  made : Nat
  reserve : List Nat
  count : Nat
  freed : Multiset Nat
  used : T → Option (Nat × Bool)

/-- What threads do.
* `recruit t mem`: `_cru_crew_of` (crew.c:139-159), where `mem` is whether the heap provides a crew
* `dismiss t`: `free_crew` (crew.c:167-192) of the crew in use
* `replenish t l`: `_cru_replenish_crews` (crew.c:223-242), where `l` is how many crews the heap is able to provide -/
inductive Action (T : Type)
  | recruit (t : T) (mem : Bool)
  | dismiss (t : T)
  | replenish (t : T) (l : Nat)

variable {T : Type} [DecidableEq T]

/-- The loop of `_cru_replenish_crews` (crew.c:234-238). -/
def refill : Nat → State T → State T
  | 0, s => s
  | l + 1, s => if s.count < limit then refill l { s with made := s.made + 1, reserve := s.made :: s.reserve, count := s.count + 1 } else s

/-- Initially (crew.c:44-47). -/
def init : State T := ⟨0, [], 0, 0, fun _ => none⟩

/-- One step; `none` if it isn't possible, or if it would be an internal error: a reserve list that isn't empty while the counter is zero
(718), or a crew freed that's already in reserve (722).  `C134_internal` shows that these don't happen.  Crews that come from the reserve
are added to the end of it (crew.c:183-187) unless there are enough of them (crew.c:181). -/
def step (s : State T) : Action T → Option (State T)
  | .recruit t mem =>
    if s.used t = none then
      match mem with
      | true => some { s with made := s.made + 1, used := Function.update s.used t (some (s.made, false)) }
      | false =>
        match s.reserve with
        | [] => some s
        | c :: r =>
          if s.count = 0 then none
          else some { s with reserve := r, count := s.count - 1, used := Function.update s.used t (some (c, true)) }
    else none
  | .dismiss t =>
    match s.used t with
    | none => none
    | some (c, h) =>
      let s := { s with used := Function.update s.used t none }
      if h = false ∨ limit ≤ s.count then some { s with freed := c ::ₘ s.freed }
      else if c ∈ s.reserve then none
      else some { s with reserve := s.reserve ++ [c], count := s.count + 1 }
  | .replenish t l =>
    if s.used t = none then some (refill l s) else none

/-- `*err` after a call, having been zero beforehand: `ENOMEM` if the heap provides less than it's asked for (crew.c:66, 239). -/
def error (s : State T) : Action T → Int
  | .recruit _ mem => if mem = true then 0 else 12
  | .dismiss _ => 0
  | .replenish _ l => if l < limit - s.count then 12 else 0

/-- `_cru_close_crew` (crew.c:107-127): the crews freed, and whether internal error 714 or 715 is thrown. -/
def close (s : State T) : Multiset Nat × Bool := (s.reserve + s.freed, decide (s.reserve.length ≠ s.count))

/-- States reached by a sequence of steps. -/
inductive Exec (s₀ : State T) : List (Action T) → State T → Prop
  | nil : Exec s₀ [] s₀
  | snoc {as s a s'} : Exec s₀ as s → step s a = some s' → Exec s₀ (as ++ [a]) s'

end Cru.Crew
