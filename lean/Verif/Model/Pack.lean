import Mathlib.Data.Multiset.AddSub
import Mathlib.Logic.Function.Basic

/-!
# The packet reserve (pack.c:40-50, 108-124, 203-239, 268-289) and shared routers (route.c:640-694)
-/

namespace Cru.Pack

/-- `RESERVE_PACKET_LIMIT` (pack.c:41). -/
def limit : Nat := 0x100

/-- What a thread is doing: nothing, or freeing the packet `p` having found the reserve too low (pack.c:229), and about to
acquire the write lock. -/
inductive Pc
  | outside
  | pushing (p : Nat)
  deriving DecidableEq

/-- The reserve list, its counter, the packets that have been returned to the heap, and the threads.  Packets are named by
numbers. -/
structure State (T : Type) where
  reserve : List Nat
  count : Nat
  heap : Multiset Nat
  pc : T → Pc

/-- Steps: each is one critical section.
* `check t p`: thread `t` frees packet `p`: test the counter with a read lock (pack.c:226-230); return the packet to the heap
  if there are enough (pack.c:237).
* `push t`: the section with the write lock (pack.c:229-236).
* `alloc t`: a packet is needed while the heap is exhausted (pack.c:118-122); nothing happens if there is no reserve.
* `replenish t l`: allocate the packets in `l` from the heap one after the other while the counter is too low (pack.c:277-288);
  `l` are the packets the heap provides before it is exhausted. -/
inductive Action (T : Type)
  | check (t : T) (p : Nat)
  | push (t : T)
  | alloc (t : T)
  | replenish (t : T) (l : List Nat)

variable {T : Type} [DecidableEq T]

/-- The loop of `_cru_replenish_packets` (pack.c:279-285). -/
def refill : List Nat → Nat → List Nat → List Nat × Nat
  | [], c, r => (r, c)
  | p :: l, c, r => if c < limit then refill l (c + 1) (p :: r) else (r, c)

/-- Initially the reserve is empty (pack.c:43-47). -/
def init : State T := ⟨[], 0, 0, fun _ => .outside⟩

/-- One step; `none` if it is not possible.  A reserve list that is not empty while the counter is zero would be internal error
1287 (pack.c:120); `C48_counter` shows that it does not happen. -/
def step (s : State T) : Action T → Option (State T)
  | .check t p =>
    if s.pc t = .outside then
      if s.count ≥ limit then some { s with heap := p ::ₘ s.heap }
      else some { s with pc := Function.update s.pc t (.pushing p) }
    else none
  | .push t =>
    match s.pc t with
    | .pushing p => some { s with reserve := p :: s.reserve, count := s.count + 1, pc := Function.update s.pc t .outside }
    | .outside => none
  | .alloc t =>
    if s.pc t = .outside then
      match s.reserve with
      | [] => some s
      | _ :: r => if s.count = 0 then none else some { s with reserve := r, count := s.count - 1 }
    else none
  | .replenish t l =>
    if s.pc t = .outside then
      let x := refill l s.count s.reserve
      some { s with reserve := x.1, count := x.2 }
    else none

/-- States reached by a sequence of steps. -/
inductive Exec : List (Action T) → State T → Prop
  | nil : Exec [] init
  | snoc {as s a s'} : Exec as s → step s a = some s' → Exec (as ++ [a]) s'

/-- `_cru_free_packets` (pack.c:203-239) for one packet without interference. -/
def freePacket (s : State T) (t : T) (p : Nat) : Option (State T) :=
  (step s (.check t p)).bind fun s' => if s'.pc t = .outside then some s' else step s' (.push t)

end Cru.Pack

namespace Cru.Router

/-- A router: the number of shared copies beyond the first, status and killed field; or destroyed, with the errors it
reported. -/
inductive State
  | live (shared : Nat) (roStatus : Int) (killed : Int)
  | destroyed (err : Int)
  deriving DecidableEq

/-- Operations on a router: `_cru_shared` (route.c:640-649), `_cru_free_router` (route.c:658-694) called with error code
`err`, a worker's error being recorded (sync.c:56) and the `killed` field being set (killers.c:171, 193). -/
inductive Op
  | share
  | free (err : Int)
  | throw (e : Int)
  | kill (k : Int)

/-- The effect of an operation; `none` is undefined: use of a destroyed router.  `_cru_free_router` at route.c:688-690 raises
the status, and `CRU_INTKIL` (-528) if there is no error and the router has been killed. -/
def op : State → Op → Option State
  | .live n st k, .share => some (.live (n + 1) st k)
  | .live n st k, .free err =>
    if n ≠ 0 then some (.live (n - 1) st k)
    else
      let e := if err ≠ 0 then err else st
      some (.destroyed (if e ≠ 0 then e else if k ≠ 0 then -528 else 0))
  | .live n st k, .throw e => some (.live n (if st ≠ 0 then st else e) k)
  | .live n st _, .kill k => some (.live n st k)
  | .destroyed _, _ => none

/-- A sequence of operations. -/
def ops (s : State) : List Op → Option State
  | [] => some s
  | o :: os => (op s o).bind fun s' => ops s' os

end Cru.Router
