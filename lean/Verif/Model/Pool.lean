import Mathlib.Data.List.Basic

/-!
# The pool of locks, one access of memory at a time (cthread.c:25-30, 227-313)

Threads that load, store, lock, unlock, create threads and join them, in any order the scheduler likes, and what the library has made of
it: reading, writing, and critical sections of writing.

Left out: errors of the locks, which are internal errors; a preference of the system for readers or for writers, where more than one
thread waits for the same lock.
-/

namespace Cru.Pool

variable {A X L : Type}

/-- What a thread is going to do, where `A` are addresses, `X` is `void *`, and `L` are the locks: `load` and `store` stand for the accesses
of memory shared by threads, `rdlock`, `wrlock` and `unlock` for the functions `pthread_rwlock_...`, `start` for `pthread_create`, which
comes up with an identifier, and `join` for `pthread_join`. -/
inductive Code (A X L : Type) where
  | done
  | load (a : A) (k : X → Code A X L)
  | store (a : A) (x : X) (k : Code A X L)
  | rdlock (l : L) (k : Code A X L)
  | wrlock (l : L) (k : Code A X L)
  | unlock (l : L) (k : Code A X L)
  | start (c : Code A X L) (k : Nat → Code A X L)
  | join (u : Nat) (k : Code A X L)

/-- All of the threads created so far, the memory, and who has which locks. -/
structure State (A X L : Type) where
  threads : List (Code A X L)
  mem : A → X
  readers : L → List Nat
  writer : L → Option Nat

/-- The memory `m` with another value stored at one place, or a table of locks with another entry for one of them. -/
def put {B Y : Type} [DecidableEq B] (m : B → Y) (b : B) (y : Y) : B → Y := fun c => if c = b then y else m c

/-- Threads that start out with memory `m`. -/
def init (ts : List (Code A X L)) (m : A → X) : State A X L where
  threads := ts
  mem := m
  readers := fun _ => []
  writer := fun _ => none

variable [DecidableEq A] [DecidableEq L]

/-- One step of thread `t`, `none` if it has to wait or has ended.  A lock can be acquired for reading unless someone has it for writing, and
for writing if no one has it.  Acquiring a lock that the thread itself has for writing, or releasing one that it hasn't got, is undefined;
the thread is stuck then. -/
def step (t : Nat) (s : State A X L) : Option (State A X L) :=
  match s.threads[t]? with
  | some (.load a k) => some { s with threads := s.threads.set t (k (s.mem a)) }
  | some (.store a x k) => some { s with threads := s.threads.set t k, mem := put s.mem a x }
  | some (.rdlock l k) =>
    if s.writer l = none then some { s with threads := s.threads.set t k, readers := put s.readers l (t :: s.readers l) } else none
  | some (.wrlock l k) =>
    if s.writer l = none ∧ s.readers l = [] then some { s with threads := s.threads.set t k, writer := put s.writer l (some t) }
    else none
  | some (.unlock l k) =>
    if s.writer l = some t then some { s with threads := s.threads.set t k, writer := put s.writer l none }
    else if t ∈ s.readers l then some { s with threads := s.threads.set t k, readers := put s.readers l ((s.readers l).erase t) }
    else none
  | some (.start c k) => some { s with threads := s.threads.set t (k s.threads.length) ++ [c] }
  | some (.join u k) =>
    match s.threads[u]? with
    | some .done => some { s with threads := s.threads.set t k }
    | _ => none
  | _ => none

/-- States reached by any sequence of steps. -/
inductive Reach (s₀ : State A X L) : State A X L → Prop
  | init : Reach s₀ s₀
  | step {s s' : State A X L} (t : Nat) : Reach s₀ s → step t s = some s' → Reach s₀ s'

/-! ## The library's operations -/

variable (idx : A → L)

/-- `_cru_read` (cthread.c:233-254), where `idx` gives the lock of each address, `_cru_scalar_hash (v) % LOCK_POOL_SIZE`. -/
def read (a : A) (k : X → Code A X L) : Code A X L := .rdlock (idx a) (.load a fun x => .unlock (idx a) (k x))

/-- `_cru_write` (cthread.c:260-276). -/
def write (a : A) (x : X) (k : Code A X L) : Code A X L := .wrlock (idx a) (.store a x (.unlock (idx a) k))

/-- `_cru_lock_for_writing` (cthread.c:282-293). -/
def lockForWriting (a : A) (k : Code A X L) : Code A X L := .wrlock (idx a) k

/-- `_cru_unlock_for_reading` (cthread.c:300-313). -/
def unlockForReading (a : A) (x : X) (k : Code A X L) : Code A X L := .store a x (.unlock (idx a) k)

end Cru.Pool
