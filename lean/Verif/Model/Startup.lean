import Mathlib.Data.Multiset.AddSub

/-!
# Initialization and teardown of static storage (entry.c:62-155, and the functions called from there)

Each call that initializes a mutex, a lock, an attribute or a key may fail, depending on how many such calls have been made before
(`fails`).  Calls that destroy them are taken to succeed.  Initializing one that's initialized already, or destroying one that isn't, is
undefined, which is recorded in `bad`.

Left out: contents of static arrays, messages written to `stderr` on exit (errs.c:100-105, wrap.c:174-205) and reserves, which are in
`Model/Crew.lean` and `Model/Pack.lean`.
-/

namespace Cru.Startup

/-- Static resources. -/
inductive Res
  | errAttr | errLock           -- errs.c:59, 38
  | key (i : Nat)               -- getset.c:25-40
  | mutexAttr | threadAttr      -- cthread.c:33-36
  | pool (i : Nat)              -- cthread.c:30
  | killerLock                  -- killers.c:34
  | crewAttr | crewLock         -- crew.c:85, 50
  | packetLock                  -- pack.c:50
  | graphLock                   -- graph.c:37
  | wrapLock                    -- wrap.c:80
  | exit                        -- entry.c:142, the handler installed
deriving DecidableEq

/-- `LOCK_POOL_SIZE` (cthread.c:27), how the calls fail, and the error code of the failing call with a given number. -/
structure Env where
  size : Nat
  fails : Nat → Bool
  code : Nat → Int

/-- The number of calls made, what's initialized, `initial_error` (entry.c:69) and whether anything undefined has happened. -/
structure St where
  calls : Nat
  held : Multiset Res
  err : Int
  bad : Bool

variable (F : Env)

/-- A call that may fail and acquires nothing, such as `pthread_mutexattr_settype` (errs.c:131).  An existing error isn't overwritten. -/
def attempt (s : St) : St × Bool :=
  if F.fails s.calls then ({ s with calls := s.calls + 1, err := if s.err = 0 then F.code s.calls else s.err }, false)
  else ({ s with calls := s.calls + 1 }, true)

/-- A call that initializes `r` or fails. -/
def acquire (r : Res) (s : St) : St × Bool :=
  let a := attempt F s
  if a.2 then ({ a.1 with held := r ::ₘ s.held, bad := s.bad || decide (r ∈ s.held) }, true) else a

/-- A call that destroys `r`. -/
def release (r : Res) (s : St) : St :=
  if r ∈ s.held then { s with held := s.held.erase r } else { s with bad := true }

/-- `_cru_error_checking_mutex_type` (errs.c:122-135). -/
def mutexType (a : Res) (s : St) : St × Bool :=
  let x := acquire F a s
  if x.2 then
    let y := attempt F x.1
    if y.2 then y else (release a y.1, false)
  else x

/-- `_cru_open_errs` (errs.c:53-75) and `_cru_open_crew` (crew.c:79-98). -/
def openLock (a l : Res) (s : St) : St × Bool :=
  let x := mutexType F a s
  if x.2 then
    let y := acquire F l x.1
    (release a y.1, y.2)
  else x

/-- `if (! open ()) goto label;`, where `undo` is what's done from the label on, followed by more code. -/
def otherwise (f : St → St × Bool) (undo : St → St) (more : St → St × Bool) (s : St) : St × Bool :=
  let x := f s
  if ! x.2 then (undo x.1, false) else more x.1

/-- `_cru_open_getset` (getset.c:52-77), with the keys in the order of creation. -/
def openGetset : St → St × Bool :=
  otherwise (acquire F (.key 0)) (fun s => s) <|
  otherwise (acquire F (.key 1)) (release (.key 0)) <|
  otherwise (acquire F (.key 2)) (fun s => release (.key 0) (release (.key 1) s)) <|
  otherwise (acquire F (.key 3)) (fun s => release (.key 0) (release (.key 1) (release (.key 2) s))) <|
  otherwise (acquire F (.key 4)) (fun s => release (.key 0) (release (.key 1) (release (.key 2) (release (.key 3) s)))) <|
  otherwise (acquire F (.key 5))
    (fun s => release (.key 0) (release (.key 1) (release (.key 2) (release (.key 3) (release (.key 4) s))))) <|
  fun s => (s, true)

/-- The loop that initializes locks (cthread.c:77-79), from `i` on: the state, and `i` at the end. -/
def poolUp : (todo i : Nat) → St → St × Nat × Bool
  | 0, i, s => (s, i, true)
  | todo + 1, i, s =>
    let x := acquire F (.pool i) s
    if x.2 then poolUp todo (i + 1) x.1 else (x.1, i, false)

/-- The loop that destroys locks (cthread.c:83-84). -/
def poolDown : Nat → St → St
  | 0, s => s
  | i + 1, s => poolDown i (release (.pool i) s)

/-- `_cru_open_cthread` (cthread.c:67-86). -/
def openCthread : St → St × Bool :=
  otherwise (mutexType F .mutexAttr) (fun s => s) fun s =>
  let y := poolUp F F.size 0 s
  if ! y.2.2 then (poolDown y.2.1 (release .mutexAttr y.1), false) else
  let z := acquire F .threadAttr y.1
  if z.2 then z else (poolDown y.2.1 (release .mutexAttr z.1), false)

/-- The destroying loop from `i` upwards (cthread.c:114-116). -/
def poolClose : (todo i : Nat) → St → St
  | 0, _, s => s
  | todo + 1, i, s => poolClose todo (i + 1) (release (.pool i) s)

/-- `_cru_close_errs` (errs.c:83-106). -/
def closeErrs (s : St) : St := release .errLock s

/-- `_cru_close_getset` (getset.c:85-120). -/
def closeGetset (s : St) : St :=
  release (.key 3) (release (.key 1) (release (.key 2) (release (.key 0) (release (.key 4) (release (.key 5) s)))))

/-- `_cru_close_cthread` (cthread.c:102-134). -/
def closeCthread (s : St) : St := poolClose F.size 0 (release .threadAttr (release .mutexAttr s))

/-- `initialization` (entry.c:119-155): the state and the flag `initialized`.  `_cru_open_killers` (killers.c:46-53), `_cru_open_packets`
(pack.c:57-64), `_cru_open_graph` (graph.c:45-52) and `_cru_open_wrap` (wrap.c:93-120) initialize one lock each, and `_cru_open_copy`
(copy.c:74-92) none, so that it can't fail.  Likewise for `_cru_close_killers`, `_cru_close_packets`, `_cru_close_crew`,
`_cru_close_graph`, `_cru_close_wrap` and `_cru_close_copy`. -/
def initialization : St → St × Bool :=
  let a := closeErrs
  let b := fun s => a (closeGetset s)
  let c := fun s => b (closeCthread F s)
  let d := fun s => c (release .killerLock s)
  let e := fun s => d (release .crewLock s)
  let f := fun s => e (release .packetLock s)      -- `g:` closes copy.c, where there's nothing to close
  let h := fun s => f (release .graphLock s)
  let i := fun s => h (release .wrapLock s)
  otherwise (openLock F .errAttr .errLock) (fun s => s) <|
  otherwise (openGetset F) a <|
  otherwise (openCthread F) b <|
  otherwise (acquire F .killerLock) c <|
  otherwise (openLock F .crewAttr .crewLock) d <|
  otherwise (acquire F .packetLock) e <|
  otherwise (acquire F .graphLock) f <|
  otherwise (acquire F .wrapLock) h <|
  otherwise (acquire F .exit) i <|
  fun s => (s, true)

/-- `teardown` (entry.c:99-114), run on exit because of having been installed. -/
def teardown (s : St) : St :=
  let s := release .exit s
  let s := release .killerLock s
  let s := closeGetset s
  let s := closeCthread F s
  let s := release .packetLock s
  let s := release .crewLock s
  let s := release .wrapLock s
  let s := release .graphLock s
  closeErrs s

/-- The process: the state, whether `once_control` (entry.c:63) has been used, and `initialized` (entry.c:66). -/
structure Proc where
  st : St
  once : Bool
  initialized : Bool

/-- In the beginning. -/
def start : Proc := ⟨⟨0, 0, 0, false⟩, false, false⟩

/-- `TEST_ENTRY` (entry.c:79-83), with `err` as given by the caller: the new error code, and whether the call goes on.  If the error
code isn't zero beforehand, `RAISE` doesn't change it. -/
def entry (err : Int) (p : Proc) : Proc × Int × Bool :=
  let p := if p.once then p else let x := initialization F p.st; ⟨x.1, true, x.2⟩
  if p.initialized then (p, err, true)
  else (p, if err = 0 then (if p.st.err = 0 then -906 else p.st.err) else err, false)

/-- A sequence of calls by any threads, which `pthread_once` puts in order, with the results. -/
def calls : List Int → Proc → Proc × List (Int × Bool)
  | [], p => (p, [])
  | e :: es, p =>
    let x := entry F e p
    let y := calls es x.1
    (y.1, x.2 :: y.2)

/-- What's left when the process exits normally. -/
def exited (p : Proc) : St := if Res.exit ∈ p.st.held then teardown F p.st else p.st

end Cru.Startup
