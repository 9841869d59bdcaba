import Mathlib.Data.List.Basic

/-!
# Error handling (errs.h:36-58, errs.c:142-257, sync.c:39-81, runners.c, crew.c:306-329, launch.c)
-/

namespace Cru.Errs

/-! ## Raising errors and calling user functions (errs.h:36-58) -/

/-- `RAISE` (errs.h:36-40 without `WRAP`): keep the first error. -/
def raise (err e : Int) : Int := if err ≠ 0 then err else e

/-- What a worker can do that involves its error code: raise a code (`IER` included), call a user function through `CALLED`
or `APPLIED` (errs.h:54, 57), through `PASSED` (errs.h:55), through `FAILED` (errs.h:56), or a destructor through `APPLY`
(errs.h:58).  `f` names the function; `ux` is the error it would assign if called, and `ut` what it would return. -/
inductive Op
  | raise (e : Int)
  | applied (f : Nat) (ux : Int)
  | passed (f : Nat) (ut : Bool) (ux : Int)
  | failed (f : Nat) (ut : Bool) (ux : Int)
  | apply (f : Nat) (ux : Int)

/-- The error code, the guarded user functions called so far and the destructors called so far. -/
structure Worker where
  err : Int
  called : List Nat
  destroyed : List Nat

/-- One operation, and the truth value of the expression (`false` if it has none). -/
def op (w : Worker) : Op → Worker × Bool
  | .raise e => ({ w with err := raise w.err e }, false)
  | .applied f ux => if w.err ≠ 0 then (w, false) else ({ w with err := raise w.err ux, called := w.called ++ [f] }, true)
  | .passed f ut ux =>
    if w.err ≠ 0 then (w, false)
    else
      let w' := { w with err := raise w.err ux, called := w.called ++ [f] }
      (w', if w'.err ≠ 0 then false else ut)
  | .failed f ut ux =>
    if w.err ≠ 0 then (w, false)
    else
      let w' := { w with err := raise w.err ux, called := w.called ++ [f] }
      (w', if w'.err ≠ 0 then false else !ut)
  | .apply f ux => ({ w with err := raise w.err ux, destroyed := w.destroyed ++ [f] }, false)

/-- A sequence of operations. -/
def ops (w : Worker) (l : List Op) : Worker := l.foldl (fun w o => (op w o).1) w

/-! ## The global error log (errs.c:142-161) -/

/-- `global_error`, `error_count`; `none` stands for undefined behaviour. -/
structure Log where
  arr : List Int
  count : Nat

/-- `ERROR_LIMIT` (errs.c:29). -/
def limit : Nat := 16

/-- `_cru_open_errs` (errs.c:62-64): the array is cleared. -/
def Log.empty : Log := ⟨List.replicate limit 0, 0⟩

/-- `_cru_globally_throw` (errs.c:142-161), with the lock held and the counter below its maximum.  Reading
`global_error[error_count - 1]` outside the array is undefined. -/
def throwGlobally (l : Log) (err : Int) : Option Log :=
  if err = 0 then some l
  else
    let arr := if l.count < limit then l.arr.set l.count err else l.arr
    if l.count = 0 then some ⟨arr, l.count + 1⟩
    else
      match arr[l.count - 1]? with
      | none => none
      | some e => some ⟨arr, if e ≠ err then l.count + 1 else l.count⟩

/-- A sequence of global errors. -/
def throwAll (l : Log) : List Int → Option Log
  | [] => some l
  | e :: es => (throwGlobally l e).bind fun l' => throwAll l' es

/-- The codes reported when the process exits (errs.c:100-101). -/
def Log.reported (l : Log) : List Int := l.arr.take (min l.count limit)

/-! ## Reporting worker errors (sync.c:39-81, runners.c:40-58, crew.c:306-329, launch.c:38-73) -/

/-- The router's status and what has been logged globally. -/
structure Job where
  roStatus : Int
  globally : List Int

/-- `error_consumed` (sync.c:39-61) with a valid router and working locks: the new router status and whether the status was
consumed. -/
def errorConsumed (roStatus status : Int) : Int × Bool :=
  if status = 0 then (roStatus, true)
  else if roStatus = status then (roStatus, true)
  else if roStatus ≠ 0 then (roStatus, false)
  else (status, true)

/-- The end of a runner (runners.c:55-57): `_cru_throw` and then `_cru_globally_throw`.  `err` is the worker's error. -/
def runnerExit (j : Job) (err : Int) : Job :=
  let x := errorConsumed j.roStatus err
  let err' := if x.2 then 0 else err
  ⟨x.1, if err' = 0 then j.globally else j.globally ++ [err']⟩

/-- All workers exit, in some order. -/
def runners (j : Job) (errs : List Int) : Job := errs.foldl runnerExit j

/-- `_cru_status_disjunction` (crew.c:321-326): raise the status of each worker in turn. -/
def disjunction (err : Int) (statuses : List Int) : Int := statuses.foldl raise err

/-- The end of `_cru_launched` (launch.c:68-71) and of `_cru_status_launched` (launch.c:111-113) for workers that return
their error as a status: `dblx` collects the statuses, and `*err` gets the router status and then `dblx`. -/
def launchedErr (err : Int) (roStatus : Int) (statuses : List Int) : Int :=
  raise (raise err roStatus) (disjunction 0 statuses)

/-- The end of `_cru_count_launched` (launch.c:161-163): workers return counts, so only the router status is reported. -/
def countLaunchedErr (err : Int) (roStatus : Int) : Int := raise err roStatus

/-- How a worker that returns a queue or a maybe ends: the status in what it returns, if it returns anything, and its error
code. -/
structure End where
  container : Option Int
  err : Int

/-- `_cru_maybe_runner` (runners.c:83-84) and `_cru_queue_runner` (runners.c:114-115): an error without a result is moved into
an empty result (maybe.c:46-52, queue.c:45-49), unless it cannot be allocated. -/
def containerRunner (alloc : Bool) (x : End) : End :=
  if x.container.isNone ∧ x.err ≠ 0 then (if alloc then ⟨some x.err, 0⟩ else ⟨none, raise x.err 12⟩) else x

/-- The status of the queue or of the maybe obtained by joining with the workers: the first non-zero one
(queue.c:168, crew.c:430). -/
def containerStatus (xs : List End) : Int := (xs.map fun x => x.container.getD 0).foldl raise 0

/-- The end of `_cru_queue_launched` (launch.c:210-212) and `_cru_maybe_disjunction_launched` (launch.c:254-256). -/
def containerLaunchedErr (err : Int) (roStatus : Int) (xs : List End) : Int :=
  raise (raise err roStatus) (containerStatus xs)

/-! ## `cru_strerror` (errs.c:177-257) -/

/-- The kinds of message.  `nthm` stands for whatever the nthm library says. -/
inductive Message
  | posix (err : Int)
  | text (s : String)
  | nthm (err : Int)
  | internal (n : Int)
  | failure (n : Int)
  | undiagnosed
  deriving DecidableEq

/-- The documented codes with their messages (errs.c:201-245, error_codes.h). -/
def texts : List (Int × String) :=
  [(-512, "cru: invalid or corrupted class or partition"), (-513, "cru: invalid or corrupted graph"),
   (-514, "cru: invalid or corrupted kill switch"), (-515, "cru: invalid or corrupted partition"),
   (-516, "cru: double free"), (-517, "cru: inconsistent allocation limits"), (-518, "cru: memory leak"),
   (-519, "cru: diagnostic feature unavailable in production"),
   (-520, "cru: inconsistent connectors in build specification"), (-521, "cru: inconsistent filter specification"),
   (-522, "cru: inconsistent initial vertex in zone"), (-523, "cru: inconsistent merge specification"),
   (-524, "cru: inconsistent mutations"), (-525, "cru: inconsistent spreading builder"),
   (-526, "cru: inconsistent traversal priorities"), (-527, "cru: inconsistent vertex equality relation"),
   (-528, "cru: user interrupt"), (-529, "cru: vertex limit exceeded during build or expansion"),
   (-530, "cru: operation attempted out of context"), (-531, "cru: null graph"), (-532, "cru: null class"),
   (-533, "cru: null classifier specification"), (-534, "cru: null kill switch"), (-535, "cru: null partition"),
   (-536, "cru: duplicate vertices detected while partitioning"), (-537, "cru: vertex not found by partition"),
   (-538, "cru: type conflict in map reduction destructors"), (-539, "cru: type conflict in mutated destructors"),
   (-540, "cru: undefined ana function in splitter"), (-541, "cru: undefined cata function in splitter"),
   (-542, "cru: undefined conditional binary operator"), (-543, "cru: undefined connectors in build specification"),
   (-544, "cru: undefined conditional quartenary operator"), (-545, "cru: undefined conditional ternary operator"),
   (-546, "cru: undefined edge fabricator"), (-547, "cru: undefined edge product operator in crosser"),
   (-548, "cru: undefined equality relation"), (-549, "cru: undefined predicate in stretcher specification"),
   (-550, "cru: undefined hash function"), (-551, "cru: undefined map in fold specification"),
   (-552, "cru: undefined postponable predicate in postponer"), (-553, "cru: undefined reduction in fold specification"),
   (-554, "cru: undefined vacuous case in fold specification"), (-555, "cru: undefined vertex fabricator"),
   (-556, "cru: undefined vertex product operator in crosser")]

/-- `INT_MIN` of a 32-bit int. -/
def intMin : Int := -2147483648

/-- `cru_strerror` (errs.c:177-257).  `lo` and `hi` are `NTHM_MIN_ERR` and `NTHM_MAX_ERR` of the nthm library.  The result is
`none` when `-err` at errs.c:247 overflows, which is undefined.  Simplified: the text the C library gives for a non-negative
code (errs.c:191-198) is not modelled, and neither are the version numbers and the static buffer. -/
def strerror (lo hi : Int) (err : Int) : Option Message :=
  if err ≥ 0 then some (.posix err)
  else
    match texts.lookup err with
    | some s => some (.text s)
    | none =>
      if err = intMin then none
      else if lo ≤ -err ∧ -err ≤ hi then some (.nthm err)
      else if 512 ≤ -err ∧ -err ≤ 1792 then some (.internal (-err))
      else if 1793 ≤ -err ∧ -err ≤ 6305 then some (.failure (-err))
      else some .undiagnosed

end Cru.Errs
