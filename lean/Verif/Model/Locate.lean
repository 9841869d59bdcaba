import Verif.Model.Graph

/-!
# The search for the initial vertex of a zone (zones.c:44-132, 195-239, launch.c:225-258, crew.c:409-435)

Vertices are compared as pointers by `=` and by the user's equality predicate `eq`, which yields the error raised and the
result.  Left out: allocation failures, invalid magic numbers and failures of locks.
-/

namespace Cru.Locate

open Net

/-- The variables of the workers (`seen`, `*err`, `killed`, `sample`, and `result` and `found` as one) and the kill flag of the
router (zones.c:58-68). -/
structure Job (n : Nat) (N : Type) where
  seen : Fin n → List N
  err : Fin n → Int
  stop : Fin n → Bool
  sample : Fin n → Nat
  found : Fin n → Option N
  killed : Bool

variable {n : Nat} {N V L : Type}

/-- `RAISE` (errs.h:36). -/
def raise (e x : Int) : Int := if e ≠ 0 then e else x

/-- zones.c:87, killers.h:36. -/
def poll (s : Job n N) (i : Fin n) : Job n N :=
  if s.stop i then s
  else { s with sample := Function.update s.sample i (s.sample i + 1)
                stop := Function.update s.stop i ((s.sample i + 1) % 32 == 0 && s.killed) }

/-- The test of a node's vertex against the initial vertex `v` by a worker with no error so far (zones.c:93, errs.h:54): the error
and the result. -/
def test [DecidableEq V] (eq : V → V → Int × Bool) (v w : V) : Int × Bool :=
  if v = w then (0, true)
  else ((eq v w).1, if (eq v w).1 ≠ 0 then false else (eq v w).2)

/-- The body of the loop (zones.c:87-97). -/
def handle [DecidableEq N] [DecidableEq V] (g : Gr N V L) (eq : V → V → Int × Bool) (v : V) (i : Fin n) (s : Job n N) (m : N) :
    Job n N × List N × Bool :=
  let s := poll s i
  if s.stop i ∨ (s.found i).isSome then (s, [], false)                            -- zones.c:88
  else if m ∈ s.seen i then (s, [], false)                                        -- zones.c:90
  else
    let s := { s with seen := Function.update s.seen i (s.seen i ++ [m]) }
    if s.err i ≠ 0 then (s, [], false)
    else
      let t := test eq v (g.vertex m)
      let s := { s with err := Function.update s.err i t.1 }
      if t.2 then
        ({ s with found := Function.update s.found i (some m), killed := true }, (g.out m).map Prod.snd, false)  -- zones.c:95-96
      else (s, (g.out m).map Prod.snd, false)

/-- `base_searching_task` (zones.c:48-102), which can't be killed by the user. -/
def task [DecidableEq N] [DecidableEq V] (g : Gr N V L) (eq : V → V → Int × Bool) (v : V) (hash : N → Nat) (hn : 0 < n) :
    Task n N (Job n N) Empty where
  dest m := Build.lane hn (hash m)
  handle := handle g eq v
  env e _ := e.elim

def start : Job n N := ⟨fun _ => [], fun _ => 0, fun _ => false, fun _ => 0, fun _ => none, false⟩

/-- One iteration of the loop of `_cru_maybe_disjunction` (crew.c:425-433), on a worker's result and error. -/
def join (x : Option N × Int) (y : Option N × Int) : Option N × Int :=
  let z := match y.1 with
    | none => x
    | some m => match x.1 with
      | none => (some m, x.2)
      | some _ => (x.1, raise x.2 (-750))
  (z.1, raise z.2 y.2)

/-- `_cru_maybe_disjunction` (crew.c:409-435). -/
def disjunction (s : Job n N) : Option N × Int :=
  (List.finRange n).foldl (fun x i => join x (s.found i, s.err i)) (none, 0)

def incInv : Int := -522

/-- `located` (zones.c:109-132) and the end of `_cru_initial_node` (zones.c:238). -/
def located (s : Job n N) : Except Int N :=
  match (disjunction s).1 with
  | some m => if (disjunction s).2 ≠ 0 then .error (disjunction s).2 else .ok m
  | none => .error (raise (disjunction s).2 incInv)

/-- A zone (cru_zone(7)). -/
structure Zone (V : Type) where
  offset : Bool
  initial : V
  backwards : Bool

/-- The initial node of a zone according to `_cru_initial_node` (zones.c:227-238), or the error, if there's none before. -/
inductive Initial [DecidableEq N] [DecidableEq V] (g : Gr N V L) (eq : V → V → Int × Bool) (zone : Zone V) (hash : N → Nat)
    (hn : 0 < n) : Except Int N → Prop
  | base : zone.offset = false ∨ g.vertex g.base = zone.initial → Initial g eq zone hash hn (.ok g.base)
  | searched (z : State n N (Job n N)) : zone.offset = true → g.vertex g.base ≠ zone.initial →
      Reach (task g eq zone.initial hash hn) g.base start z → z.main = .done → Initial g eq zone hash hn (located z.g)

end Cru.Locate
