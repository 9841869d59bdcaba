import Verif.Model.Graph

/-!
# The loop that traversing tasks have in common

Classes.c:278-299, props.c:80-91, props.c:249-261, fab.c:136-166 and others receive nodes, poll the kill flag unless the task is
unkillable, skip nodes seen before and everything after an error or a kill, send the nodes at the other ends of some edges, and
do something with the node.  The modules that use this say what, and cite the lines.
-/

namespace Cru.Trav

open Net

variable {n : Nat} {N S : Type}

/-- The variables of the workers (`seen`, `*err`, `killed`, `sample`), the kill flag of the router, and the rest of the
memory. -/
structure Job (n : Nat) (N S : Type) where
  seen : Fin n → List N
  err : Fin n → Int
  stop : Fin n → Bool
  sample : Fin n → Nat
  killed : Nat
  mem : S

/-- `killed = (killed ? 1 : KILLED)` (killers.h:36). -/
def poll (s : Job n N S) (i : Fin n) : Job n N S :=
  if s.stop i then s
  else { s with sample := Function.update s.sample i (s.sample i + 1)
                stop := Function.update s.stop i ((s.sample i + 1) % 32 == 0 && s.killed != 0) }

/-- The body of the loop: `visit` says what is done with a node by a worker, and with what error. -/
def handle [DecidableEq N] (next : N → List N) (visit : Fin n → S → N → S × Int) (i : Fin n) (s : Job n N S) (m : N) :
    Job n N S × List N × Bool :=
  let s := poll s i
  if s.err i ≠ 0 ∨ s.stop i = true then (s, [], false)
  else if m ∈ s.seen i then (s, [], false)
  else
    let v := visit i s.mem m
    ({ s with seen := Function.update s.seen i (s.seen i ++ [m]), err := Function.update s.err i v.2, mem := v.1 }, next m, false)

/-- The task, where `E` is the type of kill requests.  Nodes go to the lane given by `hash`. -/
def taskE (E : Type) [DecidableEq N] (next : N → List N) (visit : Fin n → S → N → S × Int) (hash : N → Nat) (hn : 0 < n) :
    Task n N (Job n N S) E where
  dest m := Build.lane hn (hash m)
  handle := handle next visit
  env _ s := { s with killed := 1 }

/-- The task, if it can be killed. -/
abbrev task [DecidableEq N] (next : N → List N) (visit : Fin n → S → N → S × Int) (hash : N → Nat) (hn : 0 < n) :
    Task n N (Job n N S) Unit := taskE Unit next visit hash hn

/-- The same if it can't be killed (`UNKILLABLE`). -/
abbrev quiet [DecidableEq N] (next : N → List N) (visit : Fin n → S → N → S × Int) (hash : N → Nat) (hn : 0 < n) :
    Task n N (Job n N S) Empty := taskE Empty next visit hash hn

def start (mem : S) : Job n N S := ⟨fun _ => [], fun _ => 0, fun _ => false, fun _ => 0, 0, mem⟩

end Cru.Trav
