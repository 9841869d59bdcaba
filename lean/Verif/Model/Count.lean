import Verif.Model.Graph

/-!
# Counting (count.c; entry.c:440-547; launch.c:126-166; crew.c:340-356)

`W` is one more than the greatest `uintptr_t`.  The counting tasks are launched without a kill switch (count.c:218), so the
kill flag stays zero and is left out.  Null payloads, which are internal errors, and allocation failures are left out.
-/

namespace Cru.Count

open Net

variable {n : Nat} {N V L : Type}

/-- What is counted. -/
inductive Kind where
  | vertices
  | termini
  | edges
deriving DecidableEq

/-- How often a task increments the counter for a node: once (count.c:78), once if it has no outgoing edges (count.c:129),
once for each outgoing edge (count.c:184-186). -/
def Kind.weight (k : Kind) (g : Gr N V L) (m : N) : Nat :=
  match k with
  | .vertices => 1
  | .termini => if (g.out m).isEmpty then 1 else 0
  | .edges => (g.out m).length

/-- The internal error raised when the counter wraps around (count.c:79, 130, 186). -/
def Kind.wrapped : Kind → Int
  | .vertices => -697
  | .termini => -704
  | .edges => -711

/-- The local variables of the workers: `seen`, `count` and `*err`. -/
structure Job (n : Nat) (N : Type) where
  seen : Fin n → List N
  count : Fin n → Nat
  err : Fin n → Int

/-- `if (! ++count) IER(...)`, repeated. -/
def bump (W : Nat) (wrapped : Int) : Nat → Nat × Int → Nat × Int
  | 0, c => c
  | k + 1, c =>
    let c' := (c.1 + 1) % W
    bump W wrapped k (c', if c' = 0 ∧ c.2 = 0 then wrapped else c.2)

/-- The loop bodies of the three tasks (count.c:70-81, 121-132, 176-188). -/
def handle [DecidableEq N] (W : Nat) (k : Kind) (g : Gr N V L) (i : Fin n) (s : Job n N) (m : N) : Job n N × List N × Bool :=
  if m ∈ s.seen i then (s, [], false)
  else
    let s' := { s with seen := Function.update s.seen i (s.seen i ++ [m]) }
    if s.err i ≠ 0 then (s', [], false)
    else
      let c := bump W k.wrapped (k.weight g m) (s.count i, s.err i)
      ({ s' with count := Function.update s.count i c.1, err := Function.update s.err i c.2 }, g.next false m, false)

/-- A counting task; packets carry node addresses and go to the lane selected by the address (scatter.c:99-120). -/
def task [DecidableEq N] (W : Nat) (k : Kind) (g : Gr N V L) (hash : N → Nat) (hn : 0 < n) : Task n N (Job n N) Empty where
  dest m := Build.lane hn (hash m)
  handle := handle W k g
  env e := e.elim

/-- The workers' variables at the start (count.c:59-62). -/
def start : Job n N := ⟨fun _ => [], fun _ => 0, fun _ => 0⟩

/-- What a worker returns (count.c:84). -/
def Job.returned (s : Job n N) (i : Fin n) : Nat := if s.err i ≠ 0 then 0 else s.count i

/-- `_cru_summation` (crew.c:340-356). -/
def summation (W : Nat) (s : Job n N) : Nat := (List.finRange n).foldl (fun sum i => (sum + s.returned i) % W) 0

/-- The loops for a single lane (entry.c:481-483, 511-513, 541-545). -/
def listCount (W : Nat) (k : Kind) (g : Gr N V L) : Nat := g.nodes.foldl (fun c m => (c + k.weight g m) % W) 0

/-- `cru_singleton` (entry.c:440-454) of a graph that isn't null. -/
def singleton (g : Gr N V L) : Bool :=
  match g.nodes with
  | [] => false
  | _ :: rest => rest.isEmpty

end Cru.Count
