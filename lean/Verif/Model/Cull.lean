import Verif.Model.Trav

/-!
# Traversals that go on after an error or a kill

Merge.c:167-192 is like the loop of `Model/Trav.lean`, but nodes received after an error or a kill aren't skipped: they're put on a
list for deletion by `_cru_cull` (stretch.c:203-247), and packets are sent to their neighbours as usual.  Allocation failures are
left out.
-/

namespace Cru.Cull

open Net

variable {n : Nat} {N S : Type}

/-- The lists for deletion (`s->deletions`, merge.c:191), and the rest of the memory. -/
structure Mem (n : Nat) (N S : Type) where
  culled : Fin n → List N
  rest : S

/-- The body of the loop (merge.c:169-191).  A node is `RECORDED` (merge.c:135) if it has been seen, or if it's on the list for deletion
and there's an error or a kill.  Otherwise it's culled after an error or a kill: packets are sent (stretch.c:229), and it's pushed on
the list and marked (stretch.c:242-243).  Packets to nodes that are marked already aren't sent (scatter.c:238), which makes no
difference because they would be dropped. -/
def handle [DecidableEq N] (next : N → List N) (visit : Fin n → S → N → S × Int) (i : Fin n) (s : Trav.Job n N (Mem n N S)) (m : N) :
    Trav.Job n N (Mem n N S) × List N × Bool :=
  let s := Trav.poll s i
  if m ∈ s.seen i ∨ (s.err i ≠ 0 ∨ s.stop i = true) ∧ m ∈ s.mem.culled i then (s, [], false)
  else if s.err i ≠ 0 ∨ s.stop i = true then
    ({ s with mem := ⟨Function.update s.mem.culled i (m :: s.mem.culled i), s.mem.rest⟩ }, next m, false)
  else
    let v := visit i s.mem.rest m
    ({ s with seen := Function.update s.seen i (s.seen i ++ [m]), err := Function.update s.err i v.2, mem := ⟨s.mem.culled, v.1⟩ },
      next m, false)

/-- The task.  Nodes go to the lane given by `hash`. -/
def task [DecidableEq N] (next : N → List N) (visit : Fin n → S → N → S × Int) (hash : N → Nat) (hn : 0 < n) :
    Task n N (Trav.Job n N (Mem n N S)) Unit where
  dest m := Build.lane hn (hash m)
  handle := handle next visit
  env _ s := { s with killed := 1 }

def start (s : S) : Trav.Job n N (Mem n N S) := Trav.start ⟨fun _ => [], s⟩

/-- The state with the lists for deletion left out. -/
def plain (s : Trav.Job n N (Mem n N S)) : Trav.Job n N S := { s with mem := s.mem.rest }

end Cru.Cull
