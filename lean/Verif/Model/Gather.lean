import Verif.Model.Free

/-!
# Putting the nodes of a graph on lists (filters.c:61-120, compose.c:118-184, mutate.c:157-233)

Before they change a graph, `cru_filtered`, `cru_split`, `cru_composed` and `cru_mutated` have each worker visit the nodes whose addresses hash to it
and put them on a list of its own.  The three loops, `_cru_populating_task`, `guarding_task` and `bounding_task`, are the same but for the
test `RECORDED` and for what is done about kill requests.  As long as all goes well, edges are followed and left as they are.  After an
error they are consumed like those of a graph being freed.  As in `Model/Free.lean`, whose packets and buffers are used here, an oracle decides when
memory can be allocated.

Left out: failures of locks, invalid magic numbers, the properties stored by `guard_it` (compose.c:46-78) except that there may be an error at any
time, and the second list of `bounding_task`: the list here stands for `survivors` and `deletions` together.
-/

namespace Cru.Gather

open Net
open Free (Packet newPacket nack scatter finish1)

variable {n : Nat} {N V L : Type}

/-- The state is that of a graph being freed, with `deletions` taken for the list on which nodes are put, and the variable `killed` of each worker
(compose.c:129, mutate.c:176). -/
structure Job (n : Nat) (N V L : Type) extends Free.Job n N V L where
  killed : Fin n → Bool

/-- `_cru_scattered` (scatter.c:68-89): the packets pushed, in order, and whether there's one for each edge. -/
def spray (i : Fin n) : List (L × N) → Free.Job n N V L → Free.Job n N V L × List (Packet N) × Bool
  | [], s => (s, [], true)
  | c :: es, s =>
    if (newPacket i s).2 then
      let r := spray i es { (newPacket i s).1 with name := s.name + 1 }
      (r.1, (c.2, s.name) :: r.2.1, r.2.2)
    else ((newPacket i s).1, [], false)

/-- Remember a node if possible, and put it on the list (filters.c:109-110, compose.c:170-172, mutate.c:224-225). -/
def record [DecidableEq N] (i : Fin n) (m : N) (s : Free.Job n N V L) : Free.Job n N V L :=
  if s.heap s.asked then
    { s with asked := s.asked + 1, seen := Function.update s.seen i (s.seen i ++ [m])
             deletions := Function.update s.deletions i (m :: s.deletions i) }
  else { s with asked := s.asked + 1, err := Function.update s.err i true
                deletions := Function.update s.deletions i (m :: s.deletions i) }

/-- `RECORDED` (filters.c:69, mutate.c:167-171, and if `wary`, compose.c:126). -/
def recorded [DecidableEq N] (wary : Bool) (i : Fin n) (m : N) (s : Job n N V L) : Bool :=
  decide (m ∈ s.seen i) || ((s.err i || (wary && s.killed i)) && decide (m ∈ s.deletions i))

/-- From label `b` of filters.c:107-113, compose.c:168-175, or `c` of mutate.c:222-228. -/
def keep [DecidableEq N] (i : Fin n) (p : Packet N) (s : Free.Job n N V L) : Free.Job n N V L :=
  if s.buffer i ≠ some p ∧ (s.buffer i).map Prod.fst = some p.1 then nack s
  else finish1 i p (record i p.1 s)

/-- What's done when edges `rest` are left (filters.c:100-106, compose.c:161-167, mutate.c:215-221), given the packets pushed so far. -/
def short [DecidableEq N] (i : Fin n) (p : Packet N) (rest : List (L × N)) (sends : List (Packet N))
    (t : Free.Job n N V L) : Free.Job n N V L × List (Packet N) × Bool :=
  match t.buffer i with
  | none => (nack { t with buffer := Function.update t.buffer i (some p) }, sends, true)
  | some b =>
    if b.1 ≠ p.1 then
      (keep i p { t with out := Function.update (Function.update t.out b.1 (rest ++ t.out b.1)) p.1 [] }, sends, false)
    else if b = p then (t, sends, true)
    else (nack t, sends, false)

/-- From label `_cru_unscatterable` on (filters.c:98-113, compose.c:159-175, mutate.c:213-228), given the packets pushed so far. -/
def consume [DecidableEq N] (i : Fin n) (p : Packet N) (sends : List (Packet N)) (s : Free.Job n N V L) :
    Free.Job n N V L × List (Packet N) × Bool :=
  let r := scatter i p.1 (s.out p.1) s
  let t := { r.1 with out := Function.update r.1.out p.1 r.2.2 }
  if r.2.2 = [] then (keep i p t, sends ++ r.2.1, false)
  else short i p r.2.2 (sends ++ r.2.1) t

/-- The body of the loops (filters.c:94-113, compose.c:155-175, mutate.c:209-228). -/
def handle [DecidableEq N] (wary : Bool) (i : Fin n) (s : Job n N V L) (p : Packet N) : Job n N V L × List (Packet N) × Bool :=
  if recorded wary i p.1 s then (⟨finish1 i p s.toJob, s.killed⟩, [], false)
  else
    let a := if s.err i || s.killed i then (s.toJob, [], false) else spray i (s.out p.1) s.toJob
    let r := if a.2.2 then (keep i p a.1, a.2.1, false) else consume i p a.2.1 a.1
    (⟨r.1, s.killed⟩, r.2)

/-- What other threads, destructors and the user's functions may do at any time: as for graphs being freed, or worker `i` notices a kill
request (compose.c:154, mutate.c:208). -/
inductive Event (n : Nat)
  | heap (h : Nat → Bool)
  | reserve (r : Nat)
  | raise (i : Fin n)
  | kill (i : Fin n)

/-- `guarding_task` if `wary` (compose.c:118-184), otherwise `_cru_populating_task` (filters.c:61-120), where there are no kills, or
`bounding_task` (mutate.c:157-233). -/
def task [DecidableEq N] (wary : Bool) (hash : N → Nat) (hn : 0 < n) : Task n (Packet N) (Job n N V L) (Event n) where
  dest p := Build.lane hn (hash p.1)
  handle := handle wary
  env e s := match e with
    | .heap h => { s with heap := h }
    | .reserve r => { s with reserve := r }
    | .raise i => { s with err := Function.update s.err i true }
    | .kill i => { s with killed := Function.update s.killed i true }

def start (g : Gr N V L) (heap : Nat → Bool) (reserve : Nat) : Job n N V L := ⟨Free.start g heap reserve, fun _ => false⟩

/-- The nodes on the lists of all ports. -/
def survivors (s : Job n N V L) : List N := (List.finRange n).flatMap s.deletions

/-! ## After an error -/

/-- `sweep` or `decompose` or `unbound` for all ports (route.c:702-717, compose.c:324-346, mutate.c:601-626), of a graph that's been put on lists. -/
def sweep [DecidableEq N] (vertex : N → V) (s : Job n N V L) : Free.Log N V L :=
  ((survivors s).foldl (Free.freeNode vertex) s.toJob).log

/-- The functions in which nodes are put on lists. -/
inductive Caller
  | filtered
  | composed
  | mutated
  | split

/-- Whether the list of nodes in the graph is cleared, given whether the workers were started (filters.c:604-605, compose.c:437-439, mutate.c:792-794,
split.c:311-317). -/
def Caller.clears : Caller → Bool → Bool
  | .split, _ => true
  | _, started => started

/-- What has been disposed of when a function ends after an error in this stage.  If the workers can't be started (`none`), nothing is on any
list, and `_cru_free_now` is applied to the graph with the list of nodes it has (filters.c:619, compose.c:452, mutate.c:856, split.c:323). -/
def ending [DecidableEq N] (c : Caller) (g : Gr N V L) : Option (Job n N V L) → Free.Log N V L
  | some s => sweep g.vertex s
  | none => if c.clears false then ⟨[], [], [], false⟩ else Free.alone g 0

/-! ## Properties of vertices in cru_split -/

/-- The nodes after `m` on a list, with `m`. -/
def tail [DecidableEq N] (m : N) (l : List N) : List N := l.dropWhile (· ≠ m)

/-- The nodes whose properties are freed when `cru_split` fails in this stage with an error other than `CRU_INTKIL`: workers with errors free those of
the nodes on their lists (filters.c:115-116), and then `_cru_unset_properties` (props.c:148-167) does so for the node that was first on the
list of the graph and what comes after it now, without the properties that are gone already. -/
def unpropped [DecidableEq N] (head : N) (s : Job n N V L) : List N :=
  let a := (List.finRange n).flatMap fun i => if s.err i then s.deletions i else []
  a ++ (((List.finRange n).flatMap fun i => if head ∈ s.deletions i then tail head (s.deletions i) else []).filter (· ∉ a))

end Cru.Gather
