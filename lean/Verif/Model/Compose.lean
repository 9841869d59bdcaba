import Verif.Model.Merge

/-!
# Composing edges (compose.c)

The user's functions are given by their values: errors and allocation failures are left out.  Edges are pairs of a label and a
remote node, and labels are what the user's pointers are, so that labels which are equal here are identical pointers.
-/

namespace Cru.Compose

open Net

variable {n : Nat} {N V L P : Type}

/-- `struct cru_composer_s` (compose.h) without the functions for computing properties. -/
structure Composer (P L : Type) where
  qpred : P → L → P → L → Bool
  qop : P → L → P → L → L
  destructive : Bool
  fix : Bool

/-- `guard_it` (compose.c:46-78): `mapped` is the local and the adjacent property of each node (`_cru_mapped_node`,
`Model/Fold.lean`).  The memory is the `props` field of each node. -/
def guardIt [DecidableEq N] (mapped : N → P × P) (s : N → Option (P × P)) (m : N) : N → Option (P × P) :=
  Function.update s m (some (mapped m))

/-- `guarding_task` (compose.c:118-184), which is launched with no kill switch (compose.c:437), where `addr` is the address of a
node.  The list of survivors is what has been seen, with the last one first. -/
def guarding [DecidableEq N] (g : Gr N V L) (mapped : N → P × P) (addr : N → Nat) (hn : 0 < n) :
    Task n N (Trav.Job n N (N → Option (P × P))) Empty :=
  Trav.quiet (g.next false) (fun _ s m => (guardIt mapped s m, 0)) addr hn

def survivors (x : Trav.Job n N (N → Option (P × P))) (i : Fin n) : List N := (x.seen i).reverse

/-- The body of the loop of `compose` (compose.c:222-228), where `q` is the properties of the vertex the edges being composed
originate from, and `l` the label of the first edge.  The second property passed to the user's functions is the one of the
terminus of the second edge.  The queue of edges and the set of deletable labels are changed. -/
def composeOne (c : Composer P L) (props : N → Option (P × P)) (q : P × P) (l : L) (s : List (L × N) × List L) (e : L × N) :
    List (L × N) × List L :=
  match props e.2 with
  | none => s
  | some r =>
    if c.qpred q.1 l r.2 e.1 then (s.1 ++ [(c.qop q.1 l r.2 e.1, e.2)], if c.destructive then s.2 ++ [l] else s.2) else s

/-- `compose` (compose.c:193-229), called with the first edge `e` of a vertex whose properties are `p`. -/
def compose (c : Composer P L) (out : N → List (L × N)) (props : N → Option (P × P)) (p : Option (P × P))
    (s : List (L × N) × List L) (e : L × N) : List (L × N) × List L :=
  match p with
  | none => s
  | some q => (out e.2).foldl (composeOne c props q e.1) s

/-- The inner loop of `composing_task` (compose.c:271-273). -/
def composeAll (c : Composer P L) (out : N → List (L × N)) (props : N → Option (P × P)) (m : N) : List (L × N) × List L :=
  (out m).foldl (compose c out props (props m)) ([], [])

/-- Edges deduplicated (edges.c:430-444, `Model/Edges.lean`). -/
def dedup (eq : L → L → Bool) (addr : N → Nat) (es : List (L × N)) : List (L × N) :=
  (deduplicatedEdges (fun e => addr e.2) (fun a b => eq a.1 b.1) es).1

/-- The outer loop of `composing_task` (compose.c:265-275): the survivors which edges are composed for.  `since` says how many of
them had been looked at by this worker when the kill flag was set, if it was.  The flag is polled as in `Trav.poll`. -/
def unkilled (since : Option Nat) : Nat → List N → List N
  | _, [] => []
  | t, m :: ms => if (t + 1) % 32 = 0 ∧ since.any (· ≤ t) = true then [] else m :: unkilled since (t + 1) ms

/-- `bypassed` (compose.c:285-315): the outgoing edges of a node, and whether their number was changed before deletions. -/
def bypassed [DecidableEq L] (eq : L → L → Bool) (addr : N → Nat) (out : List (L × N)) (p : Option (P × P)) (byEdges : List (L × N))
    (deletable : List L) : List (L × N) × Bool :=
  match p with
  | none => (out, false)
  | some _ =>
    ((dedup eq addr (out ++ byEdges)).filter fun e => decide (e.1 ∉ deletable), decide (out.length ≠ (dedup eq addr (out ++ byEdges)).length))

/-- What `composing_task` and `bypassing_task` (compose.c:356-393) do with one node, if `composed` says whether it was composed
before the kill flag was noticed. -/
def nodeEdges [DecidableEq L] (c : Composer P L) (eq : L → L → Bool) (addr : N → Nat) (out : N → List (L × N))
    (props : N → Option (P × P)) (composed : Bool) (m : N) : List (L × N) × Bool :=
  if composed then bypassed eq addr (out m) (props m) (dedup eq addr (composeAll c out props m).1) (composeAll c out props m).2
  else bypassed eq addr (out m) (props m) [] []

/-- The nodes composed by all workers. -/
def composedNodes (x : Trav.Job n N (N → Option (P × P))) (since : Fin n → Option Nat) : List N :=
  (List.finRange n).flatMap fun i => unkilled (since i) 0 (survivors x i)

/-- The graph after `bypassing_task`, accessible from the base node.  It's half duplex (compose.c:429-434). -/
def bypassing [DecidableEq N] [DecidableEq L] (g : Gr N V L) (c : Composer P L) (eq : L → L → Bool) (addr : N → Nat)
    (x : Trav.Job n N (N → Option (P × P))) (since : Fin n → Option Nat) : Gr N V L where
  nodes := []
  base := g.base
  vertex := g.vertex
  out m := if m ∈ (List.finRange n).flatMap (survivors x)
    then (nodeEdges c eq addr g.out x.mem (decide (m ∈ composedNodes x since)) m).1 else g.out m
  inn _ := []

/-- The disjunction of the results of `bypassing_task` (compose.c:387, 392, 441-442). -/
def changed [DecidableEq N] [DecidableEq L] (g : Gr N V L) (c : Composer P L) (eq : L → L → Bool) (addr : N → Nat)
    (x : Trav.Job n N (N → Option (P × P))) (since : Fin n → Option Nat) : Bool :=
  ((List.finRange n).flatMap (survivors x)).any fun m => (nodeEdges c eq addr g.out x.mem (decide (m ∈ composedNodes x since)) m).2

/-- `pruning_task` (filters.c:638-688): each worker returns the queue of the nodes it has seen. -/
def pruning [DecidableEq N] (g : Gr N V L) (addr : N → Nat) (hn : 0 < n) : Task n N (Trav.Job n N Unit) Unit :=
  Trav.task (g.next false) (fun _ _ _ => ((), 0)) addr hn

/-- The nodes freed at the end of `pruning_task` (filters.c:683-684) by the workers that have noticed the kill flag: the ones in the
queue, and the survivors that are left, which are all the survivors of guarding together. -/
def freed (x : Trav.Job n N (N → Option (P × P))) (z : Trav.Job n N Unit) : List N :=
  (List.finRange n).flatMap fun i => if z.stop i then survivors x i else []

/-- One iteration of the loop in `_cru_composed` (compose.c:435-449) without errors and not killed while pruning: the next graph
and whether it was changed.  Properties are computed anew by `mapped` each time.  The kill flag isn't tested after composing, because
the router is shared (route.c:667-668), and it's cleared by the next `_cru_reset` (route.c:512), at compose.c:441. -/
def Pass [DecidableEq N] [DecidableEq L] (c : Composer P L) (mapped : Gr N V L → N → P × P) (eq : L → L → Bool) (addr : N → Nat)
    (hn : 0 < n) (since : Fin n → Option Nat) (g R : Gr N V L) (ch : Bool) : Prop :=
  ∃ x : State n N (Trav.Job n N (N → Option (P × P))),
    Net.Reach (guarding g (mapped g) addr hn) g.base (Trav.start fun _ => none) x ∧ x.main = .done ∧
    ch = changed g c eq addr x.g since ∧ ∃ z : State n N (Trav.Job n N Unit),
      Net.Reach (pruning (bypassing g c eq addr x.g since) addr hn) g.base (Trav.start ()) z ∧ z.main = .done ∧ z.g.killed = 0 ∧
      R = Merge.collected (bypassing g c eq addr x.g since) z.g

/-- `_cru_composed` (compose.c:405-456) on a half duplex graph, if no kill flag is set while composing: what may be returned. -/
inductive Composes [DecidableEq N] [DecidableEq L] (c : Composer P L) (mapped : Gr N V L → N → P × P) (eq : L → L → Bool)
    (addr : N → Nat) (hn : 0 < n) : Gr N V L → Gr N V L → Prop
  | last {g R : Gr N V L} {ch : Bool} : Pass c mapped eq addr hn (fun _ => none) g R ch → (ch && c.fix) = false →
      Composes c mapped eq addr hn g R
  | more {g g' R : Gr N V L} : Pass c mapped eq addr hn (fun _ => none) g g' true → c.fix = true →
      Composes c mapped eq addr hn g' R → Composes c mapped eq addr hn g R

end Cru.Compose
