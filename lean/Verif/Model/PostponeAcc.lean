import Verif.Model.DedupAcc
import Verif.Model.Duplex

/-!
# Storage in postponing edges, with errors (postpone.c)

`Model/Postpone.lean` has the graph that results if nothing fails.  Here the user's functions, the destructors and allocations may fail at
any time, and vertices and labels are logged as made and freed.  The world is that of `Model/Fold.lean` and `Model/Request.lean`.  The
user's functions are given by what they return at a given time, whatever their arguments are, and time goes on with every call.
-/

namespace Cru.PostponeAcc

open Net Fold
open Request (Env alloc edge)
open SpawnAcc (Verdict)
open SplitAcc (passed unsent)
open DedupAcc (Edge freeEdges dedup)

variable {n : Nat} {N V : Type}

/-- The functions in a `cru_postponer` (cru_postponer.h), whether a fixed point is asked for, and the comparison of labels. -/
structure Ops (V : Type) where
  postponable : Nat → Verdict
  bpred : Nat → Verdict
  bop : Nat → Outcome V
  same : Nat → Verdict
  fix : Bool

/-- The fields of the nodes (nodes.h), where `post` is `edges_postponed`, which shares its storage with `edges_in`; the variable `changed` of
each worker; and the history. -/
structure Heap (n : Nat) (N V : Type) where
  vertex : N → Option (Obj V)
  out : N → List (Edge N V)
  post : N → List (Edge N V)
  changed : Fin n → Bool
  world : World

abbrev Work (n : Nat) (N V : Type) := Trav.Job n N (Heap n N V)

/-- The packets: those sent by `_cru_scatter_out` (scatter.c:98-120), and those with the payload `ATTACH`. -/
inductive Pkt (N V : Type)
  | visit (m : N)
  | attach (m : N) (e : Edge N V)

/-- `packet->receiver`. -/
def Pkt.receiver : Pkt N V → N
  | .visit m => m
  | .attach m _ => m

/-- `_cru_scatter_out` (scatter.c:98-120): the nodes that packets are sent to. -/
def scatter (c : Env) (res : Nat → Bool) : List (Edge N V) → World → List N × World
  | [], w => ([], w)
  | e :: es, w =>
    if unsent c res w then ([], alloc c w)
    else
      let r := scatter c res es (alloc c w)
      (e.dst :: r.1, r.2)

/-- The edges of a node as divided by `bipartition`: those that are left, the stationary ones and the movable ones. -/
structure Parts (N V : Type) where
  left : List (Edge N V)
  still : List (Edge N V)
  movable : List (Edge N V)
  world : World

/-- `bipartition` (postpone.c:50-80). -/
def bipartition [DecidableEq N] (o : Ops V) (m : N) : List (Edge N V) → List (Edge N V) → List (Edge N V) → World → Parts N V
  | [], st, mv, w => ⟨[], st, mv, w⟩
  | e :: es, st, mv, w =>
    if w.err ≠ 0 then ⟨e :: es, st, mv, w⟩
    else if e.dst = m then
      let r := bipartition o m es st mv w
      { r with left := e :: r.left }
    else
      let p := passed o.postponable w
      if p.1 then bipartition o m es st (e :: mv) p.2 else bipartition o m es (e :: st) mv p.2

/-- `postponed` (postpone.c:90-120): the packets sent for a movable edge `l`.  The result is whether there are any. -/
def postponed (c : Env) (o : Ops V) (res : Nat → Bool) (l : Edge N V) : List (Edge N V) → World → List (Pkt N V) × World
  | [], w => ([], w)
  | e :: es, w =>
    if w.err ≠ 0 then ([], w)
    else
      let p := passed o.bpred w
      if p.1 = false then postponed c o res l es p.2
      else
        let x := applied o.bop c.eFree p.2
        match edge c x.1 none [] x.2 with
        | ([], w1) => postponed c o res l es w1
        | (y :: _, w1) =>
          if unsent c res w1 then postponed c o res l es (destroy c.fails c.eFree y.label (alloc c w1))
          else
            let r := postponed c o res l es (alloc c w1)
            (.attach e.dst ⟨y.label, l.dst⟩ :: r.1, r.2)

/-- What the edges of a node are at last, and the packets sent. -/
structure Moved (N V : Type) where
  out : List (Edge N V)
  sent : List (Pkt N V)
  world : World

/-- The loop in `postpone` (postpone.c:154-158). -/
def move (c : Env) (o : Ops V) (res : Nat → Bool) (st : List (Edge N V)) : List (Edge N V) → List (Edge N V) → World → Moved N V
  | [], acc, w => ⟨acc, [], w⟩
  | l :: ls, acc, w =>
    let r := postponed c o res l st w
    if r.1.isEmpty then move c o res st ls (l :: acc) r.2
    else
      let q := move c o res st ls acc (destroy c.fails c.eFree l.label r.2)
      { q with sent := r.1 ++ q.sent }

/-- `postpone` (postpone.c:130-162). -/
def postpone [DecidableEq N] (c : Env) (o : Ops V) (res : Nat → Bool) (m : N) (es : List (Edge N V)) (w : World) : Moved N V :=
  if w.err ≠ 0 then ⟨es, [], w⟩
  else if es.length < 2 then ⟨es, [], w⟩
  else
    let b := bipartition o m es [] [] w
    if b.still.isEmpty then ⟨b.left ++ b.movable, [], b.world⟩
    else
      let q := move c o res b.still b.movable b.left b.world
      { q with out := q.out ++ b.still }

/-- Store the outcome. -/
def put (i : Fin n) (s : Work n N V) (h : Heap n N V) : Work n N V := { s with err := Function.update s.err i h.world.err, mem := h }

/-- The heap with the error of a worker. -/
def own (i : Fin n) (s : Work n N V) : Heap n N V := { s.mem with world := { s.mem.world with err := s.err i } }

/-- The body of the loop in `postponing_task` (postpone.c:202-216).  A node might not be recorded for lack of memory (table.c:585-610). -/
def postponeIt [DecidableEq N] (c : Env) (o : Ops V) (res : Nat → Bool) (i : Fin n) (s : Work n N V) (p : Pkt N V) :
    Work n N V × List (Pkt N V) × Bool :=
  let s := Trav.poll s i
  let h := own i s
  match p with
  | .attach m e => (put i s { h with post := Function.update h.post m (e :: h.post m) }, [], false)
  | .visit m =>
    if s.err i ≠ 0 ∨ s.stop i = true ∨ m ∈ s.seen i then (s, [], false)
    else if (alloc c h.world).err ≠ 0 then (put i s { h with world := alloc c h.world }, [], false)
    else
      let a := scatter c res (h.out m) (alloc c h.world)
      let q := postpone c o res m (h.out m) a.2
      (put i { s with seen := Function.update s.seen i (s.seen i ++ [m]) } { h with out := Function.update h.out m q.out, world := q.world },
        a.1.map Pkt.visit ++ q.sent, false)

/-- `postponing_task` (postpone.c:173-220), where `addr` is the address of a node. -/
def postponing [DecidableEq N] (c : Env) (o : Ops V) (res : Nat → Bool) (addr : N → Nat) (hn : 0 < n) :
    Task n (Pkt N V) (Work n N V) Unit where
  dest p := Build.lane hn (addr p.receiver)
  handle := postponeIt c o res
  env _ s := { s with killed := 1 }

/-- What `absorbing_task` does with the edges of a node (postpone.c:271-276) unless there's an error or a kill. -/
def absorb [DecidableEq N] (c : Env) (o : Ops V) (addr : N → Nat) (i : Fin n) (h : Heap n N V) (m : N) : Heap n N V :=
  if (h.post m).isEmpty then h
  else
    let d := dedup c o.same addr (h.post m ++ h.out m) h.world
    { h with
      out := Function.update h.out m d.1
      post := Function.update h.post m []
      changed := Function.update h.changed i (h.changed i || decide ((h.out m).length < d.1.length))
      world := d.2 }

/-- Free the vertex (postpone.c:281-283). -/
def bury [DecidableEq N] (c : Env) (h : Heap n N V) (m : N) : Heap n N V :=
  { h with vertex := Function.update h.vertex m none, world := destroy c.fails c.vFree (h.vertex m) h.world }

/-- The body of the loop in `absorbing_task` (postpone.c:263-285).  A node might not be recorded for lack of memory (table.c:534-555). -/
def absorbIt [DecidableEq N] (c : Env) (o : Ops V) (res : Nat → Bool) (addr : N → Nat) (i : Fin n) (s : Work n N V) (m : N) :
    Work n N V × List N × Bool :=
  let s := Trav.poll s i
  let h := own i s
  if m ∈ s.seen i then (s, [], false)
  else if c.mem h.world.clock = false then (put i s { h with world := alloc c h.world }, [], false)
  else
    let s' := { s with seen := Function.update s.seen i (s.seen i ++ [m]) }
    let h := { h with world := alloc c h.world }
    if s.err i ≠ 0 ∨ s.stop i = true then (put i s' (bury c h m), [], false)
    else
      let a := absorb c o addr i h m
      if a.world.err ≠ 0 then (put i s' (bury c a m), [], false)
      else
        let r := scatter c res (a.out m) a.world
        let b := { a with world := r.2 }
        (put i s' (if r.2.err ≠ 0 then bury c b m else b), r.1, false)

/-- `absorbing_task` (postpone.c:231-289). -/
def absorbing [DecidableEq N] (c : Env) (o : Ops V) (res : Nat → Bool) (addr : N → Nat) (hn : 0 < n) : Task n N (Work n N V) Unit where
  dest m := Build.lane hn (addr m)
  handle := absorbIt c o res addr
  env _ s := { s with killed := 1 }

/-- The first non-zero worker error in lane order, or another one (launch.c:158-163, crew.c:366-399). -/
def status (s : Work n N V) (late : Int) : Int :=
  ((List.finRange n).map s.err ++ [late]).foldl (fun r e => if r = 0 then e else r) 0

/-- `_cru_count_launched` (launch.c:126-166): it fails to start, raising an error and changing nothing, or it runs to its end.  `late` is any
error raised in the course of it other than by a worker, `e` the error and `k` the kill flag of the router afterwards. -/
def Pass {P : Type} (T : Task n P (Work n N V) Unit) (p : P) (h h' : Heap n N V) (k : Nat) (e : Int) : Prop :=
  (h' = h ∧ k = 0 ∧ e ≠ 0) ∨
  ∃ x : State n P (Work n N V), ∃ late : Int,
    Net.Reach T p (Trav.start { h with changed := fun _ => false }) x ∧ x.main = .done ∧ h' = x.g.mem ∧ k = x.g.killed ∧ e = status x.g late

/-- One iteration of the loop in `_cru_postpone` (postpone.c:381-383): both passes, in spite of any error in the first one (`_cru_launched`
and its variants start with an error code of their own).  `RAISE` keeps the first error.  The kill flag is that of the second pass, because
`_cru_reset` (route.c:512) clears it. -/
def Iter [DecidableEq N] (c : Env) (o : Ops V) (res : Nat → Bool) (addr : N → Nat) (hn : 0 < n) (b : N) (h h' : Heap n N V) (k : Nat) (e : Int) :
    Prop :=
  ∃ h₁ k₁ e₁ e₂, Pass (postponing c o res addr hn) (.visit b) h h₁ k₁ e₁ ∧ Pass (absorbing c o res addr hn) b h₁ h' k e₂ ∧
    e = if e₁ ≠ 0 then e₁ else e₂

/-- The loop in `_cru_postpone` (postpone.c:379-385), if there's no error in the beginning. -/
inductive Loop [DecidableEq N] (c : Env) (o : Ops V) (res : Nat → Bool) (addr : N → Nat) (hn : 0 < n) (b : N) :
    Heap n N V → Heap n N V → Nat → Int → Prop
  | last {h h' : Heap n N V} {k : Nat} {e : Int} : Iter c o res addr hn b h h' k e →
      (e = 0 → (o.fix && (List.finRange n).any h'.changed) = false) → Loop c o res addr hn b h h' k e
  | more {h h₁ h' : Heap n N V} {k₁ k : Nat} {e : Int} : Iter c o res addr hn b h h₁ k₁ 0 →
      (o.fix && (List.finRange n).any h₁.changed) = true → Loop c o res addr hn b h₁ h' k e → Loop c o res addr hn b h h' k e

/-! ## Full duplex graphs -/

/-- The removal of incoming edges from a full duplex graph (postpone.c:375-378), whose incoming edges are in `post`, with the labels of the
outgoing ones (duplex.c:91).  It may fail to start, or it runs as in `Model/Duplex.lean`, where allocation failures are left out.  In either
case the loop is entered only if there's no error (postpone.c:376, postpone.c:379), the result being the heap and the error. -/
def Converted [DecidableEq N] (addr : N → Nat) (hn : 0 < n) (b : N) (h h' : Heap n N V) (e : Int) : Prop :=
  (h' = h ∧ e ≠ 0) ∨
  ∃ x, Net.Reach (Duplex.half (n := n) (fun m => (h.out m).map fun e => (e.label, e.dst)) addr hn) (b, none)
      (Trav.start fun m => (h.post m).map fun e => (e.label, e.dst)) x ∧ x.main = .done ∧
    h' = { h with post := fun m => (x.g.mem m).map fun e => ⟨e.1, e.2⟩ } ∧ e = if x.g.killed = 0 then 0 else Build.intKil

/-! ## The end -/

/-- `_cru_free_nodes` (nodes.c:76-96): incoming edges, or whatever is there instead, are freed without their labels. -/
def freeNodes (c : Env) (h : Heap n N V) (ms : List N) (w : World) : World :=
  ms.foldl (fun w m => destroy c.fails c.vFree (h.vertex m) (freeEdges c (h.out m) w)) w

/-- `free_now` (postpone.c:298-315), or `freeing_slacker` (postpone.c:324-336). -/
def freeNow (c : Env) (h : Heap n N V) (ms : List N) (w : World) : World :=
  freeNodes c { h with out := fun m => h.post m ++ h.out m, post := fun _ => [] } ms w

/-- What follows the loop in `_cru_postpone` and in `cru_postponed` (postpone.c:386-391, entry.c:1015-1017), where `ms` are the nodes of the
graph, `e` is the error and `k` the kill flag, which is reported by `_cru_free_router` (route.c:689-690).  Whether the graph is returned, and
the history. -/
def finish (c : Env) (ms : List N) (h : Heap n N V) (k : Nat) (e : Int) : Bool × World :=
  let w := { h.world with err := e }
  if e ≠ 0 then (false, freeNow c h ms w)
  else if k ≠ 0 then (false, freeNodes c h ms (w.raise Build.intKil))
  else (true, w)

end Cru.PostponeAcc
