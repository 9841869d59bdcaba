import Verif.Spec.PostponeAcc
import Verif.Model.Mutate

/-!
# Storage in mutation, with errors (mutate.c:239-823)

`Model/Mutate.lean` has the graph that results if nothing fails, and what happens before vertices are mutated.  Here the operators, the destructors
and allocations may fail at any time, and vertices and labels are logged as made and freed.  The world is that of `Model/Fold.lean` and
`Model/Request.lean`.  The operators are given by what they return at a given time, whatever their arguments are, and time goes on with every
call.  What's allocated and freed within `_cru_mapped_node` other than its result is left out (see C26).  A node is mutated in one step, although other
workers may go on meanwhile: see DESIGN.md.
-/

namespace Cru.MutateAcc

open Net Fold
open Request (Env alloc)
open SplitAcc (unsent)
open DedupAcc (Edge freeEdges)
open PostponeAcc (scatter)
open Mutate (Mark Packet Plan)

variable {n : Nat} {N V : Type}

/-- An operator, and the destructor of its results (`m_free`). -/
structure Op (V : Type) where
  map : Nat → Outcome V
  mFree : Option Nat

/-- `struct cru_kernel_s` (data_types.h), where `v_op` is a single operator, or `none` if it's empty.  Empty folds have no destructor
(defo.c:85). -/
structure Ops (V : Type) where
  vop : Option (Op V)
  eop : Option (Op V)

/-- The field `m_free` of an operator that may be empty. -/
def free (o : Option (Op V)) : Option Nat := o.bind Op.mFree

/-- The fields of the nodes (nodes.h), the lists of nodes in the ports, the variables `started`, and the history.  `lost` isn't in the code: it
has what's forgotten when labels are cleared with no destructor being called. -/
structure Heap (n : Nat) (N V : Type) where
  vertex : N → Option (Obj V)
  out : N → List (Edge N V)
  inn : N → List (Edge N V)
  mark : N → Mark
  survivors : Fin n → List N
  deletions : Fin n → List N
  started : Fin n → Bool
  lost : Multiset (Nat × Nat)
  world : World

abbrev Work (n : Nat) (N V : Type) := Trav.Job n N (Heap n N V)

/-- An edge whose label is cleared. -/
def bare (e : Edge N V) : Edge N V := ⟨none, e.dst⟩

/-- `_cru_free_labels` (edges.c:127-146): the labels are cleared, and passed to the destructor if there is one. -/
def freeLabels (c : Env) (d : Option Nat) (es : List (Edge N V)) (w : World) : List (Edge N V) × World :=
  (es.map bare, es.foldl (fun w e => destroy c.fails d e.label w) w)

/-- The loop in `permeate` (mutate.c:266-280): the edges with new labels, and those left in case of an error. -/
def relabel (c : Env) (o : Op V) (fwd blocked : Bool) : List (Edge N V) → World → (List (Edge N V) × List (Edge N V)) × World
  | [], w => (([], []), w)
  | e :: es, w =>
    if w.err ≠ 0 then (([], e :: es), w)
    else
      let x := if blocked then (none, w) else applied o.map o.mFree w
      if x.2.err ≠ 0 then (([], e :: es), destroy c.fails o.mFree x.1 x.2)
      else
        let r := relabel c o fwd blocked es (if fwd then destroy c.fails c.eFree e.label x.2 else x.2)
        ((⟨x.1, e.dst⟩ :: r.1.1, r.1.2), r.2)

/-- `permeate` (mutate.c:245-285). -/
def permeate (c : Env) (o : Op V) (fwd blocked : Bool) (es : List (Edge N V)) (w : World) : List (Edge N V) × World :=
  let r := relabel c o fwd blocked es w
  if fwd then
    let f := freeLabels c c.eFree r.1.2 r.2
    if f.2.err ≠ 0 then freeLabels c o.mFree (r.1.1 ++ f.1) f.2 else (r.1.1 ++ f.1, f.2)
  else (r.1.1 ++ r.1.2, r.2)

/-- Store a label in the edge to `m` that has `i` edges to `m` before it (mutate.c:317-328): the former label and the edges, or `none` if there is
no such edge. -/
def put [DecidableEq N] (m : N) (l : Option (Obj V)) : Nat → List (Edge N V) → Option (Option (Obj V) × List (Edge N V))
  | _, [] => none
  | i, f :: fs =>
    if f.dst = m then
      match i with
      | 0 => some (f.label, ⟨l, f.dst⟩ :: fs)
      | i + 1 => (put m l i fs).map fun r => (r.1, f :: r.2)
    else (put m l i fs).map fun r => (r.1, f :: r.2)

/-- The loop in `reflect` (mutate.c:310-330), where `es` are the edges in the opposite direction of every node, `d` is the destructor of the former
labels, and `before` lists the remote nodes of the edges dealt with so far.  -1214 is `IER(1214)`. -/
def reflect [DecidableEq N] (c : Env) (d : Option Nat) (m : N) : List N → List (Edge N V) → (N → List (Edge N V)) → World →
    (N → List (Edge N V)) × World
  | _, [], es, w => (es, w)
  | before, e :: fs, es, w =>
    match put m e.label (before.count e.dst) (es e.dst) with
    | none => reflect c d m (e.dst :: before) fs es (w.raise (-1214))
    | some r => reflect c d m (e.dst :: before) fs (Function.update es e.dst r.2) (destroy c.fails d r.1 w)

/-- The inner loop in `undo_reflection` (mutate.c:357-363): the labels of all edges to `m` are cleared, and passed to the destructor if there is
one. -/
def clear [DecidableEq N] (c : Env) (d : Option Nat) (m : N) (es : List (Edge N V)) (w : World) : List (Edge N V) × World :=
  (es.map fun f => if f.dst = m then bare f else f, es.foldl (fun w f => if f.dst = m then destroy c.fails d f.label w else w) w)

/-- `undo_reflection` (mutate.c:342-364). -/
def undo [DecidableEq N] (c : Env) (d : Option Nat) (m : N) (fwd : Bool) (h : Heap n N V) : Heap n N V :=
  if fwd then h
  else (h.inn m).foldl (fun h e =>
    let r := clear c d m (h.out e.dst) h.world
    { h with out := Function.update h.out e.dst r.1, world := r.2 }) h

/-- `_cru_mapped_node` (nodes.c:379-414): the result is freed in case of an error. -/
def mapped (c : Env) (o : Op V) (w : World) : Option (Obj V) × World :=
  let r := applied o.map o.mFree w
  if r.2.err ≠ 0 then (none, destroy c.fails o.mFree r.1 r.2) else r

/-- The mutated vertex (mutate.c:391-392). -/
def revised (c : Env) (k : Ops V) (blocked : Bool) (w : World) : Option (Obj V) × World :=
  match k.vop with
  | none => (none, w)
  | some o => if blocked = true ∨ w.err ≠ 0 then (none, w) else mapped c o w

/-- The mutation of the edges (mutate.c:394-402). -/
def relay [DecidableEq N] (c : Env) (k : Ops V) (fwd blocked : Bool) (h : Heap n N V) (m : N) : Heap n N V :=
  match k.eop with
  | none => h
  | some o =>
    if fwd then
      let p := permeate c o true blocked (h.out m) h.world
      let r := reflect c none m [] p.1 h.inn p.2
      { h with out := Function.update h.out m p.1, inn := r.1, world := r.2 }
    else
      let p := permeate c o false blocked (h.inn m) h.world
      let r := reflect c c.eFree m [] p.1 h.out p.2
      let h := { h with inn := Function.update h.inn m p.1, out := r.1, world := r.2 }
      if r.2.err ≠ 0 then undo c none m false h else h

/-- `mutate` (mutate.c:373-415). -/
def mutate [DecidableEq N] (c : Env) (k : Ops V) (fwd blocked : Bool) (h : Heap n N V) (m : N) : Heap n N V :=
  let v := revised c k blocked h.world
  let h := relay c k fwd blocked { h with world := v.2 } m
  if h.world.err ≠ 0 then
    { h with mark := Function.update h.mark m .blocked, world := destroy c.fails (free k.vop) v.1 h.world }
  else if fwd = false ∧ blocked = true then { h with mark := Function.update h.mark m .blocked }
  else
    let h := if k.vop.isNone then h
      else { h with vertex := Function.update h.vertex m v.1, world := destroy c.fails c.vFree (h.vertex m) h.world }
    { h with mark := Function.update h.mark m (if h.world.err ≠ 0 ∨ blocked = true then .blocked else .mutated) }

/-- `_cru_free_labels (k->e_op.m_free, n->edges_out, err)` (mutate.c:455, 547).  If there's no edge operator, the labels are those that the graph
had. -/
def discard [DecidableEq N] (c : Env) (k : Ops V) (h : Heap n N V) (m : N) : Heap n N V :=
  let r := freeLabels c (free k.eop) (h.out m) h.world
  { h with
    out := Function.update h.out m r.1
    lost := h.lost + (if k.eop.isNone then DedupAcc.labels c (h.out m) else 0)
    world := r.2 }

/-- What `start` leaves: the nodes that are mutated, the others, and the nodes sent. -/
structure Begun (n : Nat) (N V : Type) where
  heap : Heap n N V
  done : List N
  left : List N
  sent : List N

/-- The loop in `start` (mutate.c:450-459). -/
def begin1 [DecidableEq N] (c : Env) (k : Ops V) (fwd : Bool) (res : Nat → Bool) : Heap n N V → List N → Begun n N V
  | h, [] => ⟨h, [], [], []⟩
  | h, m :: ms =>
    let h := mutate c k fwd false h m
    if h.world.err ≠ 0 then ⟨discard c k h m, [], m :: ms, []⟩
    else
      let a := scatter c res (if fwd then h.out m else h.inn m) h.world
      let r := begin1 c k fwd res { h with world := a.2 } ms
      { r with done := m :: r.done, sent := a.1 ++ r.sent }

/-- `start` (mutate.c:431-463, 537-538), which is called once. -/
def begin [DecidableEq N] (c : Env) (k : Ops V) (fwd : Bool) (res : Nat → Bool) (i : Fin n) (h : Heap n N V) : Heap n N V × List N :=
  if h.started i then (h, [])
  else
    let r := begin1 c k fwd res { h with started := Function.update h.started i true } (h.survivors i)
    ({ r.heap with
        survivors := Function.update r.heap.survivors i r.done
        deletions := Function.update r.heap.deletions i (r.left ++ r.heap.deletions i) }, r.sent)

/-- `all_quiescent` (mutate.c:473-497), except for `blocked`. -/
def quiescent (h : Heap n N V) (es : List (Edge N V)) : Bool := es.all fun e => decide (h.mark e.dst ≠ .clear)

/-- `blocked` (mutate.c:490-491). -/
def blocked (h : Heap n N V) (es : List (Edge N V)) : Bool := es.any fun e => decide (h.mark e.dst = .blocked)

/-- `PREREQUISITES` (mutate.c:50). -/
def prerequisites (p : Plan) (h : Heap n N V) (m : N) : List (Edge N V) := if p.unordered then [] else if p.forward then h.inn m else h.out m

/-- The part of the loop that mutates a node if its prerequisites are ready (mutate.c:541-550), where `stop` says if killed. -/
def attempt [DecidableEq N] (c : Env) (k : Ops V) (p : Plan) (res : Nat → Bool) (i : Fin n) (stop : Bool) (h : Heap n N V) (m : N) :
    Heap n N V × List N :=
  if h.world.err = 0 ∧ stop = false ∧ quiescent h (prerequisites p h m) = true then
    let b := blocked h (prerequisites p h m)
    let h := mutate c k p.forward b h m
    if h.world.err ≠ 0 then (discard c k h m, [])
    else
      let h := if b then h
        else { h with
          survivors := Function.update h.survivors i (m :: h.survivors i)
          deletions := Function.update h.deletions i ((h.deletions i).erase m) }
      let a := scatter c res (if p.forward then h.out m else h.inn m) h.world
      ({ h with world := a.2 }, a.1)
  else (h, [])

/-- `_cru_ping` of the next port (mutate.c:535-536, ports.c:317-332). -/
def ping (c : Env) (res : Nat → Bool) (i : Fin n) (w : World) : List (Packet n N) × World :=
  if h : i.1 + 1 < n then (if unsent c res w then ([], alloc c w) else ([.ping ⟨i.1 + 1, h⟩], alloc c w)) else ([], w)

/-- Store the outcome. -/
def store (i : Fin n) (s : Work n N V) (h : Heap n N V) : Work n N V := { s with err := Function.update s.err i h.world.err, mem := h }

/-- The heap with the error of a worker. -/
def own (i : Fin n) (s : Work n N V) : Heap n N V := { s.mem with world := { s.mem.world with err := s.err i } }

/-- Tell the others to stop (mutate.c:551-553). -/
def interrupt (i : Fin n) (s : Work n N V) : Work n N V := if s.stop i = false ∧ s.err i ≠ 0 then { s with killed := 1 } else s

/-- The body of the loop in `mutating_task` (mutate.c:531-555). -/
def handle [DecidableEq N] (c : Env) (k : Ops V) (p : Plan) (res : Nat → Bool) (i : Fin n) (s : Work n N V) :
    Packet n N → Work n N V × List (Packet n N) × Bool
  | .ping _ =>
    let s := Trav.poll s i
    let q := ping c res i (own i s).world
    let r := begin c k p.forward res i { own i s with world := q.2 }
    (store i s r.1, q.1 ++ r.2.map .node, false)
  | .node m =>
    let s := Trav.poll s i
    let r := begin c k p.forward res i (own i s)
    if r.1.mark m ≠ .clear then (store i s r.1, r.2.map .node, false)
    else
      let q := attempt c k p res i (s.stop i) r.1 m
      (interrupt i (store i s q.1), (r.2 ++ q.2).map .node, false)

/-- `mutating_task` (mutate.c:505-559), which can't be killed from without (`UNKILLABLE`, mutate.c:798). -/
def task [DecidableEq N] (c : Env) (k : Ops V) (p : Plan) (res : Nat → Bool) (addr : N → Nat) (hn : 0 < n) :
    Task n (Packet n N) (Work n N V) Empty where
  dest q := match q with
    | .ping i => i
    | .node m => Build.lane hn (addr m)
  handle := handle c k p res
  env e := e.elim

/-! ## The end -/

/-- The destructors of the mutated graph (infer.c:409-419). -/
def revisedEnv (c : Env) (k : Ops V) : Env :=
  { c with
    vFree := if k.vop.isNone then c.vFree else free k.vop
    eFree := if k.eop.isNone then c.eFree else free k.eop }

/-- `_cru_free_nodes` (nodes.c:76-96). -/
def freeNodes (c : Env) (h : Heap n N V) (ms : List N) (w : World) : World :=
  ms.foldl (fun w m => destroy c.fails c.vFree (h.vertex m) (freeEdges c (h.out m) w)) w

/-- `retract` (mutate.c:656-670) for all ports, if it's called (mutate.c:815-818). -/
def retract [DecidableEq N] (c : Env) (k : Ops V) (fwd : Bool) (h : Heap n N V) : Heap n N V :=
  if fwd = true ∨ free k.eop = none then h
  else (List.finRange n).foldl (fun h i =>
    match h.survivors i with
    | [] => h
    | m :: ms => if h.mark m = .clear then h else (m :: ms).foldl (fun h m => undo c (free k.eop) m false h) h) h

/-- `unmutate` (mutate.c:704-734): `z` is the destructors for the survivors. -/
def unmutate (c : Env) (k : Ops V) (h : Heap n N V) (w : World) (i : Fin n) : World :=
  let z := match h.survivors i with
    | m :: _ => if h.mark m = .clear then c else revisedEnv c k
    | [] => revisedEnv c k
  freeNodes z h (h.survivors i) (freeNodes c h (h.deletions i) w)

/-- What follows an error in the mutation phase (mutate.c:815-822). -/
def recover [DecidableEq N] (c : Env) (k : Ops V) (fwd : Bool) (h : Heap n N V) : World :=
  let h := retract c k fwd h
  (List.finRange n).foldl (unmutate c k h) h.world

/-- What becomes of the graph: it's returned, or it's been freed and none is returned, or it hasn't been freed but none is returned. -/
inductive Fate (n : Nat) (N V : Type)
  | returned (h : Heap n N V)
  | freed
  | abandoned (h : Heap n N V)

/-- The outcome of the phases after bounding in `cru_mutated` (mutate.c:795-822, 855-858, entry.c:977-981), where `h` is the heap when they begin,
`ms` are the nodes of the graph, and the result is what becomes of it, what's forgotten, and the history.  If memory is exhausted
while the nodes are taken from the ports, some may have been taken from them and some not, which is left out. -/
inductive Ends [DecidableEq N] (c : Env) (k : Ops V) (p : Plan) (res : Nat → Bool) (addr : N → Nat) (hn : 0 < n) (ms : List N) (h : Heap n N V) :
    Fate n N V → Multiset (Nat × Nat) → World → Prop
  /-- There's an error already, or the mutation phase fails to start (mutate.c:809-814). -/
  | unstarted (e : Int) : e ≠ 0 →
      Ends c k p res addr hn ms h .freed 0 ((List.finRange n).foldl (fun w i => freeNodes c h (h.deletions i) (freeNodes c h (h.survivors i) w)) { h.world with err := e })
  /-- There's an error in the mutation phase, or after it before the nodes have been taken from the ports. -/
  | failed {x : State n (Packet n N) (Work n N V)} (e : Int) : Reach (task c k p res addr hn) (.ping ⟨0, hn⟩) (Trav.start h) x → x.main = .done →
      e ≠ 0 → Ends c k p res addr hn ms h .freed x.g.mem.lost (recover c k p.forward { x.g.mem with world := { x.g.mem.world with err := e } })
  /-- There's none, but a kill request made in the mutation phase becomes an error when the nodes are to be taken from the ports
  (killers.c:128-129, launch.c:208), or there's another error then (mutate.c:806-807, 855-856, graph.c:114-128). -/
  | killed {x : State n (Packet n N) (Work n N V)} (e : Int) : Reach (task c k p res addr hn) (.ping ⟨0, hn⟩) (Trav.start h) x → x.main = .done →
      (∀ i, x.g.err i = 0) → e ≠ 0 →
      Ends c k p res addr hn ms h .freed x.g.mem.lost (freeNodes (revisedEnv c k) x.g.mem ms { x.g.mem.world with err := e })
  /-- A kill request is made while the nodes are taken from the ports (killers.c:123, 283).  It isn't reported until the router is freed
  (route.c:689-690), when it's too late for the graph to be (mutate.c:855-858, entry.c:977-981, graph.c:122). -/
  | interrupted {x : State n (Packet n N) (Work n N V)} : Reach (task c k p res addr hn) (.ping ⟨0, hn⟩) (Trav.start h) x → x.main = .done →
      (∀ i, x.g.err i = 0) → Ends c k p res addr hn ms h (.abandoned x.g.mem) x.g.mem.lost { x.g.mem.world with err := Build.intKil }
  /-- The graph is returned. -/
  | returned {x : State n (Packet n N) (Work n N V)} : Reach (task c k p res addr hn) (.ping ⟨0, hn⟩) (Trav.start h) x → x.main = .done →
      (∀ i, x.g.err i = 0) → Ends c k p res addr hn ms h (.returned x.g.mem) x.g.mem.lost { x.g.mem.world with err := 0 }

end Cru.MutateAcc
