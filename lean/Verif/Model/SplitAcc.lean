import Verif.Model.SpawnAcc
import Verif.Model.Split

/-!
# Storage in splitting, with errors (split.c)

`Model/Split.lean` has the graph that results if nothing but the limit is exceeded.  Here the user's functions, the destructors and
allocations may fail at any time, and vertices, vertex properties and labels are logged as made and freed.  The world is that of
`Model/Fold.lean` and `Model/Request.lean`.  The user's functions are given by what they return at a given time, whatever their
arguments are, and time goes on with every call.
-/

namespace Cru.SplitAcc

open Net Fold
open Request (Env alloc edge)
open SpawnAcc (Verdict)
open Split (Twin)

variable {n : Nat} {N V : Type}

/-- The functions in a `cru_splitter` (cru_splitter.h): predicates, operators, and the fold for the vertex property.  `pFree` is the
destructor of the property. -/
structure Ops (V : Type) where
  fissile : Nat → Verdict
  cata : Nat → Outcome V
  ana : Nat → Outcome V
  probe : Nat → Outcome V
  pFree : Option Nat
  outAnaP : Nat → Verdict
  outAna : Nat → Outcome V
  outCataP : Nat → Verdict
  outCata : Nat → Outcome V
  inAnaP : Nat → Verdict
  inAna : Nat → Outcome V
  inCataP : Nat → Verdict
  inCata : Nat → Outcome V

/-- `struct edge_list_s` (edges.h): `id` is its address. -/
structure Edge (N V : Type) where
  id : Nat
  label : Option (Obj V)
  dst : Twin N

/-- Packets, as in `Split.Pkt`; a carrier is given by the node it's an edge of, and its address.  The carrier of the packet with the
payload `CONNECT` is an edge of no node. -/
inductive Pkt (N V : Type)
  | visit (m : N) (carrier : Option (Twin N × Nat))
  | create (m : N)
  | connect (s : Twin N) (e : Edge N V)
  | disconnect (s : Twin N) (id : Nat)

/-- `packet->receiver`. -/
def Pkt.receiver : Pkt N V → Twin N
  | .visit m _ => (m, false)
  | .create m => (m, true)
  | .connect s _ => s
  | .disconnect s _ => s

/-- The fields of the nodes (nodes.h), the nodes on each port's list of survivors, the vertices kept by the dummy nodes there
(split.c:109-111), the variable `count` of each worker, the addresses in use, whether a worker has used an edge that's not there or
notified a doppleganger of an edge, and the history. -/
structure Heap (n : Nat) (N V : Type) where
  vertex : Twin N → Option (Obj V)
  prop : Twin N → Option (Obj V)
  out : Twin N → List (Edge N V)
  split : N → Bool
  stock : Fin n → List (Twin N)
  old : Fin n → List (Option (Obj V))
  count : Fin n → Nat
  next : Nat
  bad : Bool
  world : World

abbrev Work (n : Nat) (N V : Type) := Trav.Job n N (Heap n N V)

/-- `PASSED` (errs.h:55). -/
def passed (f : Nat → Verdict) (w : World) : Bool × World :=
  if w.err ≠ 0 then (false, w)
  else ((f w.clock).val && decide ((f w.clock).ux = 0), { w with clock := w.clock + 1, upset := w.upset || decide ((f w.clock).ux ≠ 0) }.raise (f w.clock).ux)

/-- `new_packet` (pack.c:108-124) fails if the heap and the reserve are exhausted; there's an error in any case if the heap is. -/
def unsent (c : Env) (res : Nat → Bool) (w : World) : Prop := c.mem w.clock = false ∧ res w.clock = false

instance (c : Env) (res : Nat → Bool) (w : World) : Decidable (unsent c res w) := inferInstanceAs (Decidable (_ ∧ _))

/-- What becomes of the label of an edge (split.c:121-129, split.c:189-197): whether the given node and its doppleganger have the edge
and with what label. -/
structure Fate (V : Type) where
  ana : Bool
  anaLabel : Option (Obj V)
  cata : Bool
  cataLabel : Option (Obj V)
  world : World

def relabel (c : Env) (anaP : Nat → Verdict) (ana : Nat → Outcome V) (cataP : Nat → Verdict) (cata : Nat → Outcome V) (l : Option (Obj V))
    (w : World) : Fate V :=
  let a := passed anaP w
  let x := if a.1 then applied ana c.eFree a.2 else (none, a.2)
  let b := passed cataP x.2
  let y := if b.1 then applied cata c.eFree b.2 else (none, b.2)
  ⟨a.1, x.1, b.1, y.1, destroy c.fails c.eFree l y.2⟩

/-- `(*e)->label` after the assignment (split.c:127, split.c:195). -/
def Fate.label (f : Fate V) : Option (Obj V) := if f.ana then f.anaLabel else f.cataLabel

/-- What the loop in `fan_out` makes of the edges: those of the node, those of the doppleganger, the addresses in use, and the history. -/
structure Fan (N V : Type) where
  kept : List (Edge N V)
  moved : List (Edge N V)
  next : Nat
  world : World

/-- The loop in `fan_out` (split.c:117-138), starting with the edges of the doppleganger. -/
def fan (c : Env) (o : Ops V) : List (Edge N V) → List (Edge N V) → Nat → World → Fan N V
  | [], mv, k, w => ⟨[], mv, k, w⟩
  | e :: es, mv, k, w =>
    if w.err ≠ 0 then ⟨e :: es, mv, k, w⟩
    else
      let f := relabel c o.outAnaP o.outAna o.outCataP o.outCata e.label w
      if f.ana then
        if f.cata then
          let d := edge c f.cataLabel none [] f.world
          let r := fan c o es (d.1.map (fun x => ⟨k, x.label, e.dst⟩) ++ mv) (k + 1) d.2
          { r with kept := { e with label := f.label } :: r.kept }
        else
          let r := fan c o es mv k f.world
          { r with kept := { e with label := f.label } :: r.kept }
      else if f.cata then fan c o es ({ e with label := f.label } :: mv) k f.world
      else fan c o es mv k (destroy c.fails c.eFree f.label f.world)

/-- `_cru_scatter_out` (scatter.c:98-120). -/
def scatter (c : Env) (res : Nat → Bool) (s : Twin N) : List (Edge N V) → World → List (Pkt N V) × World
  | [], w => ([], w)
  | e :: es, w =>
    if unsent c res w then ([], alloc c w)
    else
      let r := scatter c res s es (alloc c w)
      (.visit e.dst.1 (some (s, e.id)) :: r.1, r.2)

/-- `if (! *err) _cru_scatter_out (n, d, err)` (split.c:139-142).  Edges aren't supposed to lead to dopplegangers at this time. -/
def notify (c : Env) (res : Nat → Bool) (s : Twin N) (h : Heap n N V) : Heap n N V × List (Pkt N V) :=
  if h.world.err ≠ 0 then (h, [])
  else
    let r := scatter c res s (h.out s) h.world
    ({ h with world := r.2, bad := h.bad || (h.out s).any fun e => e.dst.2 }, r.1)

/-- `fan_out` from the time when the doppleganger has been sent (split.c:109-145).  A vertex returned by `ana` along with an error isn't
stored anywhere (split.c:112-114). -/
def divide [DecidableEq N] (c : Env) (o : Ops V) (res : Nat → Bool) (i : Fin n) (h : Heap n N V) (m : N) : Heap n N V × List (Pkt N V) :=
  let w := if c.vFree.isSome ∧ h.world.err = 0 then alloc c h.world else h.world
  let u := applied o.ana c.vFree w
  if u.2.err ≠ 0 then ({ h with world := u.2 }, [])
  else
    let f := fan c o (h.out (m, false)) (h.out (m, true)) h.next u.2
    let h' := { h with
      vertex := Function.update h.vertex (m, false) u.1
      out := Function.update (Function.update h.out (m, false) f.kept) (m, true) f.moved
      split := Function.update h.split m true
      old := if c.vFree.isSome then Function.update h.old i (h.vertex (m, false) :: h.old i) else h.old
      next := f.next
      world := f.world }
    let a := notify c res (m, true) h'
    let b := notify c res (m, false) a.1
    (b.1, a.2 ++ b.2)

/-- `fan_out` (split.c:64-148) on lane `i`.  A vertex returned by `cata` along with an error isn't stored anywhere (split.c:102-104). -/
def fanOut [DecidableEq N] (c : Env) (o : Ops V) (res : Nat → Bool) (i : Fin n) (h : Heap n N V) (m : N) : Heap n N V × List (Pkt N V) :=
  let f := passed o.fissile h.world
  if f.1 = false then notify c res (m, false) { h with world := f.2 }
  else
    let t := applied o.cata c.vFree f.2
    if t.2.err ≠ 0 then ({ h with world := t.2 }, [])
    else if (alloc c t.2).err ≠ 0 then ({ h with world := destroy c.fails c.vFree t.1 (alloc c t.2) }, [])
    else
      let p := applied o.probe o.pFree (alloc c t.2)
      if p.2.err ≠ 0 then ({ h with world := destroy c.fails c.vFree t.1 (destroy c.fails o.pFree p.1 p.2) }, [])
      else if unsent c res p.2 then
        ({ h with world := destroy c.fails c.vFree t.1 (destroy c.fails o.pFree p.1 (alloc c p.2)) }, [])
      else
        let r := divide c o res i { h with
          vertex := Function.update h.vertex (m, true) t.1
          prop := Function.update h.prop (m, true) p.1
          world := alloc c p.2 } m
        (r.1, .create m :: r.2)

/-- Change an edge. -/
def alter (es : List (Edge N V)) (id : Nat) (l : Option (Obj V)) (d : Twin N) : List (Edge N V) :=
  es.map fun e => if e.id = id then { e with label := l, dst := d } else e

/-- What `fan_in` does with the carrier `e` of a packet from the node `s` (split.c:189-205). -/
def connectIn [DecidableEq N] (c : Env) (o : Ops V) (res : Nat → Bool) (h : Heap n N V) (m : N) (s : Twin N) (e : Edge N V) :
    Heap n N V × List (Pkt N V) :=
  let f := relabel c o.inAnaP o.inAna o.inCataP o.inCata e.label h.world
  let h' := { h with out := Function.update h.out s (alter (h.out s) e.id f.label (if f.ana = false ∧ f.cata = true then (m, true) else e.dst)), world := f.world }
  if f.ana then
    if f.cata then
      match edge c f.cataLabel none [] f.world with
      | ([], w) => ({ h' with world := w }, [])
      | (x :: _, w) =>
        if unsent c res w then ({ h' with world := destroy c.fails c.eFree x.label (alloc c w) }, [])
        else ({ h' with world := alloc c w, next := h.next + 1 }, [.connect s ⟨h.next, x.label, (m, true)⟩])
    else (h', [])
  else if f.cata then (h', [])
  else if unsent c res f.world then ({ h' with world := alloc c f.world }, [])
  else ({ h' with world := alloc c f.world }, [.disconnect s e.id])

/-- `fan_in` (split.c:157-206). -/
def fanIn [DecidableEq N] (c : Env) (o : Ops V) (res : Nat → Bool) (h : Heap n N V) (m : N) : Option (Twin N × Nat) → Heap n N V × List (Pkt N V)
  | none => (h, [])
  | some (s, id) =>
    if h.world.err ≠ 0 ∨ h.split m = false then (h, [])
    else match (h.out s).find? fun e => e.id == id with
      | none => ({ h with bad := true }, [])
      | some e => connectIn c o res h m s e

/-- Store the outcome. -/
def put (i : Fin n) (s : Work n N V) (h : Heap n N V) : Work n N V := { s with err := Function.update s.err i h.world.err, mem := h }

/-- `_cru_pushed_node` on the list of survivors of a port. -/
def keep (i : Fin n) (h : Heap n N V) (t : Twin N) : Heap n N V := { h with stock := Function.update h.stock i (t :: h.stock i) }

/-- What's done with a packet after an error or a kill request (split.c:257-263). -/
def discard (c : Env) (i : Fin n) (s : Work n N V) (h : Heap n N V) : Pkt N V → Work n N V × List (Pkt N V) × Bool
  | .create m => (put i s (keep i h (m, true)), [], false)
  | .connect _ e => (put i s { h with world := destroy c.fails c.eFree e.label h.world }, [], false)
  | _ => (s, [], false)

/-- What's done with a packet otherwise (split.c:264-275), where `limit` is what's computed by split.c:247-248.  A node that exceeds the
limit is stored nevertheless.  A node might not be recorded for lack of memory (table.c:585-610). -/
def act [DecidableEq N] (c : Env) (o : Ops V) (res : Nat → Bool) (limit : Nat) (i : Fin n) (s : Work n N V) (h : Heap n N V) :
    Pkt N V → Work n N V × List (Pkt N V) × Bool
  | .connect t e => (put i s { h with out := Function.update h.out t (e :: h.out t) }, [], false)
  | .disconnect t id =>
    match (h.out t).find? fun e => e.id == id with
    | none => (put i s { h with bad := true }, [], false)
    | some e => (put i s { h with out := Function.update h.out t ((h.out t).filter fun e => e.id != id)
                                  world := destroy c.fails c.eFree e.label h.world }, [], false)
  | .create m =>
    let w := if limit ≠ 0 ∧ limit < h.count i then h.world.raise Build.intOvf else h.world
    (put i s (keep i { h with count := Function.update h.count i (h.count i + 1), world := w } (m, true)), [], false)
  | .visit m d =>
    if m ∈ s.seen i then
      let b := fanIn c o res h m d
      (put i s b.1, b.2, false)
    else if (alloc c h.world).err ≠ 0 then (put i s { h with world := alloc c h.world }, [], false)
    else
      let a := fanOut c o res i { h with world := alloc c h.world } m
      let b := fanIn c o res a.1 m d
      (put i { s with seen := Function.update s.seen i (s.seen i ++ [m]) } b.1, a.2 ++ b.2, false)

/-- The body of the loop in `splitting_task` (split.c:256-276). -/
def handle [DecidableEq N] (c : Env) (o : Ops V) (res : Nat → Bool) (limit : Nat) (i : Fin n) (s : Work n N V) (p : Pkt N V) :
    Work n N V × List (Pkt N V) × Bool :=
  let s := Trav.poll s i
  let h := { s.mem with world := { s.mem.world with err := s.err i } }
  if s.err i ≠ 0 ∨ s.stop i = true then discard c i s h p else act c o res limit i s h p

/-- `splitting_task` (split.c:215-281), where `addr` is the address of a node. -/
def task [DecidableEq N] (c : Env) (o : Ops V) (res : Nat → Bool) (limit : Nat) (addr : Twin N → Nat) (hn : 0 < n) :
    Task n (Pkt N V) (Work n N V) Unit where
  dest p := Build.lane hn (addr p.receiver)
  handle := handle c o res limit
  env _ s := { s with killed := 1 }

/-! ## The end -/

/-- `sweep` (route.c:702-717) and `_cru_free_nodes` (nodes.c:76-96) for a node. -/
def freeNode (c : Env) (h : Heap n N V) (t : Twin N) (w : World) : World :=
  destroy c.fails c.vFree (h.vertex t) (SpawnAcc.freeLabels c ((h.out t).map Edge.label) w)

/-- All nodes on the lists of survivors. -/
def survivors (h : Heap n N V) : List (Twin N) := (List.finRange n).flatMap h.stock

/-- All vertices kept by dummy nodes. -/
def dummies (h : Heap n N V) : List (Option (Obj V)) := (List.finRange n).flatMap h.old

/-- `_cru_clear_properties` (props.c:361-381). -/
def clear (c : Env) (o : Ops V) (h : Heap n N V) (w : World) : World :=
  (survivors h).foldl (fun w t => destroy c.fails o.pFree (h.prop t) w) w

/-- The first non-zero worker status in lane order (runners.c:100-119, crew.c:366-399). -/
def status (s : Work n N V) : Int := ((List.finRange n).map s.err).foldl (fun r e => if r = 0 then e else r) 0

/-- `_cru_free_nodes`, or `cru_free_now` (C107). -/
def freeNodes (c : Env) (h : Heap n N V) (ts : List (Twin N)) (w : World) : World := ts.foldl (fun w t => freeNode c h t w) w

/-- What follows the splitting task in `_cru_split` and in `cru_split` (split.c:319-325, entry.c:742-744): the nodes of the graph returned, if
any, and the history.  The error `e` is anything raised by pruning or by reporting a kill, which may also be overlooked (C75, C77).  If
there's an error, all nodes are freed, otherwise those that aren't reachable, where `reachable` is left open (see C37).  Nodes that aren't
on the list of any port after pruning was killed are left out of consideration (C77). -/
def finish (c : Env) (o : Ops V) (e : Int) (reachable : Twin N → Bool) (s : Work n N V) : Option (List (Twin N)) × World :=
  let h := s.mem
  let w := (clear c o h { h.world with err := status s }).raise e
  let gone := if w.err ≠ 0 then survivors h else (survivors h).filter fun t => !reachable t
  let kept := if w.err ≠ 0 then [] else (survivors h).filter reachable
  let w := (dummies h).foldl (fun w x => destroy c.fails c.vFree x w) (freeNodes c h gone w)
  if w.err ≠ 0 then (none, freeNodes c h kept w) else (some kept, w)

end Cru.SplitAcc
