import Verif.Model.DedupAcc
import Verif.Model.Duplex
import Verif.Model.Gather
import Verif.Spec.Graph

/-!
# Storage in composing edges, with errors (compose.c)

`Model/Compose.lean` has the graph that results if nothing fails.  Here the user's functions, the destructors and allocations may fail at
any time, and vertices, vertex properties and labels are logged as made and freed.  The world is that of `Model/Fold.lean` and
`Model/Request.lean`.  The user's functions are given by what they return at a given time, whatever their arguments are, and time goes on
with every call.  How the nodes are put on lists is in `Model/Gather.lean`.

Left out: the sets `visited` (a node with properties is always in it, compose.c:59, compose.c:102), and the kill switch of `guarding_task`,
which is launched without one (compose.c:437).
-/

namespace Cru.ComposeAcc

open Net Fold
open Request (Env alloc edge)
open SpawnAcc (Verdict)
open SplitAcc (passed)
open DedupAcc (Edge freeEdges dedup)

variable {n : Nat} {N V : Type}

/-- The functions in a `cru_composer` (cru_composer.h) with the destructors of the properties, and the comparison of labels. -/
structure Ops (V : Type) where
  locals : Nat → Outcome V
  adjacent : Nat → Outcome V
  lFree : Option Nat
  aFree : Option Nat
  qpred : Nat → Verdict
  qop : Nat → Outcome V
  same : Nat → Verdict
  destructive : Bool
  fix : Bool

/-- `struct mapex_pair_s` (nodes.h); labels in `deletable_edges` are given by their addresses. -/
structure Props (V : Type) where
  loc : Option (Obj V)
  adj : Option (Obj V)
  doomed : List (Option Nat)

/-- The fields of the nodes (nodes.h), where `bypass` is `edges_by`, which shares its storage with `edges_in`; the list of nodes in the graph;
for each worker, the list of survivors of its port, its error code, and the variables `killed` and `changed`; and the history. -/
structure Heap (n : Nat) (N V : Type) where
  vertex : N → Option (Obj V)
  out : N → List (Edge N V)
  bypass : N → List (Edge N V)
  props : N → Option (Props V)
  nodes : List N
  stock : Fin n → List N
  err : Fin n → Int
  stop : Fin n → Bool
  changed : Fin n → Bool
  world : World

/-- Let worker `i` do something: `*err` is its own error code. -/
def turn (i : Fin n) (f : Heap n N V → Heap n N V) (h : Heap n N V) : Heap n N V :=
  let a := f { h with world := { h.world with err := h.err i } }
  { a with err := Function.update a.err i a.world.err }

/-- Workers that go through lists of nodes, any of which takes the next turn at any time.  They may have an error or notice a kill request in
between. -/
inductive Runs (f : Fin n → N → Heap n N V → Heap n N V) : (Fin n → List N) → Heap n N V → Heap n N V → Prop
  | done {todo : Fin n → List N} {h : Heap n N V} : (∀ i, todo i = []) → Runs f todo h h
  | next {todo : Fin n → List N} {h h' : Heap n N V} (i : Fin n) (m : N) (ms : List N) : todo i = m :: ms →
      Runs f (Function.update todo i ms) (turn i (f i m) h) h' → Runs f todo h h'
  | fail {todo : Fin n → List N} {h h' : Heap n N V} (i : Fin n) (e : Int) :
      Runs f todo (turn i (fun h => { h with world := h.world.raise e }) h) h' → Runs f todo h h'
  | kill {todo : Fin n → List N} {h h' : Heap n N V} (i : Fin n) :
      Runs f todo { h with stop := Function.update h.stop i true } h' → Runs f todo h h'

/-- The first non-zero worker error in lane order, or another one (launch.c:158-163, crew.c:366-399). -/
def status (h : Heap n N V) (late : Int) : Int :=
  ((List.finRange n).map h.err ++ [late]).foldl (fun r e => if r = 0 then e else r) 0

/-- The state of the workers when they are started. -/
def fresh (h : Heap n N V) : Heap n N V := { h with err := fun _ => 0, stop := fun _ => false, changed := fun _ => false }

/-! ## Properties of vertices -/

/-- `guard_it` (compose.c:46-78), with `_cru_mapped_node` (nodes.c, `Model/Fold.lean`) given by its results. -/
def guardIt [DecidableEq N] (c : Env) (o : Ops V) (m : N) (h : Heap n N V) : Heap n N V :=
  if h.world.err ≠ 0 then h
  else if (alloc c h.world).err ≠ 0 then { h with world := alloc c h.world }
  else if (alloc c (alloc c h.world)).err ≠ 0 then { h with world := alloc c (alloc c h.world) }
  else
    let l := applied o.locals o.lFree (alloc c (alloc c h.world))
    if l.2.err ≠ 0 then { h with world := destroy c.fails o.lFree l.1 l.2 }
    else
      let a := applied o.adjacent o.aFree l.2
      if a.2.err ≠ 0 then { h with world := destroy c.fails o.lFree l.1 (destroy c.fails o.aFree a.1 a.2) }
      else { h with props := Function.update h.props m (some ⟨l.1, a.1, []⟩), world := a.2 }

/-- `free_props` (compose.c:85-109). -/
def freeProps [DecidableEq N] (c : Env) (o : Ops V) (m : N) (h : Heap n N V) : Heap n N V :=
  match h.props m with
  | none => h
  | some p => { h with props := Function.update h.props m none
                       world := destroy c.fails o.aFree p.adj (destroy c.fails o.lFree p.loc h.world) }

/-- The end of `guarding_task` for worker `i` (compose.c:177-180). -/
def settle [DecidableEq N] (c : Env) (o : Ops V) (h : Heap n N V) (i : Fin n) : Heap n N V :=
  if h.err i ≠ 0 then turn i (fun h => (h.stock i).foldl (fun h m => freeProps c o m h) h) h else h

/-- The graph as seen by `Model/Gather.lean`. -/
def graph (b : N) (h : Heap n N V) : Gr N (Option (Obj V)) (Option (Obj V)) where
  nodes := h.nodes
  base := b
  vertex := h.vertex
  out m := (h.out m).map fun e => (e.label, e.dst)
  inn _ := []

/-- `guarding_task` by all workers (compose.c:118-184, compose.c:437-439): nodes are put on lists in the course of a run `x` of that job, which decides
about the edges that are left.  Properties are computed as they are put there.  Workers whose errors in this run are not those of properties have
them at any time.  Labels disposed of are freed at the end, although it may happen earlier. -/
def Guarded [DecidableEq N] (c : Env) (o : Ops V) (addr : N → Nat) (hn : 0 < n) (b : N) (h h' : Heap n N V) : Prop :=
  ∃ (heap : Nat → Bool) (reserve : Nat) (x : State n (Free.Packet N) (Gather.Job n N (Option (Obj V)) (Option (Obj V)))) (h₁ : Heap n N V),
    Net.Reach (Gather.task true addr hn) (Free.first (graph b h)) (Gather.start (graph b h) heap reserve) x ∧ x.main = .done ∧
    (∀ i, x.g.killed i = false) ∧
    Runs (fun _ m => guardIt c o m) (fun i => (x.g.deletions i).reverse)
      (fresh { h with nodes := [], stock := x.g.deletions, out := fun m => (x.g.out m).map fun e => ⟨e.1, e.2⟩ }) h₁ ∧
    (∀ i, h₁.err i ≠ 0 ↔ x.g.err i = true) ∧
    h' = (List.finRange n).foldl (settle c o) { h₁ with world := SpawnAcc.freeLabels c x.g.labels h₁.world }

/-! ## Composing -/

/-- The queue of edges, the set of labels to be deleted, and the history. -/
structure Acc (N V : Type) where
  queue : List (Edge N V)
  doomed : List (Option Nat)
  world : World

/-- `MARKED_FOR_DELETION` if required (compose.c:208, compose.c:224). -/
def mark (c : Env) (o : Ops V) (l : Option (Obj V)) (a : Acc N V) : Acc N V :=
  if o.destructive = false ∨ l.map Obj.id ∈ a.doomed then a
  else if (alloc c a.world).err ≠ 0 then { a with world := alloc c a.world }
  else { a with doomed := a.doomed ++ [l.map Obj.id], world := alloc c a.world }

/-- The body of the loop in `compose` (compose.c:221-228), where `l` is the label of the first edge and `f` the second edge. -/
def composeOne (c : Env) (o : Ops V) (props : N → Option (Props V)) (l : Option (Obj V)) (a : Acc N V) (f : Edge N V) : Acc N V :=
  if a.world.err ≠ 0 ∨ (props f.dst).isNone then a
  else
    let v := passed o.qpred a.world
    if v.1 = false then { a with world := v.2 }
    else
      let k := mark c o l { a with world := v.2 }
      if k.world.err ≠ 0 then k
      else
        let t := applied o.qop c.eFree k.world
        let y := edge c t.1 none [] t.2
        { k with queue := k.queue ++ y.1.map (fun z => ⟨z.label, f.dst⟩), world := y.2 }

/-- The inner loop of `composing_task` with `compose` (compose.c:193-229, compose.c:271-273). -/
def composeAll (c : Env) (o : Ops V) (h : Heap n N V) (m : N) (a : Acc N V) : Acc N V :=
  (h.out m).foldl (fun a e => (h.out e.dst).foldl (composeOne c o h.props e.label) a) a

/-- The body of the loop in `composing_task` (compose.c:266-275).  If there are no properties, nothing is done (compose.c:217). -/
def composeIt [DecidableEq N] (c : Env) (o : Ops V) (addr : N → Nat) (i : Fin n) (m : N) (h : Heap n N V) : Heap n N V :=
  if h.stop i = true ∨ h.world.err ≠ 0 then h
  else if h.bypass m ≠ [] then { h with world := h.world.raise (-663) }
  else match h.props m with
    | none => h
    | some p =>
      let a := composeAll c o h m ⟨[], p.doomed, h.world⟩
      let d := dedup c o.same addr a.queue a.world
      { h with bypass := Function.update h.bypass m d.1, props := Function.update h.props m (some { p with doomed := a.doomed }), world := d.2 }

/-- `composing_task` by all workers (compose.c:238-277, compose.c:441): it fails to start, raising an error and changing nothing, or it runs to its
end.  `e` is the error. -/
def Composed [DecidableEq N] (c : Env) (o : Ops V) (addr : N → Nat) (h h' : Heap n N V) (e : Int) : Prop :=
  (h' = h ∧ e ≠ 0) ∨ ∃ late : Int, Runs (composeIt c o addr) h.stock (fresh h) h' ∧ e = status h' late

/-! ## Bypassing -/

/-- Whether the label of an edge is among those to be deleted (compose.c:310). -/
def Edge.doomed (p : Props V) (e : Edge N V) : Bool := decide (e.label.map Obj.id ∈ p.doomed)

/-- `bypassed` (compose.c:285-315). -/
def bypassed [DecidableEq N] (c : Env) (o : Ops V) (addr : N → Nat) (i : Fin n) (m : N) (h : Heap n N V) : Heap n N V :=
  match h.props m with
  | none => h
  | some p =>
    let d := if h.world.err ≠ 0 then (h.out m ++ h.bypass m, h.world) else dedup c o.same addr (h.out m ++ h.bypass m) h.world
    let w := freeEdges c (d.1.filter fun e => Edge.doomed p e) d.2
    { h with
      out := Function.update h.out m (d.1.filter fun e => !Edge.doomed p e)
      bypass := Function.update h.bypass m []
      changed := Function.update h.changed i (h.changed i || (decide (w.err = 0) && decide ((h.out m).length ≠ d.1.length)))
      world := w }

/-- The body of the loop in `bypassing_task` (compose.c:384-389). -/
def bypassIt [DecidableEq N] (c : Env) (o : Ops V) (addr : N → Nat) (i : Fin n) (m : N) (h : Heap n N V) : Heap n N V :=
  freeProps c o m (bypassed c o addr i m h)

/-- The loop in `decompose` (compose.c:338-343). -/
def unhook [DecidableEq N] (c : Env) (o : Ops V) (h : Heap n N V) (m : N) : Heap n N V :=
  let a := freeProps c o m h
  { a with bypass := Function.update a.bypass m [], world := freeEdges c (a.bypass m) a.world }

/-- `_cru_free_nodes` (nodes.c:76-96): what is in `edges_in` is freed without labels. -/
def freeNodes (c : Env) (h : Heap n N V) (ms : List N) (w : World) : World :=
  ms.foldl (fun w m => destroy c.fails c.vFree (h.vertex m) (freeEdges c (h.out m) w)) w

/-- `decompose` for the list of port `i` (compose.c:324-346). -/
def decompose [DecidableEq N] (c : Env) (o : Ops V) (h : Heap n N V) (i : Fin n) : Heap n N V :=
  let a := (h.stock i).foldl (unhook c o) h
  { a with stock := Function.update a.stock i [], world := freeNodes c a (h.stock i) a.world }

/-- The end of `bypassing_task` for worker `i` (compose.c:390-391). -/
def retire [DecidableEq N] (c : Env) (o : Ops V) (h : Heap n N V) (i : Fin n) : Heap n N V :=
  if h.err i ≠ 0 then turn i (fun h => decompose c o h i) h else h

/-- `bypassing_task` by all workers (compose.c:356-393, compose.c:441), as above. -/
def Bypassed [DecidableEq N] (c : Env) (o : Ops V) (addr : N → Nat) (h h' : Heap n N V) (e : Int) : Prop :=
  (h' = h ∧ e ≠ 0) ∨ ∃ (late : Int) (h₁ : Heap n N V), Runs (bypassIt c o addr) h.stock (fresh h) h₁ ∧
    h' = (List.finRange n).foldl (retire c o) h₁ ∧ e = status h' late

/-! ## The whole operation -/

/-- The nodes on the lists of all ports. -/
def survivors (h : Heap n N V) : List N := (List.finRange n).flatMap h.stock

/-- The first error. -/
def first (es : List Int) : Int := es.foldl (fun r e => if r = 0 then e else r) 0

/-- The body of the loop in `_cru_composed` up to pruning (compose.c:437-444), if `guarding_task` can be started.  `e₀` is an error there was
already and `e` the one there is now.  Both passes are done in spite of any error (`_cru_launched` and its variants start with an error code
of their own). -/
def Pass [DecidableEq N] (c : Env) (o : Ops V) (addr : N → Nat) (hn : 0 < n) (b : N) (e₀ : Int) (h h' : Heap n N V) (e : Int) : Prop :=
  ∃ h₁ h₂ late e₂ e₃, Guarded c o addr hn b h h₁ ∧ Composed c o addr h₁ h₂ e₂ ∧ Bypassed c o addr h₂ h' e₃ ∧
    e = first [e₀, status h₁ late, e₂, e₃]

/-- `_cru_pruned` (filters.c:697-730) and what follows if there's an error (compose.c:450-453, entry.c:777-778): `kept` are the nodes reachable
from the base node, and the others are freed.  `e` is anything raised by pruning or by reporting a kill, which may also be overlooked
(C67).  If there's an error all nodes are freed.  Nodes that aren't on the list of any port after pruning was killed are left out of
consideration (C69). -/
def prune (c : Env) (kept gone : List N) (e : Int) (h : Heap n N V) : Bool × Heap n N V :=
  let w := freeNodes c h gone ({ h.world with err := 0 }.raise e)
  if w.err ≠ 0 then (false, { h with nodes := [], stock := fun _ => [], world := freeNodes c h kept w })
  else (true, { h with nodes := kept, stock := fun _ => [], world := w })

/-- How the nodes are divided by pruning. -/
structure Divides (b : N) (h : Heap n N V) (kept gone : List N) : Prop where
  all : (kept ++ gone).Perm (survivors h)
  kept : ∀ m, m ∈ kept ↔ Reaches (fun m => (h.out m).map Edge.dst) b m

/-- `_cru_composed` from the loop on (compose.c:435-455): whether a graph is returned, and the state of things.  `e₀` is an error there was
already. -/
inductive Composes [DecidableEq N] (c : Env) (o : Ops V) (addr : N → Nat) (hn : 0 < n) (b : N) : Int → Heap n N V → Bool → Heap n N V → Prop
  | unstarted {e₀ e : Int} {h : Heap n N V} : e ≠ 0 →
      Composes c o addr hn b e₀ h false { h with nodes := [], world := freeNodes c h h.nodes { h.world with err := first [e₀, e] } }
  | failed {e₀ e : Int} {h h₁ : Heap n N V} : Pass c o addr hn b e₀ h h₁ e → e ≠ 0 →
      Composes c o addr hn b e₀ h false ((List.finRange n).foldl (decompose c o) { h₁ with world := { h₁.world with err := e } })
  | last {e₀ e : Int} {h h₁ : Heap n N V} {kept gone : List N} : Pass c o addr hn b e₀ h h₁ 0 → Divides b h₁ kept gone →
      (prune c kept gone e h₁).1 = false ∨ (o.fix && (List.finRange n).any h₁.changed) = false →
      Composes c o addr hn b e₀ h (prune c kept gone e h₁).1 (prune c kept gone e h₁).2
  | more {e₀ e : Int} {h h₁ h' : Heap n N V} {kept gone : List N} {r : Bool} : Pass c o addr hn b e₀ h h₁ 0 → Divides b h₁ kept gone →
      (prune c kept gone e h₁).1 = true → (o.fix && (List.finRange n).any h₁.changed) = true →
      Composes c o addr hn b 0 (prune c kept gone e h₁).2 r h' → Composes c o addr hn b e₀ h r h'

/-- The removal of incoming edges from a full duplex graph (compose.c:429-434), whose incoming edges are in `bypass`, with the labels of the
outgoing ones (duplex.c:91), if it can be started.  It runs as in `Model/Duplex.lean`, where allocation failures are left out.  The loop is entered
even if there's an error. -/
def Converted [DecidableEq N] (addr : N → Nat) (hn : 0 < n) (b : N) (h h' : Heap n N V) (e : Int) : Prop :=
  ∃ x, Net.Reach (Duplex.half (n := n) (fun m => (h.out m).map fun e => (e.label, e.dst)) addr hn) (b, none)
      (Trav.start fun m => (h.bypass m).map fun e => (e.label, e.dst)) x ∧ x.main = .done ∧
    h' = { h with bypass := fun m => (x.g.mem m).map fun e => ⟨e.1, e.2⟩ } ∧ e = if x.g.killed = 0 then 0 else Build.intKil

end Cru.ComposeAcc
