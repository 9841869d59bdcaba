import Verif.Model.Fold
import Verif.Model.MergeKill

/-!
# Storage used by `cru_merged` (merge.c)

What happens to vertices, properties and edge labels from the end of the first traversal of `cru_merged` on.  The world is that of
`Model/Fold.lean`: callbacks and destructors may fail at any call, and storage is logged as made or freed with its destructor.  Here
the storage of the graph and the properties have been made and not freed before.

Which nodes are in which class is the subject of `Model/Merge.lean`, and which were put aside after an error or a kill that of
`Model/Cull.lean`; here they're given, and so are the nodes reached by the last traversal.

Simplifications: workers share no storage in these passes, so they are run one after the other, each with an error code of its own;
callbacks are arbitrary functions of the time, so nothing depends on that.  What comparisons of labels are made with is left out,
and so are allocation failures.
-/

namespace Cru.MergeAcc

open Fold

variable {A U V : Type}

/-- An edge: its label, which may be null, and the address of its terminus. -/
structure Edge (V : Type) where
  label : Option (Obj V)
  remote : Nat

/-- A node: vertex, property (both may be null) and outgoing edges. -/
structure Item (V : Type) where
  vertex : Option (Obj V)
  prop : Option (Obj V)
  out : List (Edge V)

/-- The merger after inference (infer.c:304-360) with the destructors of the original graph.  `vop` is the vertex kernel if there is
one, `eop` the edge kernel if there is one, and `pruner t e` the result of the pruner for an edge at time `t`.  `view` is what the
vertex kernel sees of a node and `operand` what the edge kernel sees of an edge.  `cls` is the class of a node, given by an address.
`recording` is the error raised by comparisons of labels that are recorded (merge.c:322-324), and `repeated` says whether an edge has
the label of an earlier one (edges.c:308).  `fails` is the error assigned by a destructor. -/
structure Merger (A U V : Type) where
  gV : Option Nat
  gE : Option Nat
  pFree : Option Nat
  vop : Option (CruProp A U V)
  eop : Option (CruFold A V)
  pruner : Option (Nat → Edge V → Bool × Int)
  view : Item V → Fold.Vertex A U
  operand : Edge V → A
  cls : Nat → Nat
  recording : Nat → List (Edge V) → Int
  repeated : Nat → List (Edge V) → Edge V → Bool × Int
  fails : Nat → Nat → Int

/-- `c->me_kernel.v_op.vertex.r_free`: without a vertex kernel, the destructor of the graph (infer.c:325). -/
def Merger.kV (c : Merger A U V) : Option Nat :=
  match c.vop with
  | none => c.gV
  | some p => p.vertex.rFree

/-- The label destructor in the signature of the result (infer.c:334-342). -/
def Merger.sE (c : Merger A U V) : Option Nat :=
  match c.eop with
  | none => c.gE
  | some m => m.rFree

/-- The label destructor used by `demerge_edges` (merge.c:413). -/
def Merger.dE (c : Merger A U V) : Option Nat :=
  match c.eop with
  | none => c.gE
  | some m => if m.rFree.isSome then m.rFree else c.gE

/-- Destroy what isn't null in a list (`_cru_free_vertices`, nodes.c:134-154; `_cru_free_edges_and_labels`, edges.c:104-117, 181-188;
`unprop`, props.c:103-122). -/
def destroyAll (c : Merger A U V) (d : Option Nat) (xs : List (Option (Obj V))) (w : World) : World :=
  xs.foldl (fun w x => destroy c.fails d x w) w

/-- The labels of edges. -/
def labels (es : List (Edge V)) : List (Option (Obj V)) := es.map Edge.label

/-- `_cru_unpropped` (props.c:130-140). -/
def unpropped (c : Merger A U V) (k : List (Item V)) (w : World) : World := destroyAll c c.pFree (k.map Item.prop) w

/-- `_cru_free_nodes` (nodes.c:76-96) with the given destructors of vertices and labels. -/
def freeNodes (c : Merger A U V) (v e : Option Nat) (k : List (Item V)) (w : World) : World :=
  k.foldl (fun w m => destroy c.fails v m.vertex (destroyAll c e (labels m.out) w)) w

/-- Free a list of nodes with their properties (merge.c:231-232, 414). -/
def discard (c : Merger A U V) (v e : Option Nat) (k : List (Item V)) (w : World) : World :=
  freeNodes c v e k (unpropped c k w)

/-! ## Vertices -/

/-- The class with the given composite vertex at its head and no other vertices (merge.c:102-103). -/
def withVertex (x : Option (Obj V)) : List (Item V) → List (Item V)
  | [] => []
  | h :: t => { h with vertex := x } :: t.map fun m => { m with vertex := none }

/-- The error raised if there's no vertex kernel but a class has more than one member (merge.c:99). -/
def crowded (c : Merger A U V) (k : List (Item V)) (w : World) : World :=
  if c.vop.isNone ∧ 1 < k.length then w.raise (-1144) else w

/-- The loop of `fuse_vertices` for one class (merge.c:97-107). -/
def fuseOne (c : Merger A U V) (k : List (Item V)) (w : World) : List (Item V) × World :=
  let w1 := crowded c k w
  if w1.err = 0 ∧ c.vop.isNone then (k, w1)
  else
    let x := match c.vop with
      | none => (none, w1)
      | some p => if w1.err ≠ 0 then (none, w1) else reducedNodes c.fails p (k.map c.view) w1
    (withVertex x.1 k, destroyAll c c.gV (k.map Item.vertex) x.2)

/-- `fuse_vertices` (merge.c:75-108). -/
def fuse (c : Merger A U V) : List (List (Item V)) → World → List (List (Item V)) × World
  | [], w => ([], w)
  | k :: ks, w =>
    let x := fuseOne c k w
    let y := fuse c ks x.2
    (x.1 :: y.1, y.2)

/-! ## Edges -/

/-- The loop of `filter_edges` (merge.c:274-280): the edges kept, and those deleted in the order in which they're freed.  `PASSED`
(errs.h:55) is zero after an error. -/
def pruneLoop (f : Nat → Edge V → Bool × Int) : List (Edge V) → World → (List (Edge V) × List (Edge V)) × World
  | [], w => (([], []), w)
  | e :: es, w =>
    if w.err ≠ 0 then
      let y := pruneLoop f es w
      ((y.1.1, y.1.2 ++ [e]), y.2)
    else
      let w1 := { w with clock := w.clock + 1, upset := w.upset || decide ((f w.clock e).2 ≠ 0) }.raise (f w.clock e).2
      let y := pruneLoop f es w1
      if (f w.clock e).2 = 0 ∧ (f w.clock e).1 = true then ((e :: y.1.1, y.1.2), y.2) else ((y.1.1, y.1.2 ++ [e]), y.2)

/-- `filter_edges` (merge.c:247-283): the edges left. -/
def filterEdges (c : Merger A U V) (es : List (Edge V)) (w : World) : List (Edge V) × World :=
  match c.pruner with
  | none => (es, w)
  | some f => ((pruneLoop f es w).1.1, destroyAll c c.gE (labels (pruneLoop f es w).1.2) (pruneLoop f es w).2)

/-- `_cru_marshalled` and the disposal of what it doesn't take (merge.c:327-328, table.c:194-238): after an error, everything. -/
def brigade (c : Merger A U V) (es : List (Edge V)) (w : World) : List (List (Edge V)) × World :=
  if w.err ≠ 0 then ([], destroyAll c c.gE (labels es) w) else (marshalled (fun e => c.cls e.remote) es, w)

/-- `_cru_repeating_labels` (edges.c:288-317): edges left and edges removed.  The loop ends at an error. -/
def repeating (c : Merger A U V) : List (Edge V) → List (Edge V) → World → (List (Edge V) × List (Edge V)) × World
  | _, [], w => (([], []), w)
  | seen, e :: es, w =>
    if w.err ≠ 0 then ((e :: es, []), w)
    else if seen.isEmpty then
      let y := repeating c [e] es w
      ((e :: y.1.1, y.1.2), y.2)
    else
      let r := c.repeated w.clock seen e
      let w1 := { w with clock := w.clock + 1, upset := w.upset || decide (r.2 ≠ 0) }.raise r.2
      if r.2 = 0 ∧ r.1 = true then
        let y := repeating c seen es w1
        ((y.1.1, y.1.2 ++ [e]), y.2)
      else
        let y := repeating c (seen ++ [e]) es w1
        ((e :: y.1.1, y.1.2), y.2)

/-- The loop of `_cru_deduplicated_brigade` (brig.c:324-332). -/
def dedupLoop (c : Merger A U V) : List (List (Edge V)) → List (Edge V) → World → List (Edge V) × World
  | [], r, w => (r, w)
  | b :: bs, r, w =>
    let x := repeating c [] b w
    dedupLoop c bs (x.1.1.map (fun e => { e with remote := c.cls e.remote }) ++ r) (destroyAll c c.gE (labels x.1.2) x.2)

/-- The loop of `_cru_reduced_brigade` (brig.c:370-380): after an error, `_cru_edge` (edges.c:70-79) disposes of the label. -/
def reduceLoop (c : Merger A U V) (m : CruFold A V) : List (List (Edge V)) → List (Edge V) → World → List (Edge V) × World
  | [], r, w => (r, w)
  | b :: bs, r, w =>
    match b with
    | [] => reduceLoop c m bs r (w.raise (-572))
    | e :: _ =>
      let x := reducedEdges c.fails m (b.map c.operand) w
      if x.2.err ≠ 0 then reduceLoop c m bs r (destroyAll c c.gE (labels b) (destroy c.fails m.rFree x.1 x.2))
      else reduceLoop c m bs (⟨x.1, c.cls e.remote⟩ :: r) (destroyAll c c.gE (labels b) x.2)

/-- The last step of `_cru_deduplicated_brigade` and `_cru_reduced_brigade` (brig.c:333-335, 381-383): nothing is returned after an
error. -/
def unlessError (c : Merger A U V) (d : Option Nat) (x : List (Edge V) × World) : List (Edge V) × World :=
  if x.2.err ≠ 0 then ([], destroyAll c d (labels x.1) x.2) else x

/-- `fused_edges` (merge.c:293-332). -/
def fusedEdges (c : Merger A U V) (k : List (Item V)) (w : World) : List (Edge V) × World :=
  let es := (k.flatMap Item.out).reverse
  let w1 := if c.pruner.isSome then { w with upset := w.upset || decide (c.recording w.clock es ≠ 0) }.raise (c.recording w.clock es) else w
  let f := filterEdges c es w1
  let b := brigade c f.1 f.2
  match c.eop with
  | none => unlessError c c.gE (dedupLoop c b.1 [] b.2)
  | some m => unlessError c m.rFree (reduceLoop c m b.1 [] b.2)

/-- The class with the given edges at its head and no other edges (merge.c:318-323, 377, 379). -/
def withEdges (es : List (Edge V)) : List (Item V) → List (Item V)
  | [] => []
  | h :: t => { h with out := es } :: t.map fun m => { m with out := [] }

/-- The loop of `edge_merging_task` for one class (merge.c:376-379). -/
def mergeOne (c : Merger A U V) (k : List (Item V)) (w : World) : List (Item V) × World :=
  if w.err ≠ 0 then (withEdges [] k, destroyAll c c.gE (labels (k.flatMap Item.out)) w)
  else
    let x := fusedEdges c k w
    (withEdges x.1 k, x.2)

/-- `edge_merging_task` (merge.c:346-385): the survivors. -/
def mergeEdges (c : Merger A U V) : List (List (Item V)) → List (Item V) → World → List (Item V) × World
  | [], r, w => (r, w)
  | k :: ks, r, w =>
    let x := mergeOne c k w
    mergeEdges c ks (x.1 ++ r) x.2

/-! ## Workers -/

/-- What a worker has: classes whose edges aren't merged yet, nodes put aside, classes whose edges are merged, and its error. -/
structure Port (V : Type) where
  deferred : List (List (Item V))
  deletions : List (Item V)
  survivors : List (Item V)
  err : Int

/-- `demerge_vertices` (merge.c:206-234) and `demerge_edges` (merge.c:393-416). -/
def demerge (c : Merger A U V) (p : Port V) (w : World) : World :=
  discard c c.kV c.dE p.survivors
    (discard c c.gV c.gE p.deletions (p.deferred.foldl (fun w k => discard c c.kV c.gE k w) w))

/-- Run a pass on every worker with its own error, starting from `e p`; the error of a worker afterwards is kept in its port. -/
def eachPort (act : Port V → World → Port V × World) (e : Port V → Int) : List (Port V) → World → List (Port V) × World
  | [], w => ([], w)
  | p :: ps, w =>
    let x := act p { w with err := e p }
    let y := eachPort act e ps x.2
    ({ x.1 with err := x.2.err } :: y.1, y.2)

/-- The error of a launch (launch.c:111-113): that of a worker if any has one, otherwise one raised while waiting (`late`), such as
`CRU_INTKIL`. -/
def status (ps : List (Port V)) (late : Int) : Int := ((ps.find? fun p => p.err ≠ 0).map Port.err).getD late

/-- `merge` (merge.c:455-497) from the end of the first traversal on: `first` and `second` are errors raised in the course of the
first and the second launch other than those of workers, `unstarted` says that the second launch failed to start, `visited` the nodes
reached by the third one and `third` its error.  The nodes of the graph and the workers with what they haven't disposed of. -/
def passes (c : Merger A U V) (first second third : Int) (unstarted : Bool) (visited : Item V → Bool) (ps : List (Port V)) (w : World) :
    List (Item V) × List (Port V) × World :=
  let x := eachPort (fun p w => ({ p with deferred := (fuse c p.deferred w).1 }, (fuse c p.deferred w).2)) Port.err ps w
  let e1 := status x.1 first
  if e1 ≠ 0 then ([], x.1, { x.2 with err := e1 })
  else if unstarted then ([], x.1, { x.2 with err := second })
  else
    let y := eachPort (fun p w => ({ p with deferred := [], survivors := (mergeEdges c p.deferred p.survivors w).1 },
      (mergeEdges c p.deferred p.survivors w).2)) (fun _ => 0) x.1 x.2
    let e2 := status y.1 second
    if e2 ≠ 0 then ([], y.1, { y.2 with err := e2 })
    else
      (y.1.flatMap (fun p => p.survivors.filter visited),
        y.1.map (fun p => { p with survivors := p.survivors.filter (fun m => !visited m) }),
        { y.2 with err := third })

/-- The rest of `merge` (merge.c:488-496), `_cru_unset_properties` (props.c:148-167) and the end of `_cru_merged` (merge.c:532-536),
where `last` is the error reported by `_cru_free_router`: nodes of the graph returned, and the world.  Errors of destructors in the
first part are raised here if it's done by this thread and by launch.c:69 if it's done by workers, so `reported` is true in the code; what C116 says
doesn't depend on it.  `_cru_free_now` (graph.c:114-128) does
nothing after `CRU_BADGPH` (-513). -/
def finish (c : Merger A U V) (reported : Bool) (last : Int) (x : List (Item V) × List (Port V) × World) : List (Item V) × World :=
  let w0 := x.2.1.foldl (fun w p => demerge c p w) x.2.2
  let w1 := if reported then w0 else { w0 with err := x.2.2.err }
  let w2 := (unpropped c x.1 w1).raise last
  let g := x.1.map fun m => { m with prop := none }
  if w2.err = 0 then (g, w2)
  else if w2.err = -513 then ([], w2)
  else ([], freeNodes c c.kV c.sE g w2)

/-- `_cru_merged` (merge.c:505-537) from the end of the first traversal on. -/
def merged (c : Merger A U V) (first second third last : Int) (unstarted reported : Bool) (visited : Item V → Bool) (ps : List (Port V))
    (w : World) : List (Item V) × World :=
  finish c reported last (passes c first second third unstarted visited ps w)

/-- What workers have at the end of the first traversal (merge.c:167-194), where `item` gives the storage of each node. -/
def portsOf {n : Nat} {N P : Type} (item : N → Item V) (prop : N → P) (hash : P → Nat)
    (x : Trav.Job n N (Cull.Mem n N (Merge.Mem n N))) : List (Port V) :=
  (List.finRange n).map fun i =>
    ⟨(Merge.unpacked (x.mem.rest.bins i) (judyKeys (fun m => hash (prop m)) (x.seen i))).map (List.map item),
      (x.mem.culled i).map item, [], x.err i⟩

end Cru.MergeAcc
