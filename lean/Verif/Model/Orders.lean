import Verif.Model.Infer

/-!
# The orders a graph carries along (entry.c, graph.c, zones.c, merge.c)

A graph carries a signature: the orders and the destructors of its vertices and labels.  Every operation completes its
specification by the functions in infer.c, which look at the signature and sometimes change it, creates a router with a signature,
and launches tasks that hash and compare vertices and labels by the functions in the router.  This file has, for each operation,
the signature of the graph afterwards and the hash functions and equality predicates that its tasks call, as they are found in the
router.  Simplifications: those of `Model/Infer.lean`; the graph isn't NULL or corrupted; the functions are listed whether or not the
graph has enough vertices and edges for each of them to be called; operations that end with an error have no signature, because the graph is freed or
stays as it was; errors from tasks other than those about missing functions are left out.
-/

namespace Cru.Infer

/-- A call of a hash function or of an equality predicate that is found in a field. -/
inductive Call
  | hash (f : Field)
  | equal (f : Field)
  deriving DecidableEq

/-- The functions of an order. -/
def Order.calls (o : Order) : List Call := [.hash o.hash, .equal o.equal]

/-- INCSPB in error_codes.h. -/
def INCSPB : Int := -525

/-- An operation on a graph with its specification.  `search` is for operations with a zone: whether the zone has an offset and an
initial vertex other than the base vertex of the graph by its pointer, so that it has to be searched for (zones.c:227).  `reflexive` is as for
`inferredBuilder`. -/
inductive Request
  | mapreduced (p : Prp) (search : Bool)
  | induced (i : Inducer) (search : Bool)
  | filtered (f : Filter) (search : Bool)
  | mutated (m : Mutator) (search : Bool)
  | composed (c : Composer)
  | stretched (x : Stretcher)
  | split (x : Splitter)
  | merged (c : Merger)
  | deduplicated
  | postponed (p : Postponer)
  | spread (b : Builder) (reflexive : Bool)
  | partitioned (c : Option Classifier)

/-- What `base_searching_task` calls (zones.c:79, 93), if it is launched by `_cru_initial_node` (zones.c:227-229): the equality predicate in
the signature of the router, which is that of the graph (entry.c:580, 629, 897, 976). -/
def searchCalls (s : Sig) (search : Bool) : List Call := if search then [.equal s.vOrder.equal] else []

/-- What `filtered_edges` calls (filters.c:415-420): nothing if there is no test or no order. -/
def filterCalls (f : Filter) : List Call :=
  if (emptyFold f.kernel.eOp && f.thinner.isNone) || emptyOrder f.order then [] else f.order.calls

/-- What `edge_merging_task` calls by way of `fused_edges` (merge.c:272-276, 321-324, 329-330, 379): the edge order in the signature of the router, which is
that of the graph before the operation (entry.c:861), if there is a pruner or if there is nothing to reduce edges by. -/
def mergeCalls (c : Merger) (s : Sig) : List Call :=
  if c.pruner.isSome || emptyFold c.kernel.eOp then s.eOrder.calls else []

/-- `_cru_identical` (graph.c:331-361). -/
def identical (l r : Sig) : Except Int Unit :=
  if l.vOrder.hash ≠ r.vOrder.hash then .error INCSPB
  else if l.vOrder.equal ≠ r.vOrder.equal then .error INCSPB
  else if l.eOrder.hash ≠ r.eOrder.hash then .error INCSPB
  else if l.eOrder.equal ≠ r.eOrder.equal then .error INCSPB
  else if l.vFree ≠ r.vFree then .error INCSPB
  else if l.eFree ≠ r.eFree then .error INCSPB
  else .ok ()

/-- The signature of the graph after an operation, and the calls.
* `cru_mapreduced` (entry.c:576-587), `cru_induced` (entry.c:625-629), `cru_filtered` (entry.c:894-897) and `cru_partition_of` (entry.c:668-671,
  classes.c:242, 271-273, 334) leave the signature as it is.
* `cru_mutated` (entry.c:973-977) replaces the signature by the inferred one after the search (mutate.c:842, 797).
* `cru_composed` (entry.c:771-774; compose.c:274, 387) and `cru_postponed` (entry.c:1009-1013; postpone.c:274) infer from a copy.
* `cru_stretched` (entry.c:704-707; stretch.c:75-191, 266-444) and `cru_split` (entry.c:737-739; split.c:307, stretch.c:395) complete the
  signature of the graph in place.
* `cru_merged` (entry.c:858-864; merge.c:133, 163-191, 475-485) infers from a copy, to which the signature is set after the vertices
  have been merged (merge.c:481).
* `cru_deduplicated` (entry.c:928-934; duplex.c:194, 256, 284, 323-324, 376) uses those of the graph.
* `cru_spread` (entry.c:808-813; spread.c:44, 89-105, 178-180, 318-335, 389-464; build.c:42-74, 127-137) uses those of the builder, which are to be the same. -/
def perform (r : Request) (s : Sig) : Except Int (Sig × List Call) :=
  match r with
  | .mapreduced p search => do
    let _ ← inferredMapreducer p
    return (s, searchCalls s search)
  | .induced i search => do
    let _ ← inferredInducer i
    return (s, searchCalls s search)
  | .filtered f search => do
    let f ← inferredFilter f s
    return (s, searchCalls s search ++ filterCalls f)
  | .mutated m search => do
    let x ← inferredMutator m s
    return (x.2, searchCalls s search)
  | .composed c => do
    let _ ← inferredComposer c s
    return (s, s.eOrder.calls)
  | .stretched x => do
    let y ← inferredStretcher x s
    return (y.2, y.2.vOrder.calls ++ y.2.eOrder.calls)
  | .split x => do
    let y ← inferredSplitter x s
    return (y.2, y.2.vOrder.calls)
  | .merged c => do
    let x ← inferredMerger c s
    return (x.2, x.1.classifier.order.calls ++ mergeCalls x.1 s)
  | .deduplicated => do
    let x ← deduplicator s
    return (x.2, x.2.vOrder.calls ++ x.2.eOrder.calls)
  | .postponed p => do
    let x ← inferredPostponer p s
    return (s, x.2.eOrder.calls)
  | .spread b reflexive => do
    let b ← inferredBuilder b reflexive
    let _ ← identical b.sig s
    return (s, b.sig.vOrder.calls ++ b.sig.eOrder.calls)
  | .partitioned c => do
    let c ← inferredClassifier c
    return (s, c.order.calls)

/-- An operation by which a graph is made. -/
inductive Origin
  | built (b : Builder) (reflexive : Bool)
  | crossed (c : Crosser)

/-- The signature of a new graph and the calls: `cru_built` (build.c:42-74, 127-137, 261, 298, 328-330) and `cru_crossed` (cross.c:357). -/
def create : Origin → Except Int (Sig × List Call)
  | .built b reflexive => do
    let b ← inferredBuilder b reflexive
    return (b.sig, b.sig.vOrder.calls ++ b.sig.eOrder.calls)
  | .crossed c => do
    let c ← inferredCrosser c
    return (c.sig, c.sig.vOrder.calls)

/-- The signature of a fabricated graph (entry.c:274; route.c:473): there are no calls. -/
def fabricate (a : Fabricator) (s : Sig) : Except Int Sig := do
  let a ← inferredFabricator a s
  return a.sig

/-- The check at the start of `base_searching_task` (zones.c:79): internal error 1765. -/
def searchError (s : Sig) : Option Int := if s.vOrder.equal.isNone then some (-1765) else none

/-- The errors about the hash function in `fused_edges` for a class having an edge: in recording it for the pruner (merge.c:321: internal error 1168),
and in looking for repetitions of labels in its bundle (edges.c:305 by way of merge.c:330: internal error 876); or in the replacement function if it is
called (repl.c:31-38: internal error 1436), as it is for the pruner, or if there are at least two edges in a bundle (edges.c:305).  Only
the first is given. -/
def mergeError (c : Merger) (s : Sig) (bundled : Bool) : Option Int :=
  if c.pruner.isSome then
    if s.eOrder.hash.isNone then some (-1168) else if s.eOrder.hash = some .undefinedHash then some (-1436) else none
  else if emptyFold c.kernel.eOp then
    if s.eOrder.hash.isNone then some (-876)
    else if bundled && s.eOrder.hash = some .undefinedHash then some (-1436) else none
  else none

end Cru.Infer
