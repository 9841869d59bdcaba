import Verif.Model.Orders

/-!
# Calls of the functions in a specification (edges.c, nodes.c and the tasks)

A completed specification has functions in it that tasks call while they visit a graph.  This file has the calls made for one vertex, one edge or one
set of edges: in which order fields are called, and which errors are raised by the library instead.  A call ends the sequence if the function raises an error,
because `APPLIED`, `CALLED` and `PASSED` do nothing after one (errs.h).  Simplifications: hash functions and equality predicates are left out, because they are
in `Model/Orders.lean`; destructors are left out, because they are looked at for NULL before they are called, by `APPLY` at the latest; errors of memory,
and internal errors about other things than the fields of the specification, are left out; values are left out.
-/

namespace Cru.Infer

/-- Something done with a field of a specification: it's called, or there's an error instead. -/
inductive Step
  | call (f : Field)
  | raise (e : Int)
  deriving DecidableEq

/-- `m->bmap ? m->bmap : m->map` (edges.c:521, nodes.c:406, filters.c:275, mutate.c:257). -/
def Fold.first (m : Fold) : Field := if m.bmap.isSome then m.bmap else m.map

/-- `m->map ? m->map : m->bmap` (edges.c:528). -/
def Fold.next (m : Fold) : Field := if m.map.isSome then m.map else m.bmap

/-- A call of the vacuous case, if any (edges.c:512, nodes.c:477, entry.c:579, 628). -/
def vacuousSteps (m : Fold) : List Step := if m.vacuousCase.isNone then [.raise UNDVAC] else [.call m.vacuousCase]

/-- The loop in `reduced_edges` over `k` more edges (edges.c:524-534). -/
def restSteps (m : Fold) (k : Nat) : List Step :=
  if k = 0 then [] else if m.reduction.isNone then [.raise (-891)] else (List.replicate k [.call m.next, .call m.reduction]).flatten

/-- `reduced_edges` for a list of `k` edges (edges.c:509-534). -/
def edgesSteps (m : Fold) (k : Nat) : List Step :=
  if k = 0 then vacuousSteps m
  else if m.map.isNone && m.bmap.isNone then [.raise (-889)]
  else if m.vacuousCase.isSome then .call m.vacuousCase :: restSteps m k
  else if m.mFree ≠ m.rFree then [.raise (-890)]
  else .call m.first :: restSteps m (k - 1)

/-- `mapped_node` for a vertex with numbers of incoming and outgoing edges (nodes.c:399-406). -/
def nodeSteps (p : Prp) (d : Nat × Nat) : List Step :=
  if p.vertex.map.isNone && p.vertex.bmap.isNone then [.raise (-1278)]
  else
    (if emptyFold p.incident then [] else edgesSteps p.incident d.1) ++ (if emptyFold p.outgoing then [] else edgesSteps p.outgoing d.2) ++
      [.call p.vertex.first]

/-- `_cru_reduced_nodes` for a list of vertices, each given by the numbers of its edges (nodes.c:476-492). -/
def nodesSteps (p : Prp) : List (Nat × Nat) → List Step
  | [] => vacuousSteps p.vertex
  | d :: ds =>
    if p.vertex.vacuousCase.isSome then .call p.vertex.vacuousCase :: more (d :: ds)
    else if p.vertex.mFree ≠ p.vertex.rFree then [.raise (-1280)]
    else nodeSteps p d ++ more ds
where
  /-- The loop (nodes.c:487-492). -/
  more (ds : List (Nat × Nat)) : List Step :=
    if ds = [] then [] else if p.vertex.reduction.isNone then [.raise (-1281)] else ds.flatMap fun d => nodeSteps p d ++ [.call p.vertex.reduction]

/-- A visit by `_cru_mapreducing_task`, with a previous result if it isn't the first one (mapreduce.c:62-75); the results of workers are reduced
by the same function (maybe.c:183). -/
def mapreduceSteps (p : Prp) (d : Nat × Nat) : List Step :=
  if p.vertex.reduction.isNone then [.raise (-1122)]
  else if p.vertex.mFree ≠ p.vertex.rFree then [.raise (-1123)]
  else nodeSteps p d ++ [.call p.vertex.reduction]

/-- A visit by `_cru_inducing_task` to a vertex with `k` edges (induce.c:69-72). -/
def induceSteps (i : Inducer) (k : Nat) : List Step := if k = 0 ∧ i.boundaryValue.isSome then [.call i.boundaryValue] else edgesSteps i.fold k

/-- `is_deletable` (filters.c:150-152). -/
def deletableSteps (p : Prp) (d : Nat × Nat) : List Step := if emptyProp p then [] else nodeSteps p d

/-- One edge in `individually_filtered` (filters.c:282-285) or `permeate` (mutate.c:264-270). -/
def edgeSteps (m : Fold) (code : Int) : List Step := if m.map.isNone && m.bmap.isNone then [.raise code] else [.call m.first]

/-- `filtered` for a bucket of `k` edges out of those from a vertex: one by one if the test has no vacuous case and there is no order (filters.c:415-422, 327, 365).
A bucket has only one edge if there's no order (filters.c:420). -/
def bucketSteps (f : Filter) (k : Nat) : List Step :=
  if emptyFold f.kernel.eOp && f.thinner.isNone then []
  else if emptyOrder f.order && !(Field.given f.kernel.eOp.vacuousCase .undefinedNop) then edgeSteps f.kernel.eOp (-952)
  else edgesSteps f.kernel.eOp k

/-- A function that's called only if it isn't NULL (filters.c:289, 422, 362; merge.c:272, 277; build.c:183-186; spread.c:322-333). -/
def optional (f : Field) : List Step := if f.isSome then [.call f] else []

/-- `mutate` for a vertex (mutate.c:391-392). -/
def mutateSteps (k : Kernel) (d : Nat × Nat) : List Step := if emptyProp k.vOp then [] else nodeSteps k.vOp d

/-- `mutate` for an edge (mutate.c:394-410). -/
def mutateEdgeSteps (k : Kernel) : List Step := if emptyFold k.eOp then [] else edgeSteps k.eOp (-1210)

/-- `merge_vertices` for a class (merge.c:99-101). -/
def classSteps (c : Merger) (ds : List (Nat × Nat)) : List Step :=
  if c.kernel.vOp.vertex.map ≠ some .undefinedTop then nodesSteps c.kernel.vOp ds
  else if 1 < ds.length then [.raise (-1144)] else []

/-- `fused_edges` for a bucket of edges (merge.c:329-331, brig.c:375). -/
def fuseSteps (c : Merger) (k : Nat) : List Step := if emptyFold c.kernel.eOp then [] else edgesSteps c.kernel.eOp k

/-- The connector or the subconnector (build.c:125-133, 177-193; spread.c:316-333). -/
def connectSteps (b : Builder) : List Step :=
  if b.connector.isNone = b.subconnector.isNone then [.raise (-589)] else if b.connector.isSome then [.call b.connector] else [.call b.subconnector]

/-- The sequences in the tasks of an operation on a graph, if its specification is accepted.  They are possible ones; a graph need not have vertices with any
numbers of edges.  `cru_deduplicated` has no functions of the
user except those of the orders (infer.c:593-595). -/
def Request.Does (r : Request) (s : Sig) (l : List Step) : Prop :=
  match r with
  | .mapreduced p _ => ∃ p', inferredMapreducer p = .ok p' ∧
      (l = vacuousSteps p'.vertex ∨ (∃ ds, ds ≠ [] ∧ l = nodesSteps p' ds) ∨ ∃ d, l = mapreduceSteps p' d)
  | .induced i _ => ∃ i', inferredInducer i = .ok i' ∧ (l = vacuousSteps i'.fold ∨ ∃ k, l = induceSteps i' k)
  | .filtered f _ => ∃ f', inferredFilter f s = .ok f' ∧
      ((∃ d, l = deletableSteps f'.kernel.vOp d) ∨ (∃ k, l = bucketSteps f' (k + 1)) ∨ l = optional f'.thinner)
  | .mutated m _ => ∃ m' s', inferredMutator m s = .ok (m', s') ∧ ((∃ d, l = mutateSteps m'.kernel d) ∨ l = mutateEdgeSteps m'.kernel)
  | .composed c => ∃ c', inferredComposer c s = .ok c' ∧
      ((∃ d, l = nodeSteps c'.loc d) ∨ (∃ d, l = nodeSteps c'.adjacent d) ∨ l = [.call c'.qpred, .call c'.qop])
  | .stretched x => ∃ x' s', inferredStretcher x s = .ok (x', s') ∧ ((∃ d, l = nodeSteps x'.prop d) ∨ l = [.call x'.expander])
  | .split x => ∃ x' s', inferredSplitter x s = .ok (x', s') ∧
      ((∃ d, l = nodeSteps x'.prop d) ∨ l = [.call x'.fissile, .call x'.cata, .call x'.ana] ∨
        ∃ c ∈ [x'.inAna, x'.inCata, x'.outAna, x'.outCata], l = [.call c.tpred, .call c.top])
  | .merged c => ∃ c' s', inferredMerger c s = .ok (c', s') ∧
      ((∃ d, l = nodeSteps c'.classifier.prop d) ∨
        (∃ ds, ds ≠ [] ∧ l = classSteps c' ds) ∨
        (∃ k, l = fuseSteps c' (k + 1)) ∨ l = optional c'.pruner)
  | .deduplicated => False
  | .postponed p => ∃ p' s', inferredPostponer p s = .ok (p', s') ∧ (l = [.call p'.postponable] ∨ l = [.call p'.bpred, .call p'.bop])
  | .spread b reflexive => ∃ b', inferredBuilder b reflexive = .ok b' ∧ l = connectSteps b'
  | .partitioned c => ∃ c', inferredClassifier c = .ok c' ∧ ∃ d, l = nodeSteps c'.prop d

/-- The same for an operation by which a graph is made (build.c:177-193; cross.c:194-198, 293). -/
def Origin.Does (o : Origin) (l : List Step) : Prop :=
  match o with
  | .built b reflexive => ∃ b', inferredBuilder b reflexive = .ok b' ∧ l = connectSteps b'
  | .crossed c => ∃ c', inferredCrosser c = .ok c' ∧ (l = [.call c'.vProd] ∨ l = [.call c'.bpred, .call c'.bop])

/-- The same for the fabrication of a graph (fab.c:76-80). -/
def fabricates (a : Fabricator) (s : Sig) (l : List Step) : Prop := ∃ a', inferredFabricator a s = .ok a' ∧ (l = [.call a'.vFab] ∨ l = [.call a'.eFab])

/-- The library's functions that do nothing but raise an error (repl.c:31-38, 73-82, 184-191, 227-238, 308-335). -/
def Fn.raises : Fn → Option Int
  | .undefinedHash => some (-1436)
  | .undefinedBpred => some (-1437)
  | .undefinedNop => some (-1438)
  | .undefinedBop => some (-1439)
  | .undefinedTop => some (-1440)
  | .undefinedMap => some UNDMAP
  | _ => none

/-- The steps taken, and the error, if any: a sequence goes on until the library or a function raises an error.  A function of the user called
at time `t` raises the error `errs t`, if that isn't zero.  Calling NULL is undefined; it's taken to do nothing here, and is shown not to happen. -/
def run (errs : Nat → Int) : Nat → List Step → List Step × Int
  | _, [] => ([], 0)
  | _, .raise e :: _ => ([.raise e], e)
  | t, .call f :: l =>
    let e := match f with
      | none => 0
      | some (.user _) => errs t
      | some f => f.raises.getD 0
    if e ≠ 0 then ([.call f], e) else (.call f :: (run errs (t + 1) l).1, (run errs (t + 1) l).2)

end Cru.Infer
