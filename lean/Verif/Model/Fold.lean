import Mathlib.Data.Multiset.AddSub

/-!
# Folding edges and vertices (edges.c:484-538, nodes.c:379-414, nodes.c:456-501, errs.h:40-58)

User callbacks are functions of their operands and of the time of the call, so a callback may behave differently or
fail at any call.  A callback returns a pointer, possibly null, and may raise an error at the same time.  Storage a
callback returns is an object with an identity, the time of its creation; `made` and `freed` log the creation and the
destruction of every object for which the fold has a destructor, each with the destructor it belongs to or was passed to.
Simplification: a callback always returns new storage (it never returns one of its operands); `NOMEM`, which simulates
failures when testing, is false.
-/

namespace Cru.Fold

/-- What a user function returns: a pointer (`none` is null) and the error code it assigns (0 if none). -/
structure Outcome (V : Type) where
  val : Option V
  ux : Int

/-- Storage returned by a user function: identity and content. -/
structure Obj (V : Type) where
  id : Nat
  val : V

/-- The error code `*err` and the history of callbacks.  `upset` isn't in the code: it's whether any user function or allocation has failed so
far, irrespective of what has become of its error code. -/
structure World where
  clock : Nat
  err : Int
  made : Multiset (Nat × Nat)
  freed : Multiset (Nat × Nat)
  upset : Bool := false

/-- `RAISE` (errs.h:36-40, without `WRAP`). -/
def World.raise (w : World) (e : Int) : World := { w with err := if w.err ≠ 0 then w.err else e }

variable {A V : Type}

/-- `APPLIED` and `CALLED` (errs.h:54-57): skip the function if there is an error already, otherwise call it, raise the
error it assigned, and return what it returned.  `d` is the destructor for its result. -/
def applied (f : Nat → Outcome V) (d : Option Nat) (w : World) : Option (Obj V) × World :=
  if w.err ≠ 0 then (none, w)
  else
    let r := f w.clock
    (r.val.map (Obj.mk w.clock),
      { w with
        clock := w.clock + 1
        made := match d, r.val with
          | some n, some _ => (w.clock, n) ::ₘ w.made
          | _, _ => w.made
        upset := w.upset || decide (r.ux ≠ 0) }.raise r.ux)

/-- `if (x ? d : NULL) APPLY(d, x)` (errs.h:58): the destructor is called even if there is an error.  `fails n t` is the
error assigned by destructor `n` when called at time `t`. -/
def destroy (fails : Nat → Nat → Int) (d : Option Nat) (x : Option (Obj V)) (w : World) : World :=
  match d, x with
  | some n, some o => { w with
      clock := w.clock + 1
      freed := (o.id, n) ::ₘ w.freed
      upset := w.upset || decide (fails n w.clock ≠ 0) }.raise (fails n w.clock)
  | _, _ => w

/-- `cru_fold` (data_types.h): map, bmap, vacuous case, reduction and the destructors of map results and of reduction
results.  `A` is an operand; for an edge, its label with its terminus. -/
structure CruFold (A V : Type) where
  vacuous : Option (Nat → Outcome V)
  map : Option (Nat → A → Outcome V)
  bmap : Option (Nat → A → Outcome V)
  reduction : Option (Nat → Option V → Option V → Outcome V)
  mFree : Option Nat
  rFree : Option Nat

/-- The loop of a fold (edges.c:525-534, nodes.c:488-497): `mapAct` computes the map result of an operand. -/
def foldLoop (fails : Nat → Nat → Int) (m : CruFold A V) (red : Nat → Option V → Option V → Outcome V)
    (mapAct : A → World → Option (Obj V) × World) :
    List A → Option (Obj V) → World → Option (Obj V) × World
  | [], r, w => (r, w)
  | e :: es, prev, w =>
    if w.err ≠ 0 then (prev, w)
    else
      let x := mapAct e w
      let r := if x.2.err ≠ 0 then (none, x.2)
        else applied (fun t => red t (x.1.map Obj.val) (prev.map Obj.val)) m.rFree x.2
      foldLoop fails m red mapAct es r.1 (destroy fails m.rFree prev (destroy fails m.mFree x.1 r.2))

/-- From the test for a reduction to the end (edges.c:524-537, nodes.c:487-500); `noRed` is the internal error raised
when the reduction is missing. -/
def foldTail (fails : Nat → Nat → Int) (m : CruFold A V) (mapAct : A → World → Option (Obj V) × World) (noRed : Int)
    (es : List A) (s : Option (Obj V) × World) : Option (Obj V) × World :=
  let l := match es, m.reduction with
    | [], _ => s
    | _ :: _, none => (s.1, s.2.raise noRed)
    | _ :: _, some red => foldLoop fails m red mapAct es s.1 s.2
  if l.2.err ≠ 0 then (none, destroy fails m.rFree l.1 l.2) else l

/-- The common shape of `reduced_edges` (edges.c:511-537) and `_cru_reduced_nodes` (nodes.c:476-500): `seedAct` computes
the first map result when there is no vacuous case.  -554 is `CRU_UNDVAC`. -/
def foldWith (fails : Nat → Nat → Int) (m : CruFold A V) (seedAct mapAct : A → World → Option (Obj V) × World)
    (badFree noRed : Int) (es : List A) (w : World) : Option (Obj V) × World :=
  match es, m.vacuous with
  | [], none => (none, w.raise (-554))
  | [], some z => applied z m.rFree w
  | e :: es, some z => foldTail fails m mapAct noRed (e :: es) (applied z m.rFree w)
  | e :: es, none =>
    if m.mFree ≠ m.rFree then (none, w.raise badFree)
    else foldTail fails m mapAct noRed es (seedAct e w)

/-- The map of the first edge of a fold without vacuous case: `bmap` if there is one (edges.c:521). -/
def CruFold.seed (m : CruFold A V) (e : A) (w : World) : Option (Obj V) × World :=
  match m.bmap, m.map with
  | some f, _ => applied (fun t => f t e) m.mFree w
  | none, some f => applied (fun t => f t e) m.mFree w
  | none, none => (none, w)

/-- The map of other edges: `map` if there is one (edges.c:528). -/
def CruFold.next (m : CruFold A V) (e : A) (w : World) : Option (Obj V) × World :=
  match m.map, m.bmap with
  | some f, _ => applied (fun t => f t e) m.mFree w
  | none, some f => applied (fun t => f t e) m.mFree w
  | none, none => (none, w)

/-- `reduced_edges` (edges.c:484-538).  Dangling edges, which a well-formed graph has not, are left out. -/
def reducedEdges (fails : Nat → Nat → Int) (m : CruFold A V) (es : List A) (w : World) : Option (Obj V) × World :=
  if es ≠ [] ∧ m.map.isNone ∧ m.bmap.isNone then (none, w.raise (-889))
  else foldWith fails m m.seed m.next (-890) (-891) es w

/-- A vertex with its incident and outgoing edges. -/
structure Vertex (A U : Type) where
  vertex : U
  edgesIn : List A
  edgesOut : List A

/-- `cru_prop` (data_types.h): folds over incident and outgoing edges, `none` if empty, and a fold over vertices whose
map takes the results of both (null if the fold is empty) and whose bmap takes the first only. -/
structure CruProp (A U V : Type) where
  incident : U → Option (CruFold A V)
  outgoing : U → Option (CruFold A V)
  vertex : CruFold (Option V × U × Option V) V

variable {U : Type}

/-- Fold the edges unless the fold is empty (nodes.c:402-405). -/
def reducedIf (fails : Nat → Nat → Int) (m : Option (CruFold A V)) (es : List A) (w : World) :
    Option (Obj V) × World :=
  match m with
  | none => (none, w)
  | some m => reducedEdges fails m es w

/-- The destructor of the result of a possibly empty fold. -/
def rFreeOf (m : Option (CruFold A V)) : Option Nat := m.bind CruFold.rFree

/-- `mapped_node` (nodes.c:379-414). -/
def mappedNode (fails : Nat → Nat → Int) (p : CruProp A U V) (n : Vertex A U) (w : World) :
    Option (Obj V) × World :=
  if p.vertex.map.isNone ∧ p.vertex.bmap.isNone then (none, w.raise (-1278))
  else if w.err ≠ 0 then (none, w)
  else
    let i := reducedIf fails (p.incident n.vertex) n.edgesIn w
    let o := reducedIf fails (p.outgoing n.vertex) n.edgesOut i.2
    let x := p.vertex.seed (i.1.map Obj.val, n.vertex, o.1.map Obj.val) o.2
    let w1 := destroy fails (rFreeOf (p.incident n.vertex)) i.1 x.2
    let w2 := destroy fails (rFreeOf (p.outgoing n.vertex)) o.1 w1
    if w2.err ≠ 0 then (none, destroy fails p.vertex.mFree x.1 w2) else (x.1, w2)

/-- `_cru_reduced_nodes` (nodes.c:456-501). -/
def reducedNodes (fails : Nat → Nat → Int) (p : CruProp A U V) (ns : List (Vertex A U)) (w : World) :
    Option (Obj V) × World :=
  foldWith fails ⟨p.vertex.vacuous, none, none, p.vertex.reduction, p.vertex.mFree, p.vertex.rFree⟩
    (mappedNode fails p) (mappedNode fails p) (-1280) (-1281) ns w

end Cru.Fold
