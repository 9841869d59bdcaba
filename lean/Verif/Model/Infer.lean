/-!
# Specifications and their defaults (defo.c, infer.c)

Specifications are records of function pointers.  `none` is NULL; `user n` is a function given by the user; the others are
the library's replacement functions (repl.c).  The functions in infer.c copy the specification, fill in replacements and
either return the copy or raise an error code; `Except.error` is the code raised.  Simplifications: the copy is never short of
memory, the error code is zero on entry, attributes, vertex limits and zones, which are copied unchanged, are left out.
-/

namespace Cru.Infer

/-- Function pointers (repl.c). -/
inductive Fn
  | user (n : Nat)
  | undefinedHash | scalarHash
  | undefinedBpred | equalityBpred | falseBpred | trueBpred
  | trueTpred | trueQpred
  | undefinedNop
  | identityUop
  | undefinedBop | identityBop | minimizingBop
  | undefinedTop | undefinedMap | disjoiningTop | identityTop | falseTop | trueTop
  | identityQop
  deriving DecidableEq

/-- A field: NULL or a function. -/
abbrev Field := Option Fn

/-- `ALLOW` (defo.h:29). -/
def allow (x : Field) (y : Field) : Field := x.or y

/-- `cru_order`. -/
structure Order where
  hash : Field
  equal : Field
  deriving DecidableEq

/-- `cru_fold`. -/
structure Fold where
  map : Field
  bmap : Field
  reduction : Field
  vacuousCase : Field
  rFree : Field
  mFree : Field
  deriving DecidableEq

/-- `cru_prop`. -/
structure Prp where
  vertex : Fold
  incident : Fold
  outgoing : Fold
  deriving DecidableEq

/-- `cru_sig` without the vertex limit. -/
structure Sig where
  vOrder : Order
  eOrder : Order
  vFree : Field
  eFree : Field
  deriving DecidableEq

/-- `cru_classifier`. -/
structure Classifier where
  prop : Prp
  order : Order
  deriving DecidableEq

/-- `cru_kernel`. -/
structure Kernel where
  vOp : Prp
  eOp : Fold
  deriving DecidableEq

/-! ## Error codes (error_codes.h) -/

def INCCON : Int := -520
def INCFIL : Int := -521
def INCMRG : Int := -523
def INCMUT : Int := -524
def INCVEL : Int := -527
def NULCSF : Int := -533
def TPCMPR : Int := -538
def UNDANA : Int := -540
def UNDCAT : Int := -541
def UNDCBO : Int := -542
def UNDCON : Int := -543
def UNDCQO : Int := -544
def UNDCTO : Int := -545
def UNDEFB : Int := -546
def UNDEPR : Int := -547
def UNDEQU : Int := -548
def UNDEXP : Int := -549
def UNDHSH : Int := -550
def UNDMAP : Int := -551
def UNDPOP : Int := -552
def UNDRED : Int := -553
def UNDVAC : Int := -554
def UNDVFB : Int := -555
def UNDVPR : Int := -556

/-! ## defo.c -/

/-- A field with something in it other than a given placeholder. -/
def Field.given (x : Field) (placeholder : Fn) : Bool := x.isSome && x != some placeholder

/-- `_cru_empty_order` (defo.c:28-41). -/
def emptyOrder (o : Order) : Bool := !(Field.given o.hash .undefinedHash) && !(Field.given o.equal .undefinedBpred)

/-- `_cru_full_order` (defo.c:47-62). -/
def fullOrder (o : Order) : Except Int Unit :=
  if !(Field.given o.hash .undefinedHash) then .error UNDHSH
  else if !(Field.given o.equal .undefinedBpred) then .error UNDEQU
  else .ok ()

/-- `_cru_empty_fold` (defo.c:69-86). -/
def emptyFold (m : Fold) : Bool :=
  !(Field.given m.map .undefinedTop && Field.given m.map .disjoiningTop) && !(Field.given m.bmap .undefinedBop) &&
    !(Field.given m.reduction .undefinedBop) && !(Field.given m.vacuousCase .undefinedNop) &&
    m.rFree.isNone && m.mFree.isNone

/-- `_cru_empty_prop` (defo.c:95-110). -/
def emptyProp (p : Prp) : Bool := emptyFold p.vertex && emptyFold p.incident && emptyFold p.outgoing

/-- `_cru_empty_classifier` (defo.c:115-122). -/
def emptyClassifier (c : Classifier) : Bool := emptyProp c.prop && emptyOrder c.order

/-- `_cru_allow_order` (defo.c:192-204). -/
def allowOrder (o n : Order) : Order := ⟨allow o.hash n.hash, allow o.equal n.equal⟩

/-- `_cru_allow_undefined_order` (defo.c:155-166). -/
def allowUndefinedOrder (o : Order) : Order := allowOrder o ⟨some .undefinedHash, some .undefinedBpred⟩

/-- `_cru_allow_scalar_order` (defo.c:174-185). -/
def allowScalarOrder (o : Order) : Order := allowOrder o ⟨some .scalarHash, some .equalityBpred⟩

/-- The first part of `_cru_filled_fold` (defo.c:236-244): the map. -/
def fillMap (m : Fold) : Except Int Fold :=
  if m.mFree.isNone && m.rFree.isNone then
    if m.bmap.isNone then .ok { m with map := allow m.map (some .identityTop) }
    else if m.map.isNone then .ok { m with bmap := allow m.bmap (some .identityBop) }
    else .ok m
  else if m.map.isNone && m.bmap.isNone then .error UNDMAP
  else .ok m

/-- The second part (defo.c:245-248): the reduction. -/
def fillReduction (m : Fold) : Except Int Fold :=
  if m.rFree.isNone && m.mFree.isNone then .ok { m with reduction := allow m.reduction (some .minimizingBop) }
  else if m.reduction.isNone then .error UNDRED
  else .ok m

/-- The third part (defo.c:249-257): the destructors. -/
def fillFrees (m : Fold) : Except Int Fold :=
  let m := if m.map = some .undefinedTop then { m with mFree := m.rFree } else m
  let m := if m.reduction = some .undefinedBop then { m with rFree := m.mFree } else m
  if Field.given m.vacuousCase .undefinedNop then .ok m
  else if m.mFree = m.rFree then .ok m
  else .error TPCMPR

/-- `_cru_filled_fold` (defo.c:217-258). -/
def filledFold (m : Fold) : Except Int Fold :=
  if m.map.isSome && m.bmap.isSome then .error (-820)
  else do
    let m ← fillMap m
    let m ← fillReduction m
    fillFrees m

/-- `_cru_filled_map` (defo.c:304-315). -/
def filledMap (f : Fold) : Except Int Fold := filledFold { f with reduction := allow f.reduction (some .undefinedBop) }

/-- `empty_fold (f) ? 0 : ! filled_fold (f)` (defo.c:335, 337). -/
def filledUnlessEmpty (f : Fold) : Except Int Fold := if emptyFold f then .ok f else filledFold f

/-- `_cru_filled_prop` (defo.c:323-340). -/
def filledProp (p : Prp) : Except Int Prp := do
  let i ← filledUnlessEmpty p.incident
  let o ← filledUnlessEmpty p.outgoing
  let v ← filledFold p.vertex
  .ok ⟨v, i, o⟩

/-- `_cru_filled_map` of the vertex fold followed by `_cru_filled_prop`, as at infer.c:197, 223, 252 and 476. -/
def filledMapProp (p : Prp) : Except Int Prp := do
  let v ← filledMap p.vertex
  filledProp { p with vertex := v }

/-- An order with the scalar default if there is no destructor, and required otherwise (defo.c:364-371). -/
def filledOrder (o : Order) (free : Field) : Except Int Order :=
  if free.isNone then .ok (allowScalarOrder o) else do
    fullOrder o
    .ok o

/-- `_cru_filled_sig` (defo.c:349-372): edges first. -/
def filledSig (s : Sig) : Except Int Sig := do
  let e ← filledOrder s.eOrder s.eFree
  let v ← filledOrder s.vOrder s.vFree
  .ok { s with eOrder := e, vOrder := v }

/-- `_cru_filled_classifier` (defo.c:379-397). -/
def filledClassifier (c : Classifier) : Except Int Classifier := do
  let p ← filledProp { c.prop with vertex := { c.prop.vertex with
    reduction := allow c.prop.vertex.reduction (some .undefinedBop) } }
  let o := if p.vertex.mFree.isNone then allowScalarOrder c.order else c.order
  fullOrder o
  .ok ⟨p, o⟩

/-- `cru_ctop`. -/
structure Ctop where
  tpred : Field
  top : Field
  deriving DecidableEq

/-- `filled_ctop` (defo.c:266-280). -/
def filledCtop (p : Ctop) : Except Int Ctop :=
  if p.top.isNone then .error UNDCTO else .ok { p with tpred := allow p.tpred (some .trueTpred) }

/-! ## infer.c -/

/-- `cru_builder` without the attribute and the vertex limit. -/
structure Builder where
  connector : Field
  subconnector : Field
  sig : Sig
  deriving DecidableEq

/-- `_cru_inferred_builder` (infer.c:33-70).  `reflexive` is the result of the equality predicate, given or inferred, on the base
vertex and itself; the predicate raises no error. -/
def inferredBuilder (b : Builder) (reflexive : Bool) : Except Int Builder := do
  if b.subconnector.isNone && b.connector.isNone then throw UNDCON
  if b.connector.isSome && b.subconnector.isSome then throw INCCON
  let v := if b.sig.vFree.isNone then allowScalarOrder b.sig.vOrder else b.sig.vOrder
  let e := if b.sig.eFree.isNone then allowScalarOrder b.sig.eOrder else b.sig.eOrder
  let e := if b.connector.isSome then { e with hash := allow e.hash (some .undefinedHash) } else e
  fullOrder v
  fullOrder e
  let e := allowUndefinedOrder e
  if !reflexive then throw INCVEL
  return { b with sig := { b.sig with vOrder := v, eOrder := e } }

/-- `cru_crosser`. -/
structure Crosser where
  vProd : Field
  sig : Sig
  bpred : Field
  bop : Field
  deriving DecidableEq

/-- `_cru_inferred_crosser` (infer.c:77-103). -/
def inferredCrosser (c : Crosser) : Except Int Crosser := do
  if c.vProd.isNone then throw UNDVPR
  if c.bop.isNone then throw UNDEPR
  let e := if c.sig.eFree.isNone then allowScalarOrder c.sig.eOrder else c.sig.eOrder
  let e := allowUndefinedOrder e
  let v := if c.sig.vFree.isNone then allowScalarOrder c.sig.vOrder else c.sig.vOrder
  fullOrder v
  return { c with bpred := allow c.bpred (some .trueBpred), sig := { c.sig with eOrder := e, vOrder := v } }

/-- `_cru_inferred_mapreducer` (infer.c:114-130). -/
def inferredMapreducer (p : Prp) : Except Int Prp := do
  let p ← filledProp p
  if p.vertex.mFree = p.vertex.rFree then return p else throw TPCMPR

/-- `cru_inducer` without the zone. -/
structure Inducer where
  boundaryValue : Field
  fold : Fold
  deriving DecidableEq

/-- `_cru_inferred_inducer` (infer.c:140-163). -/
def inferredInducer (i : Inducer) : Except Int Inducer := do
  if i.boundaryValue.isNone && i.fold.vacuousCase.isNone then throw UNDVAC
  let f := if i.fold.map.isNone then { i.fold with reduction := allow i.fold.reduction (some .undefinedBop) } else i.fold
  let f ← filledFold { f with map := allow f.map (some .undefinedMap) }
  return { i with fold := f }

/-- `cru_composer` without the flags. -/
structure Composer where
  qpred : Field
  qop : Field
  loc : Prp
  adjacent : Prp
  deriving DecidableEq

/-- `_cru_inferred_composer` (infer.c:173-201). -/
def inferredComposer (c : Composer) (s : Sig) : Except Int Composer := do
  fullOrder s.eOrder
  let qop := if s.eFree.isNone then allow c.qop (some .identityQop) else c.qop
  if qop.isNone then throw UNDCQO
  let a ← filledMapProp c.adjacent
  let l ← filledMapProp c.loc
  return ⟨allow c.qpred (some .trueQpred), qop, l, a⟩

/-- `cru_stretcher` without the flag. -/
structure Stretcher where
  expander : Field
  prop : Prp
  deriving DecidableEq

/-- `_cru_inferred_stretcher` (infer.c:210-229). -/
def inferredStretcher (x : Stretcher) (s : Sig) : Except Int (Stretcher × Sig) := do
  let s ← filledSig s
  let p ← filledMapProp x.prop
  if x.expander.isNone then throw UNDEXP
  return ({ x with prop := p }, s)

/-- `cru_splitter`. -/
structure Splitter where
  ana : Field
  cata : Field
  fissile : Field
  prop : Prp
  inAna : Ctop
  inCata : Ctop
  outAna : Ctop
  outCata : Ctop
  deriving DecidableEq

/-- Lines 261-267 of infer.c for one labeler. -/
def scalarCtop (eFree : Field) (c : Ctop) : Ctop :=
  if eFree.isNone then { c with top := allow c.top (some .identityTop) } else c

/-- `_cru_inferred_splitter` (infer.c:238-272). -/
def inferredSplitter (x : Splitter) (s : Sig) : Except Int (Splitter × Sig) := do
  let s ← filledSig s
  let p ← filledMapProp x.prop
  let ana := if s.vFree.isNone then allow x.ana (some .identityBop) else x.ana
  let cata := if s.vFree.isNone then allow x.cata (some .identityBop) else x.cata
  if ana.isNone then throw UNDANA
  if cata.isNone then throw UNDCAT
  let ia ← filledCtop (scalarCtop s.eFree x.inAna)
  let ic ← filledCtop (scalarCtop s.eFree x.inCata)
  let oa ← filledCtop (scalarCtop s.eFree x.outAna)
  let oc ← filledCtop (scalarCtop s.eFree x.outCata)
  return (⟨ana, cata, allow x.fissile (some .trueBpred), p, ia, ic, oa, oc⟩, s)

/-- `_cru_inferred_classifier` (infer.c:279-295). -/
def inferredClassifier (c : Option Classifier) : Except Int Classifier :=
  match c with
  | none => .error NULCSF
  | some c => filledClassifier c

/-- `cru_merger`. -/
structure Merger where
  classifier : Classifier
  vOrder : Order
  eOrder : Order
  kernel : Kernel
  pruner : Field
  deriving DecidableEq

/-- The vertex part of `inferred_merger` (infer.c:321-333). -/
def mergerVertices (c : Merger) (s : Sig) : Except Int (Merger × Sig) :=
  if emptyProp c.kernel.vOp then
    .ok ({ c with
      vOrder := allowOrder c.vOrder s.vOrder
      kernel := { c.kernel with vOp := { c.kernel.vOp with vertex := { c.kernel.vOp.vertex with
        map := allow c.kernel.vOp.vertex.map (some .undefinedTop)
        rFree := allow c.kernel.vOp.vertex.rFree s.vFree } } } }, s)
  else do
    let v ← filledProp c.kernel.vOp
    .ok ({ c with kernel := { c.kernel with vOp := v } }, { s with vFree := v.vertex.rFree, vOrder := c.vOrder })

/-- The edge part of `inferred_merger` (infer.c:334-346). -/
def mergerEdges (c : Merger) (s : Sig) : Except Int (Merger × Sig) := do
  let x ← (if emptyFold c.kernel.eOp then
      .ok ({ c with eOrder := allowOrder c.eOrder s.eOrder }, s)
    else do
      let e ← filledFold c.kernel.eOp
      .ok ({ c with kernel := { c.kernel with eOp := e } }, { s with eFree := e.rFree, eOrder := c.eOrder }) :
      Except Int (Merger × Sig))
  if x.1.pruner.isNone then
    return ({ x.1 with eOrder := allowUndefinedOrder x.1.eOrder }, x.2)
  else do
    fullOrder x.1.eOrder
    return x

/-- The classifier part of `inferred_merger` (infer.c:347-357). -/
def mergerClassifier (c : Merger) : Except Int Merger := do
  let k ← (if emptyClassifier c.classifier then do
      let p ← filledMapProp c.classifier.prop
      .ok ⟨p, allowOrder c.classifier.order ⟨some .scalarHash, some .falseBpred⟩⟩
    else .ok c.classifier : Except Int Classifier)
  let k ← filledClassifier k
  return { c with classifier := k }

/-- `inferred_merger` (infer.c:304-360). -/
def inferredMerger' (c : Merger) (s : Sig) : Except Int (Merger × Sig) := do
  let x ← mergerVertices c s
  let x ← mergerEdges x.1 x.2
  let c ← mergerClassifier x.1
  return (c, x.2)

/-- `_cru_inferred_merger` (infer.c:370-384). -/
def inferredMerger (c : Merger) (s : Sig) : Except Int (Merger × Sig) :=
  if emptyProp c.kernel.vOp ≠ emptyClassifier c.classifier then .error INCMRG else inferredMerger' c s

/-- A fold with all fields NULL. -/
def noFold : Fold := ⟨none, none, none, none, none, none⟩

/-- `_cru_deduplicator` (infer.c:579-599). -/
def deduplicator (s : Sig) : Except Int (Merger × Sig) := do
  fullOrder s.eOrder
  fullOrder s.vOrder
  inferredMerger'
    ⟨⟨⟨{ noFold with map := some .identityTop }, noFold, noFold⟩, s.vOrder⟩, s.vOrder, s.eOrder,
      ⟨⟨{ noFold with map := some .undefinedTop }, noFold, noFold⟩, noFold⟩, none⟩ s

/-- `inferred_sig` (infer.c:394-426). -/
def inferredSig (s : Sig) (vOrder eOrder : Order) (k : Kernel) : Sig :=
  let e := if emptyFold k.eOp || k.eOp.mFree = s.eFree then (allowOrder eOrder s.eOrder, s.eFree) else (eOrder, k.eOp.mFree)
  let v := if emptyProp k.vOp || k.vOp.vertex.mFree = s.vFree then (allowOrder vOrder s.vOrder, s.vFree)
    else (vOrder, k.vOp.vertex.mFree)
  ⟨v.1, if e.2.isNone then allowScalarOrder e.1 else e.1, v.2, e.2⟩

/-- `cru_mutator` without the zone. -/
structure Mutator where
  localFirst : Bool
  remoteFirst : Bool
  kernel : Kernel
  vOrder : Order
  eOrder : Order
  deriving DecidableEq

/-- A fold over edges that looks at more than their labels (infer.c:470-475). -/
def looksAround (f : Fold) : Bool := !(emptyFold f) && (f.map.isSome || f.bmap.isNone)

/-- The part of `_cru_inferred_mutator` from label `d` (infer.c:478-487). -/
def mutatorEdges (m : Mutator) : Except Int Mutator := do
  let e := { m.kernel.eOp with reduction := allow m.kernel.eOp.reduction (some .undefinedBop) }
  let e ← (if emptyFold e then .ok e else filledMap e : Except Int Fold)
  if !(emptyFold m.kernel.vOp.incident) && m.kernel.vOp.incident.vacuousCase.isNone then throw UNDVAC
  if !(emptyFold m.kernel.vOp.outgoing) && m.kernel.vOp.outgoing.vacuousCase.isNone then throw UNDVAC
  return { m with kernel := { m.kernel with eOp := e } }

/-- `_cru_inferred_mutator` (infer.c:434-491). -/
def inferredMutator (m : Mutator) (s : Sig) : Except Int (Mutator × Sig) := do
  let s := inferredSig s m.vOrder m.eOrder m.kernel
  if m.localFirst && m.remoteFirst then throw INCMUT
  if emptyProp m.kernel.vOp then
    let m ← mutatorEdges m
    return (m, s)
  if !m.remoteFirst && !m.localFirst &&
      (!(emptyFold m.kernel.eOp) || looksAround m.kernel.vOp.incident || looksAround m.kernel.vOp.outgoing) then
    throw INCMUT
  let v ← filledMapProp m.kernel.vOp
  let m ← mutatorEdges { m with kernel := { m.kernel with vOp := v } }
  return (m, s)

/-- `cru_filter` without the zone. -/
structure Filter where
  thinner : Field
  kernel : Kernel
  order : Order
  deriving DecidableEq

/-- The vertex part of `_cru_inferred_filter` (infer.c:541-546). -/
def filterVertices (thinner : Field) (p : Prp) : Except Int Prp :=
  let v := p.vertex
  let map := if thinner.isSome && emptyProp p then allow v.map (some .falseTop) else v.map
  let p := { p with vertex := { v with
    map := allow map (some .disjoiningTop)
    reduction := allow v.reduction (some .undefinedBop) } }
  if emptyProp p then .ok p else filledProp p

/-- The edge part of `_cru_inferred_filter` (infer.c:547-562). -/
def filterEdges (thinner : Field) (e : Fold) (order : Order) (s : Sig) : Except Int (Fold × Order) := do
  let e := if thinner.isSome && emptyFold e then { e with map := allow e.map (some .trueTop) } else e
  if emptyOrder order then
    let e ← filledUnlessEmpty e
    return (e, order)
  else
    let o := allowOrder order s.eOrder
    let o := if s.eFree.isNone then allowScalarOrder o else o
    fullOrder o
    if emptyFold e then throw INCFIL
    let e ← filledFold e
    let e ← filledUnlessEmpty e
    return (e, o)

/-- `_cru_inferred_filter` (infer.c:503-565). -/
def inferredFilter (f : Filter) (s : Sig) : Except Int Filter := do
  let v ← filterVertices f.thinner f.kernel.vOp
  let e ← filterEdges f.thinner f.kernel.eOp f.order s
  return { f with kernel := ⟨v, e.1⟩, order := e.2 }

/-- `cru_postponer` without the flag. -/
structure Postponer where
  postponable : Field
  bpred : Field
  bop : Field
  deriving DecidableEq

/-- `_cru_inferred_postponer` (infer.c:612-642). -/
def inferredPostponer (p : Postponer) (s : Sig) : Except Int (Postponer × Sig) := do
  let bop := if s.eFree.isNone then allow p.bop (some .identityBop) else p.bop
  let e := if s.eFree.isNone then allowScalarOrder s.eOrder else s.eOrder
  fullOrder e
  if p.postponable.isNone then throw UNDPOP
  if bop.isNone then throw UNDCBO
  return (⟨p.postponable, allow p.bpred (some .trueBpred), bop⟩, { s with eOrder := e })

/-- `cru_fabricator`. -/
structure Fabricator where
  vFab : Field
  eFab : Field
  sig : Sig
  deriving DecidableEq

/-- One half of `_cru_inferred_fabricator` (infer.c:672-680 and 681-689): the fabricating function, the destructor and the
order, completed by those of the original graph. -/
def fabricatorHalf (code : Int) (fab free : Field) (order : Order) (free' : Field) (order' : Order) :
    Except Int (Field × Field × Order) :=
  if fab.isSome then
    if free.isNone then .ok (fab, free', allowOrder order order') else .ok (fab, free, order)
  else if free.isNone then .ok (some .identityUop, free, order)
  else .error code

/-- `_cru_inferred_fabricator` (infer.c:652-693). -/
def inferredFabricator (a : Fabricator) (s : Sig) : Except Int Fabricator := do
  let e ← fabricatorHalf UNDEFB a.eFab a.sig.eFree a.sig.eOrder s.eFree s.eOrder
  let v ← fabricatorHalf UNDVFB a.vFab a.sig.vFree a.sig.vOrder s.vFree s.vOrder
  return ⟨v.1, e.1, ⟨v.2.2, e.2.2, v.2.1, e.2.1⟩⟩

end Cru.Infer
