import Verif.Model.Infer

/-!
# When a specification is rejected

Decision tables: the first line whose condition holds gives the error code; none if no condition holds.  The conditions only
look at which fields the user has left NULL and at which destructors differ.
-/

namespace Cru.Infer

/-- The code of the first line that applies. -/
def verdict : List (Bool × Int) → Option Int
  | [] => none
  | (c, e) :: l => if c then some e else verdict l

/-- The error an inference ends with, if any. -/
def errorOf {α : Type} : Except Int α → Option Int
  | .ok _ => none
  | .error e => some e

/-- The function is NULL or one of the user's. -/
def FromUser (x : Field) : Prop := x = none ∨ ∃ n, x = some (.user n)

/-- All fields come from the user. -/
structure Fold.FromUser (f : Fold) : Prop where
  map : Infer.FromUser f.map
  bmap : Infer.FromUser f.bmap
  reduction : Infer.FromUser f.reduction
  vacuousCase : Infer.FromUser f.vacuousCase
  rFree : Infer.FromUser f.rFree
  mFree : Infer.FromUser f.mFree

/-- All fields come from the user. -/
structure Prp.FromUser (p : Prp) : Prop where
  vertex : p.vertex.FromUser
  incident : p.incident.FromUser
  outgoing : p.outgoing.FromUser

/-- All fields come from the user. -/
structure Order.FromUser (o : Order) : Prop where
  hash : Infer.FromUser o.hash
  equal : Infer.FromUser o.equal

/-- All fields are NULL. -/
def Order.blank (o : Order) : Bool := o.hash.isNone && o.equal.isNone

/-- All fields are NULL. -/
def Fold.blank (f : Fold) : Bool :=
  f.map.isNone && f.bmap.isNone && f.reduction.isNone && f.vacuousCase.isNone && f.rFree.isNone && f.mFree.isNone

/-- All fields are NULL. -/
def Prp.blank (p : Prp) : Bool := p.vertex.blank && p.incident.blank && p.outgoing.blank

/-- All fields are NULL. -/
def Classifier.blank (c : Classifier) : Bool := c.prop.blank && c.order.blank

/-- At least one of the results of the fold is not a scalar. -/
def Fold.destructed (f : Fold) : Bool := f.mFree.isSome || f.rFree.isSome

/-- The results of map and reduction have different types, and no vacuous case mediates between them. -/
def Fold.incompatible (f : Fold) : Bool := f.vacuousCase.isNone && f.mFree != f.rFree

/-- A fold of which map and reduction are needed. -/
def foldTable (f : Fold) : List (Bool × Int) :=
  [(f.map.isSome && f.bmap.isSome, -820),
   (f.destructed && f.map.isNone && f.bmap.isNone, UNDMAP),
   (f.destructed && f.reduction.isNone, UNDRED),
   (f.incompatible, TPCMPR)]

/-- A fold of which only the map is needed. -/
def mapTable (f : Fold) : List (Bool × Int) :=
  [(f.map.isSome && f.bmap.isSome, -820),
   (f.destructed && f.map.isNone && f.bmap.isNone, UNDMAP),
   (f.reduction.isSome && f.incompatible, TPCMPR)]

/-- A property of which the vertex reduction is needed. -/
def propTable (p : Prp) : List (Bool × Int) := foldTable p.incident ++ foldTable p.outgoing ++ foldTable p.vertex

/-- An order of objects with the given destructor: functions are needed unless the objects are scalars.  The library's
placeholders are as good as nothing. -/
def orderTable (o : Order) (free : Field) : List (Bool × Int) :=
  [(o.hash == some .undefinedHash || (o.hash.isNone && free.isSome), UNDHSH),
   (o.equal == some .undefinedBpred || (o.equal.isNone && free.isSome), UNDEQU)]

/-- An order without any defaults. -/
def strictTable (o : Order) : List (Bool × Int) :=
  [(o.hash == some .undefinedHash || o.hash.isNone, UNDHSH), (o.equal == some .undefinedBpred || o.equal.isNone, UNDEQU)]

/-- A signature of a graph to be modified. -/
def sigTable (s : Sig) : List (Bool × Int) :=
  [(s.eFree.isSome && (s.eOrder.hash == some .undefinedHash || s.eOrder.hash.isNone), UNDHSH),
   (s.eFree.isSome && (s.eOrder.equal == some .undefinedBpred || s.eOrder.equal.isNone), UNDEQU),
   (s.vFree.isSome && (s.vOrder.hash == some .undefinedHash || s.vOrder.hash.isNone), UNDHSH),
   (s.vFree.isSome && (s.vOrder.equal == some .undefinedBpred || s.vOrder.equal.isNone), UNDEQU)]

/-- A property of which the vertex reduction is not needed; the vertex is checked first. -/
def mapPropTable (p : Prp) : List (Bool × Int) := mapTable p.vertex ++ foldTable p.incident ++ foldTable p.outgoing

/-- cru_builder. -/
def builderTable (b : Builder) (reflexive : Bool) : List (Bool × Int) :=
  [(b.connector.isNone && b.subconnector.isNone, UNDCON), (b.connector.isSome && b.subconnector.isSome, INCCON)] ++
    orderTable b.sig.vOrder b.sig.vFree ++ orderTable b.sig.eOrder b.sig.eFree ++ [(!reflexive, INCVEL)]

/-- cru_crosser. -/
def crosserTable (c : Crosser) : List (Bool × Int) :=
  [(c.vProd.isNone, UNDVPR), (c.bop.isNone, UNDEPR)] ++ orderTable c.sig.vOrder c.sig.vFree

/-- cru_mapreducer. -/
def mapreducerTable (p : Prp) : List (Bool × Int) := propTable p ++ [(p.vertex.mFree != p.vertex.rFree, TPCMPR)]

/-- cru_inducer.  A missing map is not reported here but when it is needed, and a bmap is never accepted. -/
def inducerTable (i : Inducer) : List (Bool × Int) :=
  [(i.boundaryValue.isNone && i.fold.vacuousCase.isNone, UNDVAC),
   (i.fold.bmap.isSome, -820),
   (i.fold.map.isSome && i.fold.destructed && i.fold.reduction.isNone, UNDRED),
   ((i.fold.map.isSome || i.fold.reduction.isSome) && i.fold.incompatible, TPCMPR)]

/-- cru_composer, given the signature of the graph. -/
def composerTable (c : Composer) (s : Sig) : List (Bool × Int) :=
  strictTable s.eOrder ++ [(s.eFree.isSome && c.qop.isNone, UNDCQO)] ++ mapPropTable c.adjacent ++ mapPropTable c.loc

/-- cru_stretcher, given the signature of the graph. -/
def stretcherTable (x : Stretcher) (s : Sig) : List (Bool × Int) :=
  sigTable s ++ mapPropTable x.prop ++ [(x.expander.isNone, UNDEXP)]

/-- cru_splitter, given the signature of the graph. -/
def splitterTable (x : Splitter) (s : Sig) : List (Bool × Int) :=
  sigTable s ++ mapPropTable x.prop ++
  [(s.vFree.isSome && x.ana.isNone, UNDANA), (s.vFree.isSome && x.cata.isNone, UNDCAT),
   (s.eFree.isSome && (x.inAna.top.isNone || x.inCata.top.isNone || x.outAna.top.isNone || x.outCata.top.isNone), UNDCTO)]

/-- cru_classifier: properties are compared by the order, so functions are needed unless properties are scalars. -/
def classifierTable (c : Classifier) : List (Bool × Int) :=
  foldTable c.prop.incident ++ foldTable c.prop.outgoing ++ mapTable c.prop.vertex ++ orderTable c.order c.prop.vertex.mFree

/-- Lines that matter only if a condition holds. -/
def provided (b : Bool) (l : List (Bool × Int)) : List (Bool × Int) := l.map fun x => (b && x.1, x.2)

/-- One function of an order, completed by another. -/
def orElse (x y : Field) : Field := match x with | some f => some f | none => y

/-- cru_merger, given the signature of the graph. -/
def mergerTable (c : Merger) (s : Sig) : List (Bool × Int) :=
  [(c.kernel.vOp.blank != c.classifier.blank, INCMRG)] ++ propTable c.kernel.vOp ++ foldTable c.kernel.eOp ++
  provided c.pruner.isSome
    (if c.kernel.eOp.blank then
      strictTable ⟨orElse c.eOrder.hash s.eOrder.hash, orElse c.eOrder.equal s.eOrder.equal⟩
    else strictTable c.eOrder) ++
  provided (!c.classifier.blank) (classifierTable c.classifier)

/-- An implicit merger for deduplication. -/
def deduplicatorTable (s : Sig) : List (Bool × Int) := strictTable s.eOrder ++ strictTable s.vOrder

/-- cru_mutator.  With neither direction given, vertices and edges can not be both mutated, and the vertices can not depend
on vertices adjacent to them. -/
def mutatorTable (m : Mutator) : List (Bool × Int) :=
  let v := m.kernel.vOp
  let seesNeighbours (f : Fold) := !f.blank && (f.map.isSome || f.bmap.isNone)
  [(m.localFirst && m.remoteFirst, INCMUT),
   (!v.blank && !m.localFirst && !m.remoteFirst &&
      (!m.kernel.eOp.blank || seesNeighbours v.incident || seesNeighbours v.outgoing), INCMUT)] ++
  mapPropTable v ++ mapTable m.kernel.eOp ++
  [(!v.incident.blank && v.incident.vacuousCase.isNone, UNDVAC),
   (!v.outgoing.blank && v.outgoing.vacuousCase.isNone, UNDVAC)]

/-- cru_filter, given the signature of the graph.  The vertex map is never required, and a vertex bmap is never accepted. -/
def filterTable (f : Filter) (s : Sig) : List (Bool × Int) :=
  let v := f.kernel.vOp
  foldTable v.incident ++ foldTable v.outgoing ++
  [(v.vertex.bmap.isSome, -820), (v.vertex.reduction.isSome && v.vertex.incompatible, TPCMPR)] ++
  provided (!f.order.blank)
    (orderTable ⟨orElse f.order.hash s.eOrder.hash, orElse f.order.equal s.eOrder.equal⟩ s.eFree ++
      [(f.kernel.eOp.blank && f.thinner.isNone, INCFIL)]) ++
  foldTable f.kernel.eOp

/-- cru_postponer, given the signature of the graph. -/
def postponerTable (p : Postponer) (s : Sig) : List (Bool × Int) :=
  orderTable s.eOrder s.eFree ++ [(p.postponable.isNone, UNDPOP), (s.eFree.isSome && p.bop.isNone, UNDCBO)]

/-- cru_fabricator. -/
def fabricatorTable (a : Fabricator) : List (Bool × Int) :=
  [(a.eFab.isNone && a.sig.eFree.isSome, UNDEFB), (a.vFab.isNone && a.sig.vFree.isSome, UNDVFB)]

/-- What becomes of one function of an order: kept if given, the scalar default if it is not given and nor is a destructor. -/
def Defaulted (given free dflt result : Field) : Prop :=
  (given ≠ none → result = given) ∧ (given = none → free = none ∧ result = dflt)

/-- What becomes of an order. -/
def OrderRule (o : Order) (free : Field) (o' : Order) : Prop :=
  Defaulted o.hash free (some .scalarHash) o'.hash ∧ Defaulted o.equal free (some .equalityBpred) o'.equal

/-- A given function is not replaced. -/
def Kept (x x' : Field) : Prop := x ≠ none → x' = x

/-- Given functions of a fold are not replaced. -/
structure Fold.Kept (f f' : Fold) : Prop where
  map : Infer.Kept f.map f'.map
  bmap : Infer.Kept f.bmap f'.bmap
  reduction : Infer.Kept f.reduction f'.reduction
  vacuousCase : Infer.Kept f.vacuousCase f'.vacuousCase
  mFree : f'.mFree = f.mFree
  rFree : f.reduction ≠ none → f'.rFree = f.rFree

/-- The first function in a list of candidates that is not NULL. -/
def firstGiven : List Field → Field
  | [] => none
  | some f :: _ => some f
  | none :: l => firstGiven l

/-- A candidate that counts only on a condition. -/
def candidate (c : Bool) (x : Field) : Field := if c then x else none

end Cru.Infer
