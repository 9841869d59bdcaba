import Verif.Model.Pool

/-!
# Mutation, one access of memory at a time (mutate.c:245-559, edges.c:484-538, nodes.c:379-414)

What the workers do to the vertices, the labels and the marks of nodes after the traversal that finds where mutation can start, in terms
of the machine in `Model/Pool.lean`.  The exchange of packets isn't modelled here; nodes arrive at their workers in any order and as often
as you like.

Left out: errors and kill requests, destructors (which are given what has just been loaded), the links between nodes and edges, which no
one changes meanwhile, nodes marked `UNREACHABLE`, and the search in `reflect` for the other end of an edge (mutate.c:314-325; see
`Model/Mutate`).
-/

namespace Cru.Pool

/-- Places in memory: the vertex and the field `marked` of a node, and the label of an edge in the list of its origin and in that of its
terminus, where the origin is the one that's mutated first. -/
inductive Loc (N E : Type) where
  | vertex (n : N)
  | near (e : E)
  | far (e : E)
  | marked (n : N)
  deriving DecidableEq

/-- A graph in full duplex form with edges directed according to propagation: `DEPENDANTS` (mutate.c:53) and the edges in the other list
of each node, which are `PREREQUISITES` (mutate.c:50) unless the order is unspecified. -/
structure Shape (N E : Type) where
  src : E → N
  dst : E → N
  pre : N → List E
  dep : N → List E

/-- What the fold over the edges on one side of the vertex operator depends on: nothing if it's empty, labels if it has a `bmap`, labels and
remote vertices if it has a `map`. -/
inductive Sight where
  | nothing
  | labels
  | all
  deriving DecidableEq

/-- A function given to the library, which goes on with what it returns. -/
abbrev Act (A X L : Type) := (X → Code A X L) → Code A X L

/-- `struct cru_kernel_s` with the sights of its vertex operator on the sides of prerequisites and dependants, and whether a priority is
requested.  Operators that are empty are `none`. -/
structure Kernel (A X L : Type) where
  ordered : Bool
  before : Sight
  after : Sight
  vop : Option (X → List (X × X) → List (X × X) → Act A X L)
  eop : Option (X → X → X → Act A X L)

variable {N E X L : Type} [DecidableEq N] [DecidableEq E] [Zero X] [One X] [DecidableEq X]

/-- The accesses of `reduced_edges` (edges.c:521, 528) without locks, where `lab` has the labels and `rem` the remote nodes. -/
def look (s : Sight) (lab : E → Loc N E) (rem : E → N) : List E → (List (X × X) → Code (Loc N E) X L) → Code (Loc N E) X L
  | [], k => k []
  | e :: es, k =>
    match s with
    | .nothing => k []
    | .labels => .load (lab e) fun x => look s lab rem es fun r => k ((x, 0) :: r)
    | .all => .load (lab e) fun x => .load (.vertex (rem e)) fun w => look s lab rem es fun r => k ((x, w) :: r)

variable (idx : Loc N E → L) (G : Shape N E) (K : Kernel (Loc N E) X L)

/-- The loop in `permeate` (mutate.c:266-280). -/
def permeate (f : X → X → X → Act (Loc N E) X L) (v : X) : List E → Code (Loc N E) X L → Code (Loc N E) X L
  | [], k => k
  | e :: es, k =>
    .load (.near e) fun x => .load (.vertex (G.dst e)) fun w => f v x w fun y => .store (.near e) y (permeate f v es k)

/-- The loop in `reflect` (mutate.c:310-330). -/
def reflect : List E → Code (Loc N E) X L → Code (Loc N E) X L
  | [], k => k
  | e :: es, k => .load (.near e) fun x => .store (.far e) x (reflect es k)

/-- The critical section in `mutate` (mutate.c:393-410), where `v` is the mutated vertex, `none` if no vertex mutation is defined. -/
def inside (n : N) (v : Option X) (k : Code (Loc N E) X L) : Code (Loc N E) X L :=
  lockForWriting idx (.marked n) <|
    let rest : Code (Loc N E) X L :=
      match v with
      | none => unlockForReading idx (.marked n) 1 k
      | some y => .store (.vertex n) y (unlockForReading idx (.marked n) 1 k)
    match K.eop with
    | none => rest
    | some f =>
      match v with
      | none => .load (.vertex n) fun y => permeate G f y (G.dep n) (reflect (G.dep n) rest)
      | some y => permeate G f y (G.dep n) (reflect (G.dep n) rest)

/-- `mutate` (mutate.c:373-415) with `_cru_mapped_node` (nodes.c:401-406, 421-430). -/
def mutate (n : N) (k : Code (Loc N E) X L) : Code (Loc N E) X L :=
  match K.vop with
  | none => inside idx G K n none k
  | some f =>
    .load (.vertex n) fun v =>
      look K.before .far G.src (G.pre n) fun i =>
        look K.after .near G.dst (G.dep n) fun o => f v i o fun y => inside idx G K n (some y) k

/-- `all_quiescent` (mutate.c:473-497). -/
def quiescent : List E → (Bool → Code (Loc N E) X L) → Code (Loc N E) X L
  | [], k => k true
  | e :: es, k => read idx (.marked (G.src e)) fun t => if t = 0 then k false else quiescent es k

/-- The loop in `start` (mutate.c:450-459). -/
def startAll : List N → Code (Loc N E) X L → Code (Loc N E) X L
  | [], k => k
  | n :: ns, k => mutate idx G K n (startAll ns k)

/-- The loop in `mutating_task` (mutate.c:531-555) for the nodes that arrive. -/
def arrivals : List N → Code (Loc N E) X L
  | [] => .done
  | n :: ns =>
    .load (.marked n) fun t =>
      if t = 0 then quiescent idx G (if K.ordered then G.pre n else []) fun b => if b then mutate idx G K n (arrivals ns) else arrivals ns
      else arrivals ns

/-- `mutating_task` (mutate.c:505-559), where `ss` is the list `survivors` of the port at first. -/
def worker (ss ns : List N) : Code (Loc N E) X L := startAll idx G K ss (arrivals idx G K ns)

/-- Whether a node is in the list `survivors` of its port to begin with (mutate.c:146, 199-204, 225). -/
def early (n : N) : Bool :=
  let both := K.vop.isSome && K.eop.isSome
  let i := !both && (K.vop.isNone || K.before = .nothing)
  let o := !both && (K.vop.isNone || K.after = .nothing)
  (if K.ordered then (G.pre n).isEmpty else true) || ((i || (G.pre n).isEmpty) && (o || (G.dep n).isEmpty))

end Cru.Pool
