import Verif.Model.Induce

/-!
# Mutation (mutate.c, zones.c:145-239, entry.c:955-982)

The traversal that finds where mutation can start, and the one that replaces vertices and edge labels.

Left out: lookup of the initial vertex (zones.c:108-132; the initial node is a parameter here), duplexing (see `Model/Duplex`; the
graph is full duplex here), the check of the destructors if a zone is given (mutate.c:75-121, 844-847; see `Model/Coverage`), allocation
failure, destructors, and what becomes of the graph after an error (mutate.c:606-758), when null is returned.
-/

namespace Cru.Mutate

open Net

abbrev Failure := Induce.Failure

/-- `struct cru_mutator_s` (data_types.h) after inference, without the zone and the destructors.  `vop` is the whole prop `v_op`,
`none` if it's empty: a function of the vertex and of the labels and remote vertices of its incoming and outgoing edges, as computed by
`_cru_mapped_node` (nodes.c:370-430; see `Model/Fold`).  `noIn` and `noOut` say that its fold over incident or outgoing edges
is empty, in which case it doesn't get to see them.  `eop` is the map of the fold `e_op`, `none` if that's empty. -/
structure Kernel (V L : Type) where
  vop : Option (V → List (L × V) → List (L × V) → Except Failure V)
  noIn : Bool
  noOut : Bool
  eop : Option (V → L → V → Except Failure L)

/-- `struct cru_plan_s` (data_types.h) without the initial vertex. -/
structure Plan where
  backwards : Bool
  localFirst : Bool
  remoteFirst : Bool
  deriving DecidableEq

/-- `UNORDERED` (mutate.c:44). -/
def Plan.unordered (p : Plan) : Bool := if p.remoteFirst then false else !p.localFirst

/-- `FORWARD_PROPAGATING` (mutate.c:47). -/
def Plan.forward (p : Plan) : Bool := (!p.backwards) == (!p.remoteFirst)

variable {n : Nat} {N V L : Type}

/-- `PREREQUISITES` (mutate.c:50) in terms of the edge lists of a node. -/
def Plan.prerequisites (p : Plan) (out inn : List (L × N)) : List (L × N) :=
  if p.unordered then [] else if p.forward then inn else out

/-- `DEPENDANTS` (mutate.c:53). -/
def Plan.dependants (p : Plan) (out inn : List (L × N)) : List (L × N) := if p.forward then out else inn

/-! ## Bounding -/

/-- The variables of the workers, the kill flag of the router, the lists `survivors` of the ports, the outgoing edges of nodes, and whether
they're marked `UNREACHABLE`.  The lists `deletions` have all the other nodes, and aren't modelled. -/
structure Bounds (n : Nat) (N L : Type) where
  seen : Fin n → List N
  stop : Fin n → Bool
  sample : Fin n → Nat
  killed : Nat
  survivors : Fin n → List N
  out : N → List (L × N)
  far : N → Bool

/-- `killed = (killed ? 1 : KILLED)` (mutate.c:208). -/
def Bounds.poll (s : Bounds n N L) (i : Fin n) : Bounds n N L :=
  if s.stop i then s
  else { s with sample := Function.update s.sample i (s.sample i + 1)
                stop := Function.update s.stop i ((s.sample i + 1) % 32 == 0 && s.killed != 0) }

/-- The flags `i` and `o` (mutate.c:199-204). -/
def Kernel.independent (k : Kernel V L) : Bool × Bool :=
  if k.eop.isSome && k.vop.isSome then (false, false) else (k.vop.isNone || k.noIn, k.vop.isNone || k.noOut)

/-- The condition for a node to be put in `survivors` (mutate.c:146, 225). -/
def begins (k : Kernel V L) (p : Plan) (out inn : List (L × N)) : Bool :=
  (p.prerequisites out inn).isEmpty || ((k.independent.1 || inn.isEmpty) && (k.independent.2 || out.isEmpty))

/-- `bound` (mutate.c:128-150). -/
def bound [DecidableEq N] (k : Kernel V L) (p : Plan) (inn : N → List (L × N)) (reach : Fin n → Option (List N)) (i : Fin n)
    (s : Bounds n N L) (m : N) : Bounds n N L :=
  match reach i with
  | some l =>
    if m ∈ l then
      if begins k p (s.out m) (inn m) then { s with survivors := Function.update s.survivors i (m :: s.survivors i) } else s
    else { s with far := Function.update s.far m true }
  | none => if begins k p (s.out m) (inn m) then { s with survivors := Function.update s.survivors i (m :: s.survivors i) } else s

/-- The body of the loop of `bounding_task` (mutate.c:205-229) without allocation failure.  When killed, it deletes the outgoing
edges of the node after sending their remote nodes other than the node itself (`_cru_unscatterable`, scatter.c:303-338). -/
def bounding [DecidableEq N] (k : Kernel V L) (p : Plan) (inn : N → List (L × N)) (reach : Fin n → Option (List N)) (i : Fin n)
    (s : Bounds n N L) (m : N) : Bounds n N L × List N × Bool :=
  let s := s.poll i
  if m ∈ s.seen i then (s, [], false)
  else
    let s := { s with seen := Function.update s.seen i (s.seen i ++ [m]) }
    if s.stop i then
      (bound k p inn reach i { s with out := Function.update s.out m [] } m, ((s.out m).map Prod.snd).filter (· ≠ m), false)
    else (bound k p inn reach i s m, (s.out m).map Prod.snd, false)

/-- `bounding_task` (mutate.c:157-233). -/
def boundingTask [DecidableEq N] (k : Kernel V L) (p : Plan) (inn : N → List (L × N)) (reach : Fin n → Option (List N))
    (hash : N → Nat) (hn : 0 < n) : Task n N (Bounds n N L) Unit where
  dest m := Build.lane hn (hash m)
  handle := bounding k p inn reach
  env _ s := { s with killed := 1 }

def Bounds.start (out : N → List (L × N)) : Bounds n N L :=
  ⟨fun _ => [], fun _ => false, fun _ => 0, 0, fun _ => [], out, fun _ => false⟩

/-! ## Mutating -/

/-- Values of the field `marked` of a node (mutate.c:58-64). -/
inductive Mark
  | clear | mutated | unreachable | blocked
  deriving DecidableEq

/-- The variables of the workers, the kill flag of the router, and the vertices, edges and marks of nodes.  `log` isn't in the
code: it lists the nodes mutated, the latest first. -/
structure Job (n : Nat) (N V L : Type) where
  started : Fin n → Bool
  err : Fin n → Int
  stop : Fin n → Bool
  sample : Fin n → Nat
  killed : Nat
  vertex : N → V
  out : N → List (L × N)
  inn : N → List (L × N)
  mark : N → Mark
  log : List N

/-- `killed = (killed ? killed : KILLED)` (mutate.c:534). -/
def Job.poll (s : Job n N V L) (i : Fin n) : Job n N V L :=
  if s.stop i then s
  else { s with sample := Function.update s.sample i (s.sample i + 1)
                stop := Function.update s.stop i ((s.sample i + 1) % 32 == 0 && s.killed != 0) }

/-- The loop of `permeate` (mutate.c:266-280) when not blocked: replace the labels of a list of edges. -/
def permeate (f : V → L → V → Except Failure L) (v : V) (vertex : N → V) : List (L × N) → Except Failure (List (L × N))
  | [] => .ok []
  | e :: es =>
    match f v e.1 (vertex e.2) with
    | .error x => .error x
    | .ok l =>
      match permeate f v vertex es with
      | .error x => .error x
      | .ok es => .ok ((l, e.2) :: es)

/-- The loop of `reflect` (mutate.c:310-330) as far as it concerns one of the remote nodes: labels `ls` of edges to it from `m`
go to its edges from `m` in the opposite list, the first one to the first one and so on.  Missing edges (`IER(1214)`) don't occur in
full duplex graphs; surplus labels are dropped here. -/
def relabel [DecidableEq N] (m : N) : List L → List (L × N) → List (L × N)
  | _, [] => []
  | [], fs => fs
  | l :: ls, f :: fs => if f.2 = m then (l, f.2) :: relabel m ls fs else f :: relabel m (l :: ls) fs

/-- The labels of edges to `t`, in the order of the list. -/
def labelsTo [DecidableEq N] (t : N) (es : List (L × N)) : List L := (es.filter (·.2 = t)).map Prod.fst

/-- The mutated vertex (mutate.c:391-392, 396). -/
def revised (k : Kernel V L) (s : Job n N V L) (m : N) : Except Failure V :=
  match k.vop with
  | none => .ok (s.vertex m)
  | some f =>
    f (s.vertex m) (if k.noIn then [] else (s.inn m).map fun e => (e.1, s.vertex e.2))
      (if k.noOut then [] else (s.out m).map fun e => (e.1, s.vertex e.2))

/-- `mutate` (mutate.c:373-415) when not blocked.  In case of an error, edge labels are left alone here although some may have been
cleared or replaced, because the graph gets disposed of. -/
def mutate [DecidableEq N] (k : Kernel V L) (p : Plan) (s : Job n N V L) (m : N) : Except Failure (Job n N V L) :=
  match revised k s m with
  | .error x => .error x
  | .ok v =>
    match k.eop with
    | none => .ok { s with vertex := Function.update s.vertex m v, mark := Function.update s.mark m .mutated, log := m :: s.log }
    | some f =>
      if p.forward then
        match permeate f v s.vertex (s.out m) with
        | .error x => .error x
        | .ok es =>
          .ok { s with vertex := Function.update s.vertex m v, mark := Function.update s.mark m .mutated, log := m :: s.log,
                       out := Function.update s.out m es, inn := fun t => relabel m (labelsTo t es) (s.inn t) }
      else
        match permeate f v s.vertex (s.inn m) with
        | .error x => .error x
        | .ok es =>
          .ok { s with vertex := Function.update s.vertex m v, mark := Function.update s.mark m .mutated, log := m :: s.log,
                       inn := Function.update s.inn m es, out := fun t => relabel m (labelsTo t es) (s.out t) }

/-- A ping or a node (`_cru_ping`, mutate.c:536). -/
inductive Packet (n : Nat) (N : Type)
  | ping (i : Fin n)
  | node (m : N)

/-- An error raised by worker `i` while mutating a node: the node is marked and the error kept (mutate.c:410).  Workers
don't mutate nodes when they have an error already. -/
def fail [DecidableEq N] (s : Job n N V L) (i : Fin n) (m : N) (x : Failure) : Job n N V L :=
  { s with mark := Function.update s.mark m .blocked, err := Function.update s.err i x.1 }

/-- `start` (mutate.c:431-463): mutate a list of nodes and send their dependants. -/
def begin1 [DecidableEq N] (k : Kernel V L) (p : Plan) (i : Fin n) : Job n N V L → List N → Job n N V L × List (Packet n N)
  | s, [] => (s, [])
  | s, m :: ms =>
    match mutate k p s m with
    | .error x => (fail s i m x, [])
    | .ok s =>
      let r := begin1 k p i s ms
      (r.1, (p.dependants (s.out m) (s.inn m)).map (fun e => .node e.2) ++ r.2)

/-- The part of the loop that runs only once (mutate.c:537-538). -/
def Job.begin [DecidableEq N] (k : Kernel V L) (p : Plan) (survivors : Fin n → List N) (i : Fin n) (s : Job n N V L) :
    Job n N V L × List (Packet n N) :=
  if s.started i then (s, []) else begin1 k p i { s with started := Function.update s.started i true } (survivors i)

/-- `all_quiescent` (mutate.c:473-497), except for `blocked`. -/
def quiescent (s : Job n N V L) (es : List (L × N)) : Bool := es.all fun e => decide (s.mark e.2 ≠ .clear)

/-- `blocked` (mutate.c:490-491). -/
def blocked (s : Job n N V L) (es : List (L × N)) : Bool := es.any fun e => decide (s.mark e.2 = .blocked)

/-- The part of the loop that mutates a node if its prerequisites are ready (mutate.c:541-550). -/
def attempt [DecidableEq N] (k : Kernel V L) (p : Plan) (i : Fin n) (s : Job n N V L) (m : N) : Job n N V L × List (Packet n N) :=
  if s.err i = 0 ∧ s.stop i = false ∧ quiescent s (p.prerequisites (s.out m) (s.inn m)) = true then
    if blocked s (p.prerequisites (s.out m) (s.inn m)) then
      ({ s with mark := Function.update s.mark m .blocked }, (p.dependants (s.out m) (s.inn m)).map fun e => .node e.2)
    else
      match mutate k p s m with
      | .error x => (fail s i m x, [])
      | .ok s => (s, (p.dependants (s.out m) (s.inn m)).map fun e => .node e.2)
  else (s, [])

/-- Tell the others to stop (mutate.c:551-553). -/
def interrupt (i : Fin n) (s : Job n N V L) : Job n N V L :=
  if s.stop i = false ∧ s.err i ≠ 0 then { s with killed := 1 } else s

/-- The body of the loop of `mutating_task` (mutate.c:531-555).  A node is mutated in one step, although other workers may go on
meanwhile: see DESIGN.md. -/
def handle [DecidableEq N] (k : Kernel V L) (p : Plan) (survivors : Fin n → List N) (i : Fin n) (s : Job n N V L) :
    Packet n N → Job n N V L × List (Packet n N) × Bool
  | .ping _ =>
    let r := (s.poll i).begin k p survivors i
    (r.1, (if h : i.1 + 1 < n then [.ping ⟨i.1 + 1, h⟩] else []) ++ r.2, false)
  | .node m =>
    let r := (s.poll i).begin k p survivors i
    if r.1.mark m ≠ .clear then (r.1, r.2, false)
    else
      let q := attempt k p i r.1 m
      (interrupt i q.1, r.2 ++ q.2, false)

/-- `mutating_task` (mutate.c:505-559).  It can't be killed from without (`UNKILLABLE`, mutate.c:798). -/
def task [DecidableEq N] (k : Kernel V L) (p : Plan) (survivors : Fin n → List N) (hash : N → Nat) (hn : 0 < n) :
    Task n (Packet n N) (Job n N V L) Empty where
  dest q := match q with
    | .ping i => i
    | .node m => Build.lane hn (hash m)
  handle := handle k p survivors
  env e := e.elim

def start (g : Gr N V L) (b : Bounds n N L) : Job n N V L :=
  ⟨fun _ => false, fun _ => 0, fun _ => false, fun _ => 0, 0, g.vertex, b.out, g.inn, fun m => if b.far m then .unreachable else .clear, []⟩

/-! ## The operation -/

/-- The `reachable` sets of the ports (zones.c:227-235): null unless the order is constrained and the initial node isn't the base
node. -/
def Analyzed [DecidableEq N] (g : Gr N V L) (p : Plan) (b : N) (hash : N → Nat) (hn : 0 < n) (k : Nat)
    (reach : Fin n → Option (List N)) : Prop :=
  if p.unordered then reach = fun _ => none else Induce.Analyzed g p.backwards b hash hn k reach

/-- What `cru_mutated` returns (mutate.c:797-822, 855-858): null and an error raised by a worker, or the kill code if killed
during the last traversal, which puts the nodes in a list (mutate.c:568-596), or else the graph.  The kill flag is cleared after the other
traversals (route.c:487-515). -/
def outcome (g : Gr N V L) (s : Job n N V L) (k : Nat) (r : Except Int (Gr N V L)) : Prop :=
  (∃ i, s.err i ≠ 0 ∧ r = .error (s.err i)) ∨
  ((∀ i, s.err i = 0) ∧ r = if k ≠ 0 then .error Build.intKil else .ok ⟨g.nodes, g.base, s.vertex, s.out, s.inn⟩)

/-- `cru_mutated` from when the sets `reachable` have been initialized (`propagate`, mutate.c:767-823).  `k₂` and `k₃` are the kill
flags at the ends of bounding and the last traversal. -/
def Proceeds [DecidableEq N] (g : Gr N V L) (p : Plan) (k : Kernel V L) (hash : N → Nat) (hn : 0 < n) (reach : Fin n → Option (List N))
    (k₂ k₃ : Nat) (s : Job n N V L) (r : Except Int (Gr N V L)) : Prop :=
  ∃ y, Reach (boundingTask k p g.inn reach hash hn) g.base (Bounds.start g.out) y ∧ y.main = .done ∧ y.g.killed = k₂ ∧
    ∃ z, Reach (task k p y.g.survivors hash hn) (.ping ⟨0, hn⟩) (start g y.g) z ∧ z.main = .done ∧ z.g = s ∧
      outcome g s k₃ r

/-- `cru_mutated` on a full duplex graph that isn't empty, with initial node `b`, if it isn't refused because of the destructors (see
`Model/Coverage`).  `k₁`, `k₂` and `k₃` are the kill flags at the ends of the analysis, bounding, and the last traversal. -/
def Mutates [DecidableEq N] (g : Gr N V L) (p : Plan) (b : N) (k : Kernel V L) (hash : N → Nat) (hn : 0 < n) (k₁ k₂ k₃ : Nat)
    (s : Job n N V L) (r : Except Int (Gr N V L)) : Prop :=
  ∃ reach, Analyzed g p b hash hn k₁ reach ∧ Proceeds g p k hash hn reach k₂ k₃ s r

end Cru.Mutate
