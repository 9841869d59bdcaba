import Verif.Model.Trav

/-!
# Splitting vertices (split.c, props.c:221-381, filters.c:639-730)

A node of the given graph and the node that `fan_out` makes of it, called its doppleganger in the source, are told apart by a flag.
The user's functions are given by their values: errors other than `CRU_INTOVF` and allocation failures are left out.
-/

namespace Cru.Split

open Net

variable {n : Nat} {N V L P : Type}

/-- A node of the given graph with the flag `false`, or its doppleganger with the flag `true`. -/
abbrev Twin (N : Type) := N × Bool

/-- A `cru_ctop_s` (cru_ctop.h): a conditional ternary operator. -/
structure Labeler (P L : Type) where
  tpred : P → L → P → Bool
  top : P → L → P → L

/-- The label of the edge to be created, if the predicate holds. -/
def Labeler.label (f : Labeler P L) (p : P) (l : L) (q : P) : Option L := if f.tpred p l q then some (f.top p l q) else none

/-- `struct cru_splitter_s` (cru_splitter.h).  The property of a vertex (`_cru_mapped_node_with_locks`) is any function of the vertex,
the labels and vertices of its incident edges, and the labels and vertices of its outgoing edges. -/
structure Splitter (V P L : Type) where
  fissile : V → P → Bool
  ana : V → P → V
  cata : V → P → V
  outAna : Labeler P L
  outCata : Labeler P L
  inAna : Labeler P L
  inCata : Labeler P L
  probe : V → List (L × V) → List (L × V) → P

/-! ## Properties -/

/-- `property_setting_task` (props.c:221-266) by way of `_cru_propped` (props.c:181-211).  The property of a node is `none` (NULL) until
it's set. -/
def setting [DecidableEq N] (sp : Splitter V P L) (g : Gr N V L) (addr : N → Nat) (hn : 0 < n) : Task n N (Trav.Job n N (N → Option P)) Unit :=
  Trav.task (g.next false)
    (fun _ M m => (Function.update M m (some (sp.probe (g.vertex m) ((g.inn m).map fun e => (e.1, g.vertex e.2))
      ((g.out m).map fun e => (e.1, g.vertex e.2)))), 0))
    addr hn

/-! ## Splitting -/

/-- The fields of the nodes (nodes.h): the vertex, the outgoing edges, the vertex property, and whether there's a doppleganger; and for
each port, the nodes on its list of survivors, the number of dummy nodes on it that keep overwritten vertices until they're freed
(split.c:109-111), and the variable `count` of the worker (split.c:249-251). -/
structure Mem (n : Nat) (N V L P : Type) where
  vertex : Twin N → V
  out : Twin N → List (L × Twin N)
  prop : Twin N → P
  split : N → Bool
  stock : Fin n → List (Twin N)
  old : Fin n → Nat
  count : Fin n → Nat

/-- The packets: those sent by `_cru_scatter_out` (scatter.c:98-120), with the payload, the sender, and the label of the carrier; and the
ones with the payloads `CREATE`, `CONNECT` and `DISCONNECT`, the last two with the carrier. -/
inductive Pkt (N L : Type)
  | visit (m : N) (c : Option (Twin N × L))
  | create (m : N)
  | connect (s : Twin N) (e : L × Twin N)
  | disconnect (s : Twin N) (e : L × Twin N)

/-- `packet->receiver`. -/
def Pkt.receiver : Pkt N L → Twin N
  | .visit m _ => (m, false)
  | .create m => (m, true)
  | .connect s _ => s
  | .disconnect s _ => s

/-- The body of the loop in `fan_out` (split.c:117-138), where the accumulator has the edges kept so far, and those of the doppleganger,
which are pushed.  The properties of the nodes at the other ends are given by `prop`. -/
def fanEdge (sp : Splitter V P L) (p : P) (prop : N → P) (a : List (L × N) × List (L × N)) (e : L × N) : List (L × N) × List (L × N) :=
  (a.1 ++ (sp.outAna.label p e.1 (prop e.2)).toList.map (·, e.2), (sp.outCata.label p e.1 (prop e.2)).toList.map (·, e.2) ++ a.2)

/-- The edges made of those of one node (split.c:117-138). -/
def fanEdges (sp : Splitter V P L) (p : P) (prop : N → P) (es : List (L × N)) : List (L × N) × List (L × N) :=
  es.foldl (fanEdge sp p prop) ([], [])

/-- `_cru_scatter_out` (scatter.c:98-120). -/
def scatter (s : Twin N) (es : List (L × N)) : List (Pkt N L) := es.map fun e => .visit e.2 (some (s, e.1))

/-- `fan_out` (split.c:64-148) on lane `i`, for a node received for the first time.  Its vertex and its edges are still those of the given
graph, because only this function changes a vertex, and the edges changed by `fan_in` are those of senders, to which this function has
been applied.  The property of the doppleganger depends on the vertices that the adjacent nodes have at the time.  It doesn't depend on
incident edges, because there aren't any by now (props.c:300-307). -/
def fanOut [DecidableEq N] (sp : Splitter V P L) (vfree : Bool) (g : Gr N V L) (i : Fin n) (M : Mem n N V L P) (m : N) :
    Mem n N V L P × List (Pkt N L) :=
  let p := M.prop (m, false)
  if sp.fissile (g.vertex m) p then
    let t := sp.cata (g.vertex m) p
    let q := sp.probe t [] ((g.out m).map fun e => (e.1, M.vertex (e.2, false)))
    let es := fanEdges sp p (fun a => M.prop (a, false)) (g.out m)
    ({ M with vertex := Function.update (Function.update M.vertex (m, true) t) (m, false) (sp.ana (g.vertex m) p)
              out := Function.update (Function.update M.out (m, true) (es.2.map fun e => (e.1, (e.2, false)))) (m, false)
                (es.1.map fun e => (e.1, (e.2, false)))
              prop := Function.update M.prop (m, true) q
              split := Function.update M.split m true
              old := if vfree then Function.update M.old i (M.old i + 1) else M.old },
      .create m :: (scatter (m, true) es.2 ++ scatter (m, false) es.1))
  else (M, scatter (m, false) (g.out m))

/-- `carrier->label = l'; carrier->remote.node = m'`, where the carrier is an edge of `s`.  Edges that have the same label and lead to the
same node aren't told apart. -/
def alter [DecidableEq N] [DecidableEq L] (M : Mem n N V L P) (s : Twin N) (e e' : L × Twin N) : Mem n N V L P :=
  { M with out := Function.update M.out s ((M.out s).replace e e') }

/-- `fan_in` (split.c:157-206), where `null` is the label NULL. -/
def fanIn [DecidableEq N] [DecidableEq L] (sp : Splitter V P L) (null : L) (M : Mem n N V L P) (m : N) :
    Option (Twin N × L) → Mem n N V L P × List (Pkt N L)
  | none => (M, [])
  | some (s, l) =>
    if M.split m then
      match sp.inAna.label (M.prop s) l (M.prop (m, false)), sp.inCata.label (M.prop s) l (M.prop (m, false)) with
      | none, none => (alter M s (l, (m, false)) (null, (m, false)), [.disconnect s (null, (m, false))])
      | none, some c => (alter M s (l, (m, false)) (c, (m, true)), [])
      | some a, none => (alter M s (l, (m, false)) (a, (m, false)), [])
      | some a, some c => (alter M s (l, (m, false)) (a, (m, false)), [.connect s (c, (m, true))])
    else (M, [])

/-- `_cru_pushed_node` on the list of survivors of a port. -/
def keep (M : Mem n N V L P) (i : Fin n) (c : Twin N) : Mem n N V L P := { M with stock := Function.update M.stock i (c :: M.stock i) }

/-- What's done with a packet after an error or a kill request (split.c:257-263). -/
def discard (i : Fin n) (s : Trav.Job n N (Mem n N V L P)) : Pkt N L → Trav.Job n N (Mem n N V L P) × List (Pkt N L) × Bool
  | .create m => ({ s with mem := keep s.mem i (m, true) }, [], false)
  | _ => (s, [], false)

/-- What's done with a packet otherwise (split.c:264-275), where `limit` is what's computed by split.c:247-248. -/
def act [DecidableEq N] [DecidableEq L] (sp : Splitter V P L) (null : L) (vfree : Bool) (limit : Nat) (g : Gr N V L) (i : Fin n)
    (s : Trav.Job n N (Mem n N V L P)) : Pkt N L → Trav.Job n N (Mem n N V L P) × List (Pkt N L) × Bool
  | .connect o e => ({ s with mem := { s.mem with out := Function.update s.mem.out o (e :: s.mem.out o) } }, [], false)
  | .disconnect o e => ({ s with mem := { s.mem with out := Function.update s.mem.out o ((s.mem.out o).erase e) } }, [], false)
  | .create m =>
    let c := Function.update s.mem.count i (s.mem.count i + 1)
    if limit ≠ 0 ∧ limit < s.mem.count i then
      ({ s with err := Function.update s.err i Build.intOvf, mem := keep { s.mem with count := c } i (m, true) }, [], false)
    else ({ s with mem := keep { s.mem with count := c } i (m, true) }, [], false)
  | .visit m c =>
    if m ∈ s.seen i then
      let b := fanIn sp null s.mem m c
      ({ s with mem := b.1 }, b.2, false)
    else
      let a := fanOut sp vfree g i s.mem m
      let b := fanIn sp null a.1 m c
      ({ s with seen := Function.update s.seen i (s.seen i ++ [m]), mem := b.1 }, a.2 ++ b.2, false)

/-- The body of the loop in `splitting_task` (split.c:256-276). -/
def splitIt [DecidableEq N] [DecidableEq L] (sp : Splitter V P L) (null : L) (vfree : Bool) (limit : Nat) (g : Gr N V L) (i : Fin n)
    (s : Trav.Job n N (Mem n N V L P)) (p : Pkt N L) : Trav.Job n N (Mem n N V L P) × List (Pkt N L) × Bool :=
  let s := Trav.poll s i
  if s.err i ≠ 0 ∨ s.stop i = true then discard i s p else act sp null vfree limit g i s p

/-- `splitting_task` (split.c:215-281), where `addr` is the address of a node. -/
def splitting [DecidableEq N] [DecidableEq L] (sp : Splitter V P L) (null : L) (vfree : Bool) (limit : Nat) (g : Gr N V L)
    (addr : Twin N → Nat) (hn : 0 < n) : Task n (Pkt N L) (Trav.Job n N (Mem n N V L P)) Unit where
  dest p := Build.lane hn (addr p.receiver)
  handle := splitIt sp null vfree limit g
  env _ s := { s with killed := 1 }

/-- The limit of each worker (split.c:247-248). -/
def share (n limit : Nat) : Nat := if limit / n ≠ 0 then limit / n else if limit ≠ 0 then 1 else 0

/-- The memory before splitting: every node is on the list of survivors of the port its address calls for (`_cru_populating_task`,
filters.c:62-120), and has the given property. -/
def mem (g : Gr N V L) (prop : N → P) (addr : Twin N → Nat) (hn : 0 < n) : Mem n N V L P where
  vertex s := g.vertex s.1
  out s := if s.2 then [] else (g.out s.1).map fun e => (e.1, (e.2, false))
  prop s := prop s.1
  split _ := false
  stock i := (g.nodes.filter fun m => decide (Build.lane hn (addr (m, false)) = i)).map (·, false)
  old _ := 0
  count i := (g.nodes.filter fun m => decide (Build.lane hn (addr (m, false)) = i)).length

/-- The first non-zero worker status in lane order (runners.c:100-119, crew.c:306-329). -/
def status {S : Type} (s : Trav.Job n N S) : Int := ((List.finRange n).map s.err).foldl (fun r e => if r = 0 then e else r) 0

/-! ## Pruning -/

/-- `pruning_task` (filters.c:639-688). -/
def pruning [DecidableEq N] (out : Twin N → List (L × Twin N)) (addr : Twin N → Nat) (hn : 0 < n) :
    Task n (Twin N) (Trav.Job n (Twin N) Unit) Unit :=
  Trav.task (fun s => (out s).map (·.2)) (fun _ _ _ => ((), 0)) addr hn

/-- The nodes left, which are those received by the workers that don't stop (filters.c:675, 681-687, crew.c:365-399). -/
def left [DecidableEq N] (z : Trav.Job n (Twin N) Unit) : List (Twin N) :=
  (List.finRange n).flatMap fun i => if z.stop i then [] else z.seen i

/-- Whether any port has nodes to be freed by `_cru_sweep` (route.c:768-771): those not received by workers that don't stop.  The ones
that stop have freed theirs (filters.c:683-685). -/
def sweepable [DecidableEq N] (M : Mem n N V L P) (z : Trav.Job n (Twin N) Unit) : Prop :=
  ∃ i, z.stop i = false ∧ (0 < M.old i ∨ ∃ c ∈ M.stock i, c ∉ z.seen i)

/-- The graph returned. -/
def result [DecidableEq N] (g : Gr N V L) (M : Mem n N V L P) (z : Trav.Job n (Twin N) Unit) : Gr (Twin N) V L where
  nodes := left z
  base := (g.base, false)
  vertex := M.vertex
  out := M.out
  inn _ := []

/-- `_cru_split` (split.c:290-326) and `cru_split` (entry.c:723-745) for a graph having the incoming edges needed (C31): an error, or the
graph returned.  The three numbers are the kill flags of the router at the end of property setting, splitting and pruning.
The router is shared for property setting (props.c:296), so `_cru_free_router` has no effect (route.c:667), and its flag is cleared
by `_cru_reset` (route.c:512) for populating.  `_cru_status_launched` doesn't look at the flag (launch.c:84-115), which is cleared for
property clearing (props.c:377).  Neither does `_cru_queue_launched` (launch.c:177-214), but the flag is still set when it comes
to `_cru_sweep` (split.c:325), where it's cleared if there are nodes to be freed and more than one lane (route.c:774-775), and otherwise
becomes an error (route.c:689-690).  The properties not set are `nil` (NULL). -/
def Splits [DecidableEq N] [DecidableEq L] (sp : Splitter V P L) (nil : P) (null : L) (vfree : Bool) (limit : Nat) (g : Gr N V L)
    (addr : Twin N → Nat) (hn : 0 < n) (k₁ k₂ k₃ : Nat) (r : Except Int (Gr (Twin N) V L)) : Prop :=
  ∃ x : State n N (Trav.Job n N (N → Option P)),
    Net.Reach (setting sp g (fun m => addr (m, false)) hn) g.base (Trav.start fun _ => none) x ∧ x.main = .done ∧ x.g.killed = k₁ ∧
    ∃ y : State n (Pkt N L) (Trav.Job n N (Mem n N V L P)),
      Net.Reach (splitting sp null vfree (share n limit) g addr hn) (.visit g.base none)
        (Trav.start (mem g (fun m => (x.g.mem m).getD nil) addr hn)) y ∧ y.main = .done ∧ y.g.killed = k₂ ∧
      if status y.g ≠ 0 then k₃ = 0 ∧ r = .error (status y.g)
      else ∃ z : State n (Twin N) (Trav.Job n (Twin N) Unit),
        Net.Reach (pruning y.g.mem.out addr hn) (g.base, false) (Trav.start ()) z ∧ z.main = .done ∧ z.g.killed = k₃ ∧
        (k₃ ≠ 0 ∧ ¬ (1 < n ∧ sweepable y.g.mem z.g) ∧ r = .error Build.intKil ∨
          (k₃ = 0 ∨ 1 < n ∧ sweepable y.g.mem z.g) ∧ r = .ok (result g y.g.mem z.g))

end Cru.Split
