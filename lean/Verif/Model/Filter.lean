import Verif.Model.Trav
import Verif.Model.Edges

/-!
# Filtering (filters.c, entry.c:877-903, infer.c:503-565)

The user's functions are given by their values and the errors they raise, which depend only on their operands.  Allocation failures
are left out.  After an error, the code also sets the kill flag (filters.c:210-211, 540-541), which makes the other workers stop; here
they go on, which makes no difference to what's returned, apart from which error if there are several.
-/

namespace Cru.Filter

open Net

variable {n : Nat} {N V L : Type}

/-- The edge test of a filter (`fi_kernel.e_op`): whether there's a vacuous case, whether the result of its map on one edge is non-null,
and whether the result of the whole fold on a list of edges is.  The vertex from which the edges lead comes first. -/
structure EdgeTest (V L : Type) where
  vacuous : Bool
  map : V → L × V → Bool
  fold : V → List (L × V) → Bool

/-- `struct cru_filter_s` (cru_filter.h) without the zone.  The vertex test `fi_kernel.v_op` is a function of a vertex, of the labels and
the adjacent vertices of its incoming edges, and of those of its outgoing edges, which is true if the result is NULL, together with an
error.  `fault` is the error raised by the functions applied to the edges of a vertex. -/
structure Filter (V L : Type) where
  probe : Option (V → List (L × V) → List (L × V) → Bool × Int)
  edge : Option (EdgeTest V L)
  order : Option ((L → Nat) × (L → L → Bool))
  thinner : Option (L × V → L × V → Bool)
  fault : V → List (L × V) → Int

/-- The replacements made by `_cru_inferred_filter` (infer.c:541-548): with a thinner, a missing vertex test becomes one that's always
NULL, and a missing edge test one that never is. -/
def Filter.inferred (f : Filter V L) : Filter V L :=
  if f.thinner.isSome then
    { f with probe := some (f.probe.getD fun _ _ _ => (true, 0)), edge := some (f.edge.getD ⟨false, fun _ _ => true, fun _ _ => true⟩) }
  else f

/-- The operands of the user's functions corresponding to a list of edges. -/
def view (g : Gr N V L) (es : List (L × N)) : List (L × V) := es.map fun e => (e.1, g.vertex e.2)

/-- `is_deletable` (filters.c:137-155) where `es` are the outgoing edges of `m`: whether it's deletable, and the error raised. -/
def deletable (f : Filter V L) (g : Gr N V L) (m : N) (es : List (L × N)) : Bool × Int :=
  match f.probe with
  | none => (false, 0)
  | some p =>
    let r := p (g.vertex m) (view g (g.inn m)) (view g es)
    if r.2 ≠ 0 then (true, r.2) else r

/-- The functions of the filter as they're applied to the outgoing edges of `m`. -/
def edgeFilter (f : Filter V L) (g : Gr N V L) (m : N) : EdgeFilter (L × N) where
  emptyFold := f.edge.isNone
  thinner := f.thinner.map fun t a b => t (a.1, g.vertex a.2) (b.1, g.vertex b.2)
  order := f.order.map fun o => (fun e => o.1 e.1, fun a b => o.2 a.1 b.1)
  vacuous := f.edge.any (·.vacuous)
  pass1 e := f.edge.any fun t => t.map (g.vertex m) (e.1, g.vertex e.2)
  passG es := f.edge.any fun t => t.fold (g.vertex m) (view g es)

/-- `filtered` (filters.c:396-426; `Model/Edges.lean`): the edges retained, those removed, and the error. -/
def filtered (f : Filter V L) (g : Gr N V L) (m : N) (es : List (L × N)) : List (L × N) × List (L × N) × Int :=
  let r := filteredEdges (edgeFilter f g m) es
  (r.1, r.2, if f.edge.isNone ∧ f.thinner.isNone then 0 else f.fault (g.vertex m) (view g es))

/-! ## Testing vertices -/

/-- `node_filtering_task` (filters.c:164-216).  The memory has the sets `deleted` of the ports.  There is no set `reachable` to be
looked at (filters.c:199), because the priorities in the plan of the router are zero (route.c:316-318, zones.c:233). -/
def marking [DecidableEq N] (f : Filter V L) (g : Gr N V L) (backwards : Bool) (addr : N → Nat) (hn : 0 < n) :
    Task n N (Trav.Job n N (Fin n → List N)) Unit :=
  Trav.task (g.next backwards)
    (fun i D m =>
      let r := deletable f g m (g.out m)
      (if r.1 = true ∧ r.2 = 0 then Function.update D i (m :: D i) else D, r.2))
    addr hn

/-! ## Testing and deleting edges -/

/-- The outgoing edges of the nodes, and those that have been moved to the lists `disconnections` of ports.  The latter are told apart
by the nodes that they belonged to instead of by ports. -/
structure Mem (N L : Type) where
  out : N → List (L × N)
  cut : N → List (L × N)

/-- The packets: those sent by `_cru_scatter_out` (scatter.c:98-120) with the sender and the label of the carrier, or by
`_cru_scatter_in` (scatter.c:129-149); the ones with the payload `CUT_FORWARD`, with the recipient and the carrier; and the ones with
the payload `CUT_BACK`, with the recipient, the sender, the label of the carrier, and whether the carrier has a successor on the
list that it's on. -/
inductive Pkt (N L : Type)
  | visit (m : N) (c : Option (N × L))
  | cutForward (s : N) (e : L × N)
  | cutBack (s : N) (e : L × N) (more : Bool)
  deriving DecidableEq

/-- `packet->receiver`. -/
def Pkt.receiver : Pkt N L → N
  | .visit m _ => m
  | .cutForward s _ => s
  | .cutBack s _ _ => s

/-- The messages sent for the incoming edges of `m` (filters.c:466-467). -/
def cutBacks (m : N) : List (L × N) → List (Pkt N L)
  | [] => []
  | e :: es => .cutBack e.2 (e.1, m) (!es.isEmpty) :: cutBacks m es

/-- `request_disconnection` (filters.c:438-468).  With no sender, the message has no recipient and is ignored (filters.c:512). -/
def request (g : Gr N V L) (backwards : Bool) (m : N) (c : Option (N × L)) : List (Pkt N L) :=
  if backwards then cutBacks m (g.inn m)
  else match c with
    | none => []
    | some (s, l) => [.cutForward s (l, m)]

/-- Whether the edges of a node are to be tested (filters.c:523), with the error raised. -/
def eligible (f : Filter V L) (g : Gr N V L) (m : N) (es : List (L × N)) : Bool × Int :=
  if f.thinner.isNone then (true, 0) else deletable f g m es

/-- What's done with the edges `es` of a node that's not deleted (filters.c:523-524).  If there's an error already, `filtered` has no effect
(filters.c:413). -/
def pick (f : Filter V L) (g : Gr N V L) (m : N) (es : List (L × N)) : List (L × N) × List (L × N) × Int :=
  let r := eligible f g m es
  if r.1 = true ∧ r.2 = 0 then filtered f g m es else (es, [], r.2)

/-- The packets sent by `_cru_scatter_in` or `_cru_scatter_out` (filters.c:532-535), where `es` are the outgoing edges. -/
def scatter (g : Gr N V L) (backwards : Bool) (m : N) (es : List (L × N)) : List (Pkt N L) :=
  if backwards then (g.inn m).map fun e => .visit e.2 none else es.map fun e => .visit e.2 (some (m, e.1))

/-- What's done with a packet (filters.c:514-538), where `del` are the sets `deleted`.  `_cru_deleted_edge` raises internal error 880 if the
edge isn't there (edges.c:347-364).  Edges with the same label to the same node aren't told apart.  `_cru_disconnections` raises
internal error 885 if the carrier has a successor (edges.c:414). -/
def act [DecidableEq N] [DecidableEq L] (f : Filter V L) (g : Gr N V L) (backwards : Bool) (del : Fin n → List N) (i : Fin n)
    (s : Trav.Job n N (Mem N L)) : Pkt N L → Trav.Job n N (Mem N L) × List (Pkt N L) × Bool
  | .cutForward o e =>
    if e ∈ s.mem.out o then
      ({ s with mem := { out := Function.update s.mem.out o ((s.mem.out o).erase e)
                         cut := Function.update s.mem.cut o (e :: s.mem.cut o) } }, [], false)
    else ({ s with err := Function.update s.err i (-880) }, [], false)
  | .cutBack o e more =>
    if more then ({ s with err := Function.update s.err i (-885) }, [], false)
    else
      ({ s with mem := { out := Function.update s.mem.out o ((s.mem.out o).filter (· ≠ e))
                         cut := Function.update s.mem.cut o ((s.mem.out o).filter (· = e) ++ s.mem.cut o) } }, [], false)
  | .visit m c =>
    if m ∈ s.seen i then (s, if f.thinner.isNone ∧ m ∈ del i then request g backwards m c else [], false)
    else if m ∈ del i then
      ({ s with seen := Function.update s.seen i (s.seen i ++ [m])
                mem := { out := Function.update s.mem.out m [], cut := Function.update s.mem.cut m (s.mem.out m ++ s.mem.cut m) } },
        request g backwards m c, false)
    else
      let r := pick f g m (s.mem.out m)
      ({ s with seen := Function.update s.seen i (s.seen i ++ [m])
                err := Function.update s.err i r.2.2
                mem := { out := Function.update s.mem.out m r.1, cut := Function.update s.mem.cut m (r.2.1 ++ s.mem.cut m) } },
        scatter g backwards m r.1, false)

/-- The body of the loop in `edge_filtering_task` (filters.c:508-542). -/
def handle [DecidableEq N] [DecidableEq L] (f : Filter V L) (g : Gr N V L) (backwards : Bool) (del : Fin n → List N) (i : Fin n)
    (s : Trav.Job n N (Mem N L)) (p : Pkt N L) : Trav.Job n N (Mem N L) × List (Pkt N L) × Bool :=
  let s := Trav.poll s i
  if s.err i ≠ 0 ∨ s.stop i = true then (s, [], false) else act f g backwards del i s p

/-- `edge_filtering_task` (filters.c:478-546), where `addr` is the address of a node. -/
def cutting [DecidableEq N] [DecidableEq L] (f : Filter V L) (g : Gr N V L) (backwards : Bool) (del : Fin n → List N) (addr : N → Nat)
    (hn : 0 < n) : Task n (Pkt N L) (Trav.Job n N (Mem N L)) Unit where
  dest p := Build.lane hn (addr p.receiver)
  handle := handle f g backwards del
  env _ s := { s with killed := 1 }

/-- The memory before that. -/
def mem (g : Gr N V L) : Mem N L := ⟨g.out, fun _ => []⟩

/-- The first non-zero worker status in lane order (runners.c:100-119, crew.c:306-329). -/
def status {S : Type} (s : Trav.Job n N S) : Int := ((List.finRange n).map s.err).foldl (fun r e => if r = 0 then e else r) 0

/-! ## Pruning -/

/-- `pruning_task` (filters.c:638-688). -/
def pruning [DecidableEq N] (out : N → List (L × N)) (addr : N → Nat) (hn : 0 < n) : Task n N (Trav.Job n N Unit) Unit :=
  Trav.task (fun s => (out s).map (·.2)) (fun _ _ _ => ((), 0)) addr hn

/-- The nodes left, which are those received by the workers that don't stop (filters.c:675, 681-687, crew.c:365-399). -/
def left (z : Trav.Job n N Unit) : List N := (List.finRange n).flatMap fun i => if z.stop i then [] else z.seen i

/-- Whether any port has something to be freed by `_cru_sweep` (route.c:768-771): edges that have been cut, or nodes on the list of survivors,
which are those (filters.c:62-120, 600-607) not received by workers that don't stop.  The ones that stop have freed theirs
(filters.c:683-685). -/
def sweepable (g : Gr N V L) (M : Mem N L) (addr : N → Nat) (hn : 0 < n) (z : Trav.Job n N Unit) : Prop :=
  (∃ m, M.cut m ≠ []) ∨ ∃ m ∈ g.nodes, z.stop (Build.lane hn (addr m)) = false ∧ m ∉ z.seen (Build.lane hn (addr m))

/-- The graph returned.  There are no incoming edges, because `_cru_half_duplexing_task` has freed them (filters.c:616-617). -/
def result (g : Gr N V L) (M : Mem N L) (z : Trav.Job n N Unit) : Gr N V L where
  nodes := left z
  base := g.base
  vertex := g.vertex
  out := M.out
  inn _ := []

/-- The sets `deleted` at the end of `node_filtering_task`, with the status, where `k` is the kill flag of the router.  The task isn't run if
there's a thinner or no vertex test (filters.c:609-612). -/
def Marks [DecidableEq N] (f : Filter V L) (g : Gr N V L) (backwards : Bool) (initial : N) (addr : N → Nat) (hn : 0 < n) (k : Nat)
    (del : Fin n → List N) (e : Int) : Prop :=
  if f.thinner.isSome ∨ f.probe.isNone then k = 0 ∧ del = (fun _ => []) ∧ e = 0
  else ∃ x : State n N (Trav.Job n N (Fin n → List N)), Net.Reach (marking f g backwards addr hn) initial (Trav.start fun _ => []) x ∧
    x.main = .done ∧ x.g.killed = k ∧ x.g.mem = del ∧ status x.g = e

/-- The rest of `_cru_filtered` (filters.c:608-617) and `_cru_pruned` (filters.c:697-730) for a graph whose base vertex isn't to be deleted.
The three numbers are the kill flags of the router at the end of each task.  `_cru_status_launched` doesn't look at the flag
(launch.c:84-115), and returns non-zero whatever the errors, so that edges are filtered in any case (filters.c:613-615).
`_cru_reset` (route.c:512) clears it.  Neither does `_cru_queue_launched` (launch.c:177-214), but the flag is still set when it comes to
`_cru_sweep` (filters.c:728), where it's cleared if there is something to be freed and more than one lane (route.c:774-775), and
otherwise becomes an error (route.c:689-690).  If there's an error, everything's freed (filters.c:617-620, 715-716). -/
def Runs [DecidableEq N] [DecidableEq L] (f : Filter V L) (g : Gr N V L) (backwards : Bool) (initial : N) (addr : N → Nat) (hn : 0 < n)
    (k₁ k₂ k₃ : Nat) (r : Except Int (Option (Gr N V L))) : Prop :=
  ∃ del e, Marks f g backwards initial addr hn k₁ del e ∧
    ∃ y : State n (Pkt N L) (Trav.Job n N (Mem N L)),
      Net.Reach (cutting f g backwards del addr hn) (.visit initial none) (Trav.start (mem g)) y ∧ y.main = .done ∧ y.g.killed = k₂ ∧
      if e ≠ 0 then k₃ = 0 ∧ r = .error e
      else if status y.g ≠ 0 then k₃ = 0 ∧ r = .error (status y.g)
      else ∃ z : State n N (Trav.Job n N Unit),
        Net.Reach (pruning y.g.mem.out addr hn) g.base (Trav.start ()) z ∧ z.main = .done ∧ z.g.killed = k₃ ∧
        (k₃ ≠ 0 ∧ ¬ (1 < n ∧ sweepable g y.g.mem addr hn z.g) ∧ r = .error Build.intKil ∨
          (k₃ = 0 ∨ 1 < n ∧ sweepable g y.g.mem addr hn z.g) ∧ r = .ok (some (result g y.g.mem z.g)))

/-- `cru_filtered` (entry.c:877-903) for a graph having incoming edges (zones.c:216-222; C31): an error, or NULL, or the graph returned.
`initial` is the node found for the initial vertex of the zone if one is given, and otherwise the base node (zones.c:227-232).
Forward traversals start from the base node in any case (filters.c:608).  Nothing is done if there's nothing to test
(entry.c:896), and the whole graph is freed if the base node is deletable (filters.c:592-599, 619-620). -/
def Filters [DecidableEq N] [DecidableEq L] (u : Filter V L) (g : Gr N V L) (backwards : Bool) (initial : N) (addr : N → Nat) (hn : 0 < n)
    (k₁ k₂ k₃ : Nat) (r : Except Int (Option (Gr N V L))) : Prop :=
  let f := u.inferred
  if f.probe.isNone ∧ f.edge.isNone then k₁ = 0 ∧ k₂ = 0 ∧ k₃ = 0 ∧ r = .ok (some g)
  else if f.thinner.isNone ∧ (deletable f g g.base (g.out g.base)).1 = true then
    k₁ = 0 ∧ k₂ = 0 ∧ k₃ = 0 ∧
      r = if (deletable f g g.base (g.out g.base)).2 ≠ 0 then .error (deletable f g g.base (g.out g.base)).2 else .ok none
  else Runs f g backwards (if backwards then initial else g.base) addr hn k₁ k₂ k₃ r

end Cru.Filter
