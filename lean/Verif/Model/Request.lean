import Verif.Model.Fold

/-!
# Labels and vertices passed to `cru_connect` and `cru_stretch` (entry.c:287-362, edges.c:43-197, emap.c, stretch.c:51-96, scatter.c:387-438)

The world is that of `Model/Fold.lean`: storage is logged as made or freed with its destructor, destructors may raise an error at any
call, and time goes on with every call, so anything that depends on the time can happen.  Here allocations may fail at any time too.
-/

namespace Cru.Request

open Fold

variable {V : Type}

/-- The destructors of vertices and labels (those in thread-specific storage, getset.c:282-288; without them, both are null), the errors assigned by destructors, and whether an
allocation at a given time succeeds. -/
structure Env where
  vFree : Option Nat
  eFree : Option Nat
  fails : Nat → Nat → Int
  mem : Nat → Bool

/-- `struct edge_list_s` (edges.h) with a vertex in place of a node: its label and vertex, which may be null. -/
structure Edge (V : Type) where
  label : Option (Obj V)
  vertex : Option (Obj V)

/-- `struct edge_map_s` (emap.h). -/
structure Map (V : Type) where
  ante : Edge V
  post : Option (Edge V)

/-- `_cru_malloc` (wrap.c) and its error; it has succeeded if there's none (edges.c:60, emap.c:52, nodes.c:52, pack.c:145). -/
def alloc (c : Env) (w : World) : World := { w with clock := w.clock + 1, upset := w.upset || !c.mem w.clock }.raise (if c.mem w.clock then 0 else 12)

/-- The user allocates something whose destructor is `d`, unless it's null. -/
def create (d : Option Nat) (x : Option V) (w : World) : Option (Obj V) × World :=
  (x.map (Obj.mk w.clock),
    { w with
      clock := w.clock + 1
      made := match d, x with
        | some n, some _ => (w.clock, n) ::ₘ w.made
        | _, _ => w.made })

/-- `_cru_free_edges_and_termini` (edges.c:154-197): a label, then its vertex.  If there's only one destructor, or none, `destroy` leaves the others alone. -/
def freeEdges (c : Env) (es : List (Edge V)) (w : World) : World :=
  es.foldl (fun w e => destroy c.fails c.vFree e.vertex (destroy c.fails c.eFree e.label w)) w

/-- `_cru_free_edges_and_labels` (edges.c:104-117), or `_cru_free_edges_and_termini` without a vertex destructor (emap.c:83-87). -/
def freeLabels (c : Env) (es : List (Edge V)) (w : World) : World :=
  es.foldl (fun w e => destroy c.fails c.eFree e.label w) w

/-- `_cru_edge` (edges.c:43-80): the list of edges, which is empty if it fails. -/
def edge (c : Env) (label vertex : Option (Obj V)) (next : List (Edge V)) (w : World) : List (Edge V) × World :=
  if w.err = 0 ∧ (alloc c w).err = 0 then (⟨label, vertex⟩ :: next, alloc c w)
  else
    let w1 := if w.err = 0 then alloc c w else w
    ([], destroy c.fails c.eFree label (destroy c.fails c.vFree vertex (freeEdges c next w1)))

/-- `cru_connect` (entry.c:293-316), where `building` says whether the context is `BUILDING`: the edges in thread-specific storage. -/
def connect (c : Env) (building : Bool) (label terminus : Option (Obj V)) (es : List (Edge V)) (w : World) : List (Edge V) × World :=
  if building then edge c label terminus es w else (es, w.raise (-530))

/-- `_cru_free_map` (emap.c:72-91). -/
def freeMaps (c : Env) (ms : List (Map V)) (w : World) : World :=
  ms.foldl (fun w m => freeLabels c m.post.toList (freeEdges c [m.ante] w)) w

/-- `_cru_edge_map` (emap.c:38-65), by way of `*e` (entry.c:353-354): the list of edge maps, which is empty if it fails. -/
def edgeMap (c : Env) (a p : Edge V) (ms : List (Map V)) (w : World) : List (Map V) × World :=
  if (alloc c w).err = 0 then (⟨a, some p⟩ :: ms, alloc c w)
  else ([], freeLabels c [p] (freeEdges c [a] (freeMaps c ms (alloc c w))))

/-- `cru_stretch` (entry.c:324-362), where `stretching` says whether the context is `STRETCHING`: the edge maps in thread-specific storage. -/
def stretch (c : Env) (stretching : Bool) (ante vertex post : Option (Obj V)) (ms : List (Map V)) (w : World) : List (Map V) × World :=
  if stretching then
    match edge c ante vertex [] w with
    | ([], w1) => (ms, destroy c.fails c.eFree post w1)
    | (a :: _, w1) =>
      match edge c post none [] w1 with
      | ([], w2) => (ms, freeEdges c [a] w2)
      | (p :: _, w2) => edgeMap c a p ms w2
  else (ms, destroy c.fails c.eFree post (destroy c.fails c.vFree vertex (destroy c.fails c.eFree ante (w.raise (-530)))))

/-- A call to `cru_connect` with the error code its last argument refers to (0 if it's null) and its other arguments. -/
structure Link (V : Type) where
  err : Int
  label : Option V
  vertex : Option V

/-- A call to `cru_stretch` in the same way. -/
structure Call (V : Type) where
  err : Int
  ante : Option V
  vertex : Option V
  post : Option V

/-- The user allocates the arguments and calls `cru_connect` in its proper context. -/
def connectCall (c : Env) (es : List (Edge V)) (x : Link V) (w : World) : List (Edge V) × World :=
  let a := create c.eFree x.label w
  let b := create c.vFree x.vertex a.2
  connect c true a.1 b.1 es { b.2 with err := x.err }

/-- Such calls one after the other. -/
def connectCalls (c : Env) : List (Link V) → List (Edge V) → World → List (Edge V) × World
  | [], es, w => (es, w)
  | x :: xs, es, w => connectCalls c xs (connectCall c es x w).1 (connectCall c es x w).2

/-- The user allocates the arguments and calls `cru_stretch` in its proper context. -/
def stretchCall (c : Env) (ms : List (Map V)) (x : Call V) (w : World) : List (Map V) × World :=
  let a := create c.eFree x.ante w
  let b := create c.vFree x.vertex a.2
  let p := create c.eFree x.post b.2
  stretch c true a.1 b.1 p.1 ms { p.2 with err := x.err }

/-- Such calls one after the other. -/
def stretchCalls (c : Env) : List (Call V) → List (Map V) → World → List (Map V) × World
  | [], ms, w => (ms, w)
  | x :: xs, ms, w => stretchCalls c xs (stretchCall c ms x w).1 (stretchCall c ms x w).2

/-- What's put into the graph for an edge map: an edge to a new node with a vertex and an edge. -/
structure Insert (V : Type) where
  ante : Option (Obj V)
  vertex : Option (Obj V)
  post : Option (Obj V)

/-- `_cru_scatter_and_stretch` (scatter.c:387-438) with the edges made before.  The node (scatter.c:411) or the packet (scatter.c:421)
might not be allocated.  Edge maps in the list have both edges. -/
def scatter (c : Env) : List (Map V) → List (Insert V) → World → List (Insert V) × World
  | [], l, w => (l, w)
  | m :: ms, l, w =>
    if w.err ≠ 0 ∨ (alloc c w).err ≠ 0 then (l, freeMaps c (m :: ms) (if w.err ≠ 0 then w else alloc c w))
    else if (alloc c (alloc c w)).err ≠ 0 then
      (l, freeMaps c ({ m with post := none } :: ms) (freeLabels c m.post.toList (alloc c (alloc c w))))
    else scatter c ms (⟨m.ante.label, m.ante.vertex, m.post.bind Edge.label⟩ :: l) (alloc c (alloc c w))

/-- What the expander does: its calls to `cru_stretch`, the error it assigns, and whether it returns non-zero. -/
structure Answer (V : Type) where
  calls : List (Call V)
  err : Int
  delete : Bool

/-- The result of `scattered`: labels of edges kept, edges and nodes inserted, and edge maps to which nothing refers any more. -/
structure Scattered (V : Type) where
  kept : List (Option (Obj V))
  inserted : List (Insert V)
  lost : List (Map V)

/-- The loop of `scattered` (stretch.c:81-94) over edges with the given labels, of which the expander is called with one at a time.
The calls before it (stretch.c:75-80) don't allocate or free anything considered here. -/
def scattered (c : Env) (ask : Nat → Option (Obj V) → Answer V) : List (Option (Obj V)) → List (Insert V) → World → Scattered V × World
  | [], l, w => (⟨[], l, []⟩, w)
  | x :: xs, l, w =>
    if w.err ≠ 0 then (⟨x :: xs, l, []⟩, w)
    else
      let a := ask w.clock x
      let ms := stretchCalls c a.calls [] { w with clock := w.clock + 1 }
      if a.err ≠ 0 then (⟨x :: xs, l, ms.1⟩, { ms.2 with err := a.err, upset := true })
      else
        let s := scatter c ms.1 [] { ms.2 with err := 0, upset := w.upset }
        if s.2.err = 0 ∧ a.delete = true then scattered c ask xs (s.1 ++ l) (destroy c.fails c.eFree x s.2)
        else
          let y := scattered c ask xs (s.1 ++ l) s.2
          (⟨x :: y.1.kept, y.1.inserted, y.1.lost⟩, y.2)

end Cru.Request
