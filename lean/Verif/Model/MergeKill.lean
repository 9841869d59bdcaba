import Verif.Model.Cull
import Verif.Model.Merge

/-!
# Merging vertices when killed (merge.c)

`Model/Merge.lean` leaves out what happens after a kill.  A kill isn't an error (killers.c:204-220): the flag is only reported when the
router is freed (route.c:688-690), and `merge` clears it between phases (merge.c:482, 485, 490, route.c:512).
-/

namespace Cru.Merge

open Net Table

variable {n : Nat} {N V L P : Type}

/-- `vertex_merging_task` (merge.c:121-198), including what happens after a kill or an error of the equality function. -/
def mergingTask [DecidableEq N] [DecidableEq P] (g : Gr N V L) (prop : N → P) (hash : P → Nat) (eq : Nat → P → P → Bool × Int)
    (hn : 0 < n) : Task n N (Trav.Job n N (Cull.Mem n N (Mem n N))) Unit :=
  Cull.task (g.next false) (visit prop hash eq) (fun m => hash (prop m)) hn

def mergingStart : Trav.Job n N (Cull.Mem n N (Mem n N)) := Cull.start ⟨fun _ _ => [], 0⟩

/-- The nodes culled by all workers. -/
def culled (x : Trav.Job n N (Cull.Mem n N (Mem n N))) : List N := (List.finRange n).flatMap x.mem.culled

/-- The classes made by all workers (merge.c:194) as in `Model/Merge.lean`. -/
def classesMade (prop : N → P) (hash : P → Nat) (x : Trav.Job n N (Cull.Mem n N (Mem n N))) : List (List N) :=
  classes prop hash (Cull.plain x)

/-- `CLASS_OF` (nodes.h:70-73) after vertices have been merged.  The field is a union (nodes.h:54-62): it's the class if there's one,
but a node that was culled has the mark `RETIRED` in it (stretch.c:243), represented by `none`. -/
def classRef [DecidableEq N] (classes : List (List N)) (culled : List N) (m : N) : Option N :=
  if m ∈ culled then none else some (classOf classes m)

/-- The label operations of a merger whose edge fold, if any, has a `bmap` rather than a `map`, so that it depends only on the labels
(edges.c:521, 528). -/
structure LabelOps (L : Type) where
  hash : L → Nat
  eq : L → L → Bool
  pruner : Option (Bool → L → Bool)
  red : Option (List L → L)

def LabelOps.ops {M : Type} (o : LabelOps L) : EdgeOps M L := ⟨o.hash, o.eq, o.pruner, o.red.map fun f b => f (b.map Prod.fst)⟩

/-- The value of a node pointer as a number; `RETIRED` is 3 (nodes.h:35). -/
def pointer (addr : N → Nat) : Option N → Nat
  | none => 3
  | some m => addr m

/-- The edges of the class with the given head after `edge_merging_task` (merge.c:346-385) when some nodes have been culled: they lead to
what's in the class fields of the termini.  The mark isn't followed there (brig.c:329, 373-376, table.c:217), if the edge fold has no
`map`. -/
def markedEdges [DecidableEq N] (g : Gr N V L) (o : LabelOps L) (addr : N → Nat) (classes : List (List N)) (culled : List N) (m : N) :
    List (L × Option N) :=
  match classes.find? fun k => decide (k.head? = some m) with
  | none => (g.out m).map fun e => (e.1, some e.2)
  | some k => fusedEdges o.ops (fun r => r.bind (classRef classes culled)) (pointer addr)
      (k.map fun a => (g.out a).map fun e => (e.1, some e.2))

/-- `_cru_pruning_task` (stretch.c:359-402) when some nodes have been culled.  The memory says whether a worker has read the class field
of the node a mark seems to point to (scatter.c:238), which is undefined behaviour. -/
def markedPruning [DecidableEq N] (out : N → List (L × Option N)) (prop : N → P) (hash : P → Nat) (hn : 0 < n) :
    Task n N (Trav.Job n N Bool) Unit :=
  Trav.task (fun m => (out m).filterMap Prod.snd) (fun _ s m => (s || (out m).any fun e => e.2.isNone, 0)) (fun m => hash (prop m)) hn

/-- The heads of the classes the pruning task hasn't visited: they're left on the list of survivors (stretch.c:394), and freed by
`demerge_edges` (merge.c:414) whether or not there's an error (merge.c:490). -/
def dropped [DecidableEq N] (classes : List (List N)) (z : Trav.Job n N Unit) : List N :=
  (classes.filterMap List.head?).filter fun m => decide (∀ i, m ∉ z.seen i)

end Cru.Merge
