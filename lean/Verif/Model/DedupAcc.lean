import Verif.Model.Edges
import Verif.Model.SplitAcc

/-!
# Storage in the removal of repeated edges, with errors (edges.c:288-317, edges.c:430-444, table.c:159-238, brig.c:30-50, brig.c:310-336)

The value level is in `Model/Edges.lean`.  Here comparisons of labels, destructors and allocations may fail at any time, and labels are
logged as freed.  The world is that of `Model/Fold.lean` and `Model/Request.lean`.
-/

namespace Cru.DedupAcc

open Fold
open Request (Env alloc)
open SpawnAcc (Verdict)
open SplitAcc (passed)

variable {N V : Type}

/-- `struct edge_list_s` (edges.h): its label and the remote node. -/
structure Edge (N V : Type) where
  label : Option (Obj V)
  dst : N

/-- `_cru_free_edges_and_labels` (edges.c:104-117). -/
def freeEdges (c : Env) (es : List (Edge N V)) (w : World) : World := SpawnAcc.freeLabels c (es.map Edge.label) w

/-- The first loop in `_cru_marshalled` (table.c:215-225): the edges put into the array, and those left if there's an error.  Inserting
into the array may fail for lack of memory at any edge. -/
def stow (c : Env) : List (Edge N V) → World → (List (Edge N V) × List (Edge N V)) × World
  | [], w => (([], []), w)
  | e :: es, w =>
    if w.err ≠ 0 then (([], e :: es), w)
    else if (alloc c w).err ≠ 0 then (([], e :: es), alloc c w)
    else
      let r := stow c es (alloc c w)
      ((e :: r.1.1, r.1.2), r.2)

/-- The second loop in `_cru_marshalled` (table.c:227-232) with `_cru_push_bucket` (brig.c:30-50): the brigade, and the edges that are still in
the array if there's an error.  The bucket that couldn't be pushed is freed. -/
def pushBuckets (c : Env) : List (List (Edge N V)) → List (List (Edge N V)) → World → (List (List (Edge N V)) × List (Edge N V)) × World
  | [], b, w => ((b, []), w)
  | k :: ks, b, w =>
    if w.err ≠ 0 then ((b, (k :: ks).flatten), w)
    else if (alloc c w).err ≠ 0 then ((b, ks.flatten), freeEdges c k (alloc c w))
    else pushBuckets c ks (k :: b) (alloc c w)

/-- The bins of the array in the order of their keys (table.c:226-232), which is the reverse of the order in a brigade. -/
def bins (addr : N → Nat) (es : List (Edge N V)) : List (List (Edge N V)) := (marshalled (fun e => addr e.dst) es).reverse

/-- `_cru_marshalled` (table.c:194-238) with Judy arrays and `unwind` (table.c:161-185): the brigade, and the edges that remain in the list
if there's an error. -/
def marshal (c : Env) (addr : N → Nat) (es : List (Edge N V)) (w : World) : (List (List (Edge N V)) × List (Edge N V)) × World :=
  let s := stow c es w
  let p := pushBuckets c (bins addr s.1.1) [] s.2
  if p.2.err ≠ 0 then (([], p.1.2 ++ (p.1.1.flatten ++ s.1.2)), p.2) else ((p.1.1, s.1.2), p.2)

/-- The loop in `_cru_repeating_labels` (edges.c:307-314): the edges left and the edges removed, where `first` is true for the first edge,
which isn't compared with any.  `same` is what comparing a label with those before it gives at any time. -/
def repeats (c : Env) (same : Nat → Verdict) : Bool → List (Edge N V) → World → (List (Edge N V) × List (Edge N V)) × World
  | _, [], w => (([], []), w)
  | first, e :: es, w =>
    if w.err ≠ 0 then ((e :: es, []), w)
    else
      let v := if first then (false, w) else passed same w
      if v.1 then
        let r := repeats c same false es v.2
        ((r.1.1, r.1.2 ++ [e]), r.2)
      else
        let r := repeats c same false es (alloc c v.2)
        ((e :: r.1.1, r.1.2), r.2)

/-- `_cru_repeating_labels` (edges.c:288-317). -/
def repeating (c : Env) (same : Nat → Verdict) (es : List (Edge N V)) (w : World) : (List (Edge N V) × List (Edge N V)) × World :=
  if es.length < 2 then ((es, []), w) else repeats c same true es w

/-- The loop in `_cru_deduplicated_brigade` (brig.c:324-332). -/
def dedupLoop (c : Env) (same : Nat → Verdict) : List (List (Edge N V)) → List (Edge N V) → World → List (Edge N V) × World
  | [], r, w => (r, w)
  | b :: bs, r, w =>
    let x := repeating c same b w
    dedupLoop c same bs (x.1.1 ++ r) (freeEdges c x.1.2 x.2)

/-- `_cru_deduplicated_edges` (edges.c:430-444) with `_cru_deduplicated_brigade` (brig.c:310-336). -/
def dedup (c : Env) (same : Nat → Verdict) (addr : N → Nat) (es : List (Edge N V)) (w : World) : List (Edge N V) × World :=
  let m := marshal c addr es w
  let d := dedupLoop c same m.1.1 [] m.2
  if d.2.err ≠ 0 then ([], freeEdges c m.1.2 (freeEdges c d.1 d.2)) else (d.1, freeEdges c m.1.2 d.2)

end Cru.DedupAcc
