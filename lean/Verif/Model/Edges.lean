import Mathlib.Data.List.Dedup
import Mathlib.Data.List.Sort

/-!
# Edge lists and brigades (edges.c, brig.c, table.c:194-289, build.c:49-81)

A C edge list is a list here, front first.  A brigade (brig.c, a list of non-empty edge lists
called buckets) is a list of lists.  `push` is `::`, popping is taking the head.  The functions
are generic in the edge type `α`; comparing two labels or two termini is a `Bool`-valued
relation on `α`.  Left out: allocation failures and errors raised by user predicates.
-/

namespace Cru

variable {α : Type}

/-- One iteration of `_cru_bundled`'s loop (brig.c:237-250): walk the buckets, comparing the head of
each with the edge, and push the edge on the first bucket that passes, or on a new bucket at the end. -/
def bundleInsert (r : α → α → Bool) (e : α) : List (List α) → List (List α)
  | [] => [[e]]
  | [] :: bs => [e] :: bs
  | (h :: t) :: bs => if r h e then (e :: h :: t) :: bs else (h :: t) :: bundleInsert r e bs

/-- `_cru_bundled` (brig.c:208-252) with a relation. -/
def bundled (r : α → α → Bool) (es : List α) : List (List α) :=
  es.foldl (fun b e => bundleInsert r e b) []

/-- The keys present in a Judy array filled from `es`, in the ascending order in which `JLF`/`JLN`
visit them (table.c:226-232, 275-283). -/
def judyKeys (key : α → Nat) (es : List α) : List Nat :=
  ((es.map key).dedup).insertionSort (· ≤ ·)

/-- The edge list stored under one key: edges are pushed on its front (table.c:224, 273). -/
def judyBin (key : α → Nat) (es : List α) (k : Nat) : List α :=
  (es.filter (fun e => key e = k)).reverse

/-- `_cru_rallied` (table.c:245-289) with Judy arrays: bin by hash, then bundle each bin by the relation,
each bundled bin going in front of the previous ones. -/
def rallied (h : α → Nat) (r : α → α → Bool) (es : List α) : List (List α) :=
  (judyKeys h es).foldl (fun b k => bundled r (judyBin h es k) ++ b) []

/-- `_cru_marshalled` (table.c:194-238) with Judy arrays: one bucket for each remote node (`node e` is the
address of the remote node, or of its class), pushed on the front. -/
def marshalled (node : α → Nat) (es : List α) : List (List α) :=
  (judyKeys node es).foldl (fun b k => judyBin node es k :: b) []

/-- `_cru_bucketed` (brig.c:162-199), used by `_cru_marshalled` when there are no Judy arrays: the same walk
as `_cru_bundled` with the relation "same remote node". -/
def bucketed (node : α → Nat) (es : List α) : List (List α) :=
  bundled (fun a b => decide (node a = node b)) es

/-- The inner loops of `unique` on one bucket (build.c:72-79): pop each edge and drop it if an edge
remaining in the bucket has an equal terminus.  Returns the kept and the dropped edges. -/
def uniqueBucket (veq : α → α → Bool) : List α → List α × List α
  | [] => ([], [])
  | p :: rest =>
    let x := uniqueBucket veq rest
    if rest.any (veq p) then (x.1, p :: x.2) else (p :: x.1, x.2)

/-- `unique` (build.c:49-81), the kept edges: kept edges are pushed on the result, so they come out in
reverse order. -/
def unique (h : α → Nat) (leq veq : α → α → Bool) (es : List α) : List α :=
  ((rallied h leq es).flatMap (fun b => (uniqueBucket veq b).1)).reverse

/-- The edges `unique` frees along with their labels and termini (build.c:76). -/
def uniqueDropped (h : α → Nat) (leq veq : α → α → Bool) (es : List α) : List α :=
  (rallied h leq es).flatMap (fun b => (uniqueBucket veq b).2)

/-- `_cru_repeating_labels` (edges.c:288-317): scan the list keeping a table of labels seen (`seen`); an edge
whose label is recorded is removed.  Returns what is left and what was removed, the latter in reverse. -/
def splitRepeats (leq : α → α → Bool) : (seen : List α) → List α → List α × List α
  | _, [] => ([], [])
  | seen, e :: es =>
    if seen.any (leq e) then
      let x := splitRepeats leq seen es
      (x.1, x.2 ++ [e])
    else
      let x := splitRepeats leq (seen ++ [e]) es
      (e :: x.1, x.2)

/-- `_cru_deduplicated_brigade` (brig.c:310-336) without errors: keep the first edge with each label in each
bucket, and concatenate, later buckets in front.  The second component is the edges freed with their labels at
brig.c:326. -/
def deduplicatedBrigade (leq : α → α → Bool) (b : List (List α)) : List α × List α :=
  b.foldl (fun r bucket => ((splitRepeats leq [] bucket).1 ++ r.1, (splitRepeats leq [] bucket).2 ++ r.2)) ([], [])

/-- `_cru_deduplicated_edges` (edges.c:430-444), kept and freed edges.  The remainder freed at edges.c:442 is
empty unless `_cru_marshalled` fails. -/
def deduplicatedEdges (node : α → Nat) (leq : α → α → Bool) (es : List α) : List α × List α :=
  deduplicatedBrigade leq (marshalled node es)

/-- The same without Judy arrays (table.c:203-205 calls `_cru_bucketed`). -/
def deduplicatedEdgesNoJudy (node : α → Nat) (leq : α → α → Bool) (es : List α) : List α × List α :=
  deduplicatedBrigade leq (bucketed node es)

/-- The scan of `_cru_minimum_edge` (edges.c:387-390) and of `_cru_minimum_bucket` (brig.c:125-129): `m` is the
candidate at position `mi`, `i` the position of the next element; the candidate is replaced when the predicate
passes on the new element and the candidate.  Returns the position of the last candidate. -/
def minScan (lt : α → α → Bool) : (m : α) → (mi i : Nat) → List α → Nat
  | _, mi, _, [] => mi
  | m, mi, i, e :: es => if lt e m then minScan lt e i (i + 1) es else minScan lt m mi (i + 1) es

/-- `_cru_minimum_edge` (edges.c:372-392): remove the minimum from the list (by `_cru_deleted_edge`, which
unlinks that edge record) and return it with the rest. -/
def minimumEdge (lt : α → α → Bool) : List α → Option (α × List α)
  | [] => none
  | e :: es =>
    let i := minScan lt e 0 1 es
    ((e :: es)[i]?).map fun m => (m, (e :: es).eraseIdx i)

/-- `individually_filtered` (filters.c:261-297) without errors: pop each edge, put it in front of the failing
edges or of the passing ones according to the map in the fold being null; if there is a thinner predicate, keep only
the minimum of the passing edges.  Returns the retained and the removed edges. -/
def individuallyFiltered (pass : α → Bool) (t : Option (α → α → Bool)) (es : List α) : List α × List α :=
  let r := es.foldl (fun r e => if pass e then (e :: r.1, r.2) else (r.1, e :: r.2)) ([], [])
  match t with
  | none => r
  | some lt =>
    match minimumEdge lt r.1 with
    | none => r
    | some (m, rest) => ([m], rest ++ r.2)

/-- `jointly_filtered` (filters.c:307-338) without errors: retain the buckets whose reduction is non-null. -/
def jointlyFiltered (pass : List α → Bool) (b : List (List α)) : List α × List α :=
  b.foldl (fun r g => if pass g then (g ++ r.1, r.2) else (r.1, g ++ r.2)) ([], [])

/-- The order on buckets used by `_cru_minimum_bucket` (brig.c:128): compare the edges in front. -/
def bucketLt (lt : α → α → Bool) : List α → List α → Bool
  | a :: _, b :: _ => lt a b
  | _, _ => false

/-- `jointly_thinned` (filters.c:345-383) without errors: move the passing buckets to another brigade, in front,
and retain the minimum one. -/
def jointlyThinned (pass : List α → Bool) (lt : α → α → Bool) (b : List (List α)) : List α × List α :=
  let r := b.foldl (fun (r : List (List α) × List α) g => if pass g then (g :: r.1, r.2) else (r.1, g ++ r.2)) ([], [])
  match minimumEdge (bucketLt lt) r.1 with
  | none => ([], r.2)
  | some (m, rest) => (m, rest.foldl (fun c g => g ++ c) r.2)

/-- `_cru_bundled` with no relation (brig.c:229-235): each edge in a bucket of its own, pushed in front. -/
def unrelated (es : List α) : List (List α) := es.foldl (fun t e => [e] :: t) []

/-- What the edge part of a filter asks for (`cru_filter`: `fi_kernel.e_op`, `fi_order`, `thinner`).  `emptyFold`: no
edge fold is given.  `order`: hash and equality of `fi_order` if given.  `vacuous`: the fold has a vacuous case.
`pass1 e`: the fold's map is non-null on `e`; `passG g`: the whole fold is non-null on the edges `g`. -/
structure EdgeFilter (α : Type) where
  emptyFold : Bool
  thinner : Option (α → α → Bool)
  order : Option ((α → Nat) × (α → α → Bool))
  vacuous : Bool
  pass1 : α → Bool
  passG : List α → Bool

/-- `filtered` (filters.c:396-426) without errors: retained and removed edges of one vertex. -/
def filteredEdges (f : EdgeFilter α) (es : List α) : List α × List α :=
  if f.emptyFold && f.thinner.isNone then (es, [])
  else
    match f.order, f.vacuous with
    | none, false => individuallyFiltered f.pass1 f.thinner es
    | o, _ =>
      let b := match o with
        | none => unrelated es
        | some (h, r) => rallied h r es
      match f.thinner with
      | none => jointlyFiltered f.passG b
      | some lt => jointlyThinned f.passG lt b

end Cru
