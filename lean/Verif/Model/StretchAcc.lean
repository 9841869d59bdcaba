import Verif.Model.Stretch
import Mathlib.Algebra.BigOperators.Group.Finset.Basic

/-!
# Storage in stretching (stretch.c, route.c:703-780)

`Model/Stretch.lean` has the nodes and edges freed in a pass.  Here the storage of a whole job is accounted for: what's freed in the passes, what's
freed when the router is, and what nothing refers to any more.  As there, allocation failures and errors of destructors are left out, and this is
only about jobs in which no user function raises an error.
-/

namespace Cru.Stretch

open Net Dedup

variable {n : Nat} {N V L P : Type}

/-- The nodes on the lists of survivors of all ports when a pass has ended (stretch.c:344-346), in any order. -/
def stored (M : Mem n N V L) : Multiset (Nd N V L) := ∑ i, (((M.tab i).map Entry.node : List (Nd N V L)) : Multiset (Nd N V L))

/-- The vertices and labels that `_cru_free_nodes` (nodes.c:76-96) would free along with these nodes. -/
def storage (g : Gr N V L) (M : Mem n N V L) (ms : Multiset (Nd N V L)) : Multiset (V ⊕ L) :=
  ms.bind fun c => .inl (vertex g c) ::ₘ (((M.out c).map fun e => .inr e.label : List (V ⊕ L)) : Multiset (V ⊕ L))

/-- The vertices and labels freed in a pass: the vertices of nodes that were discarded (stretch.c:159, 192), whose lists of outgoing edges are empty, and
the labels of edges that were deleted (stretch.c:90) or redundant (stretch.c:155, 191). -/
def spent (g : Gr N V L) (M : Mem n N V L) : Multiset (V ⊕ L) :=
  ((M.dead.map fun c => .inl (vertex g c) : List (V ⊕ L)) : Multiset (V ⊕ L)) + ((M.freed.map fun e => .inr e.label : List (V ⊕ L)) : Multiset (V ⊕ L))

/-- The nodes that stay on the lists of survivors when those received by the pruning task have been severed (stretch.c:394). -/
def left [DecidableEq N] [DecidableEq V] [DecidableEq L] (M : Mem n N V L) (ms : List (Nd N V L)) : Multiset (Nd N V L) := (stored M).filter (· ∉ ms)

/-- The vertices and labels passed to `cru_stretch` in a pass (stretch.c:81-93). -/
def asked (ask : N → L × N → Answer V L) (g : Gr N V L) : Multiset (V ⊕ L) :=
  (g.nodes : Multiset N).bind fun m => ((g.out m : List (L × N)) : Multiset (L × N)).bind fun e =>
    (((ask m e).reqs : List (Req V L)) : Multiset (Req V L)).bind fun r => {.inr r.ante, .inl r.vertex, .inr r.post}

/-- How `cru_stretched` comes to the outcome, along with the vertices and labels that were passed to `cru_stretch`, those that were freed, and those that
nothing refers to any more in the end.  When another pass is made, the lists of survivors are overwritten at its end (stretch.c:344).  After the
last one, the nodes on them are freed (stretch.c:464, route.c:713, 774-778).  If the job was killed during the last run of the pruning task,
the error is raised (route.c:689-690) after it's been decided not to free the graph (stretch.c:462-463), which isn't returned. -/
inductive Reclaims [DecidableEq V] [DecidableEq L] (o : Orders V L) (x : Stretcher V L P) (limit : Nat) (hn : 0 < n) (killable : Bool) :
    {N : Type} → Gr N V L → Outcome V L → Multiset (V ⊕ L) → Multiset (V ⊕ L) → Multiset (V ⊕ L) → Prop
  | again {N : Type} [DecidableEq N] (g : Gr N V L) (inc : N → List (L × N)) (addr : Nd N V L → Nat) (y : Job n N V L)
      (z : Trav.Job n (Nd N V L) Unit) (ms : List (Nd N V L)) (r : Outcome V L) (a f d : Multiset (V ⊕ L)) :
    ({ g with inn := inc } : Gr N V L).Duplex → Function.Injective addr → Runs o (x.ask g inc) g addr limit hn y →
    y.mem.bad = false → status y = 0 → x.fix = true → total y ≠ 0 → Prunes o g hn y.mem z → (z.killed ≠ 0 → killable = true) →
    (z.killed = 0 → ms = Dedup.kept z) → Covers (fun m => (ends y.mem m).map Prod.snd) (.old g.base) ms →
    Reclaims o x limit hn killable (result g y.mem ms) r a f d →
    Reclaims o x limit hn killable g r (asked (x.ask g inc) g + a) (spent g y.mem + f) (storage g y.mem (left y.mem ms) + d)
  | killed {N : Type} [DecidableEq N] (g : Gr N V L) (inc : N → List (L × N)) (addr : Nd N V L → Nat) (y : Job n N V L)
      (z : Trav.Job n (Nd N V L) Unit) :
    ({ g with inn := inc } : Gr N V L).Duplex → Function.Injective addr → Runs o (x.ask g inc) g addr limit hn y →
    y.mem.bad = false → status y = 0 → ¬ (x.fix = true ∧ total y ≠ 0) → Prunes o g hn y.mem z → killable = true →
    z.killed ≠ 0 → ¬ (1 < n ∧ sweepable y.mem z) →
    Reclaims o x limit hn killable g (.error Build.intKil) (asked (x.ask g inc) g)
      (spent g y.mem + storage g y.mem (left y.mem (Dedup.kept z))) (storage g y.mem (Dedup.kept z))
  | done {N : Type} [DecidableEq N] (g : Gr N V L) (inc : N → List (L × N)) (addr : Nd N V L → Nat) (y : Job n N V L)
      (z : Trav.Job n (Nd N V L) Unit) :
    ({ g with inn := inc } : Gr N V L).Duplex → Function.Injective addr → Runs o (x.ask g inc) g addr limit hn y →
    y.mem.bad = false → status y = 0 → ¬ (x.fix = true ∧ total y ≠ 0) → Prunes o g hn y.mem z → (z.killed ≠ 0 → killable = true) →
    (z.killed = 0 ∨ 1 < n ∧ sweepable y.mem z) →
    Reclaims o x limit hn killable g (.ok (result g y.mem (Dedup.kept z))) (asked (x.ask g inc) g)
      (spent g y.mem + storage g y.mem (left y.mem (Dedup.kept z))) 0

end Cru.Stretch
