import Verif.Model.Compose

/-!
# Postponing edges (postpone.c)

The user's functions are given by their values: errors and allocation failures are left out.  Edges are pairs of a label and a
remote node.
-/

namespace Cru.Postpone

open Net

variable {n : Nat} {N V L : Type}

/-- `struct cru_postponer_s` (postpone.h).  The first predicate may be passed NULL, given here by `none`, if a vertex is gone. -/
structure Postponer (V L : Type) where
  postponable : Option V → L → Option V → Bool
  bpred : L → L → Bool
  bop : L → L → L
  fix : Bool

/-- The fields of the nodes (nodes.h): the vertex, which is `none` when it's been freed and overwritten by NULL, the outgoing edges, and
the postponed edges. -/
structure Mem (N V L : Type) where
  vertex : N → Option V
  out : N → List (L × N)
  post : N → List (L × N)

/-- The body of the loop in `bipartition` (postpone.c:71-79), where `b` is the list of edges kept, stationary ones and movable ones.
Edges are popped from the outgoing edges and pushed on the others. -/
def bipartitionOne [DecidableEq N] (p : Postponer V L) (vertex : N → Option V) (m : N) (b : List (L × N) × List (L × N) × List (L × N))
    (e : L × N) : List (L × N) × List (L × N) × List (L × N) :=
  if e.2 = m then (b.1 ++ [e], b.2)
  else if p.postponable (vertex m) e.1 (vertex e.2) then (b.1, b.2.1, e :: b.2.2)
  else (b.1, e :: b.2.1, b.2.2)

/-- `bipartition` (postpone.c:50-80). -/
def bipartition [DecidableEq N] (p : Postponer V L) (vertex : N → Option V) (m : N) (es : List (L × N)) :
    List (L × N) × List (L × N) × List (L × N) :=
  es.foldl (bipartitionOne p vertex m) ([], [], [])

/-- `postponed` (postpone.c:90-120): the edges sent, with the nodes they're sent to, for a movable edge `l`.  The result is whether there
are any. -/
def postponed (p : Postponer V L) (l : L × N) (stationary : List (L × N)) : List (N × (L × N)) :=
  (stationary.filter fun e => p.bpred l.1 e.1).map fun e => (e.2, (p.bop l.1 e.1, l.2))

/-- The body of the loop in `postpone` (postpone.c:154-158). -/
def postponeOne (p : Postponer V L) (stationary : List (L × N)) (s : List (L × N) × List (N × (L × N))) (l : L × N) :
    List (L × N) × List (N × (L × N)) :=
  if (postponed p l stationary).isEmpty then (l :: s.1, s.2) else (s.1, s.2 ++ postponed p l stationary)

/-- `postpone` (postpone.c:130-162): the outgoing edges and the edges sent. -/
def postpone [DecidableEq N] (p : Postponer V L) (vertex : N → Option V) (m : N) (es : List (L × N)) :
    List (L × N) × List (N × (L × N)) :=
  if es.length < 2 then (es, [])
  else
    let b := bipartition p vertex m es
    if b.2.1.isEmpty then (b.1 ++ b.2.2, [])
    else
      let s := b.2.2.foldl (postponeOne p b.2.1) (b.1, [])
      (s.1 ++ b.2.1, s.2)

/-- The packets: those sent by `_cru_scatter_out` (scatter.c:98-120), and those with the payload `ATTACH`. -/
inductive Pkt (N L : Type)
  | visit (m : N)
  | attach (m : N) (e : L × N)

def Pkt.receiver : Pkt N L → N
  | .visit m => m
  | .attach m _ => m

/-- The body of the loop in `postponing_task` (postpone.c:202-216). -/
def postponeIt [DecidableEq N] (p : Postponer V L) (i : Fin n) (s : Trav.Job n N (Mem N V L)) :
    Pkt N L → Trav.Job n N (Mem N V L) × List (Pkt N L) × Bool
  | .attach m e =>
    let s := Trav.poll s i
    ({ s with mem := { s.mem with post := Function.update s.mem.post m (e :: s.mem.post m) } }, [], false)
  | .visit m =>
    let s := Trav.poll s i
    if s.stop i = true ∨ m ∈ s.seen i then (s, [], false)
    else
      let r := postpone p s.mem.vertex m (s.mem.out m)
      ({ s with seen := Function.update s.seen i (s.seen i ++ [m])
                mem := { s.mem with out := Function.update s.mem.out m r.1 } },
        (s.mem.out m).map (fun e => .visit e.2) ++ r.2.map (fun a => .attach a.1 a.2), false)

/-- `postponing_task` (postpone.c:173-220), where `addr` is the address of a node. -/
def postponing [DecidableEq N] (p : Postponer V L) (addr : N → Nat) (hn : 0 < n) :
    Task n (Pkt N L) (Trav.Job n N (Mem N V L)) Unit where
  dest q := Build.lane hn (addr q.receiver)
  handle := postponeIt p
  env _ s := { s with killed := 1 }

/-- What `absorbing_task` does with the edges of a node (postpone.c:271-275). -/
def absorbed (eq : L → L → Bool) (addr : N → Nat) (M : Mem N V L) (m : N) : List (L × N) :=
  if (M.post m).isEmpty then M.out m else Compose.dedup eq addr (M.post m ++ M.out m)

/-- The body of the loop in `absorbing_task` (postpone.c:263-285).  The memory includes the variable `changed` of each worker. -/
def absorbIt [DecidableEq N] (eq : L → L → Bool) (addr : N → Nat) (i : Fin n) (s : Trav.Job n N (Mem N V L × (Fin n → Bool))) (m : N) :
    Trav.Job n N (Mem N V L × (Fin n → Bool)) × List N × Bool :=
  let s := Trav.poll s i
  if m ∈ s.seen i then (s, [], false)
  else if s.stop i = true then
    ({ s with seen := Function.update s.seen i (s.seen i ++ [m])
              mem := ({ s.mem.1 with vertex := Function.update s.mem.1.vertex m none }, s.mem.2) }, [], false)
  else
    let es := absorbed eq addr s.mem.1 m
    ({ s with seen := Function.update s.seen i (s.seen i ++ [m])
              mem := ({ s.mem.1 with out := Function.update s.mem.1.out m es, post := Function.update s.mem.1.post m [] },
                Function.update s.mem.2 i (s.mem.2 i || !(s.mem.1.post m).isEmpty && decide ((s.mem.1.out m).length < es.length))) },
      es.map (·.2), false)

/-- `absorbing_task` (postpone.c:231-289). -/
def absorbing [DecidableEq N] (eq : L → L → Bool) (addr : N → Nat) (hn : 0 < n) :
    Task n N (Trav.Job n N (Mem N V L × (Fin n → Bool))) Unit where
  dest m := Build.lane hn (addr m)
  handle := absorbIt eq addr
  env _ s := { s with killed := 1 }

/-- One iteration of the loop in `_cru_postpone` (postpone.c:381-383): whether anything was changed, and the kill flags of both
traversals at the end.  The first of them is cleared by `_cru_reset` (route.c:512) before the second traversal. -/
def Iter [DecidableEq N] (p : Postponer V L) (eq : L → L → Bool) (addr : N → Nat) (hn : 0 < n) (base : N) (M M' : Mem N V L) (ch : Bool)
    (k₁ k₂ : Nat) : Prop :=
  ∃ x : State n (Pkt N L) (Trav.Job n N (Mem N V L)),
    Net.Reach (postponing p addr hn) (.visit base) (Trav.start M) x ∧ x.main = .done ∧ x.g.killed = k₁ ∧
    ∃ y : State n N (Trav.Job n N (Mem N V L × (Fin n → Bool))),
      Net.Reach (absorbing eq addr hn) base (Trav.start (x.g.mem, fun _ => false)) y ∧ y.main = .done ∧ y.g.killed = k₂ ∧
      M' = y.g.mem.1 ∧ ch = (List.finRange n).any y.g.mem.2

/-- The loop in `_cru_postpone` (postpone.c:379-385) with the kill flags of each iteration. -/
inductive Loop [DecidableEq N] (p : Postponer V L) (eq : L → L → Bool) (addr : N → Nat) (hn : 0 < n) (base : N) :
    Mem N V L → Mem N V L → List (Nat × Nat) → Prop
  | last {M M' : Mem N V L} {ch : Bool} {k₁ k₂ : Nat} : Iter p eq addr hn base M M' ch k₁ k₂ → (p.fix && ch) = false →
      Loop p eq addr hn base M M' [(k₁, k₂)]
  | more {M M₁ M' : Mem N V L} {k₁ k₂ : Nat} {ks : List (Nat × Nat)} : Iter p eq addr hn base M M₁ true k₁ k₂ → p.fix = true →
      Loop p eq addr hn base M₁ M' ks → Loop p eq addr hn base M M' ((k₁, k₂) :: ks)

/-- The memory of a graph made half duplex (postpone.c:373-378). -/
def mem (g : Gr N V L) : Mem N V L := ⟨fun m => some (g.vertex m), g.out, fun _ => []⟩

/-- `_cru_postpone` (postpone.c:346-392) and `cru_postponed` (entry.c:990-1018) for a half duplex graph: what's left in memory, and
the error, which depends on the flag of the last traversal (`_cru_free_router`, route.c:689-690), because no nodes are left in the ports
to be swept (route.c:768-773).  The graph is returned if there's no error. -/
def Postpones [DecidableEq N] (p : Postponer V L) (eq : L → L → Bool) (addr : N → Nat) (hn : 0 < n) (g : Gr N V L) (M : Mem N V L)
    (ks : List (Nat × Nat)) (err : Int) : Prop :=
  Loop p eq addr hn g.base (mem g) M ks ∧ err = if (ks.getLast?.map (·.2)).getD 0 = 0 then 0 else Build.intKil

end Cru.Postpone
