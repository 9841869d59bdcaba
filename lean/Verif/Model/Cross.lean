import Verif.Model.Spawn

/-! # Crossing (cross.c, entry.c:227-248) -/

namespace Cru.Cross

variable {n : Nat} {N V V' L L' W M : Type}

/-- A crosser (crossers.h): the product of two vertices, which pairs of edges have a product, and what it is, and the vertex limit. -/
structure Crosser (V V' L L' W M : Type) where
  vprod : V → V' → W
  bpred : L → L' → Bool
  bop : L → L' → M
  vertexLimit : Nat

/-- `rash` (cross.c:113-126), where `addr` is `_cru_scalar_hash` of the address of a node. -/
def rash [DecidableEq N] (addr : N → Nat) (p : N × N) : Nat :=
  if p.1 = p.2 then addr p.1 else addr p.1 ^^^ addr p.2

/-- `productive_packets_of` (cross.c:169-219): the packets are made in a loop inside a loop, each pushed before the others
(cross.c:206). -/
def packets (x : Crosser V V' L L' W M) (ls : List (L × N)) (rs : List (L' × N)) : List (M × (N × N)) :=
  ls.foldl (fun acc l => rs.foldl (fun acc r => if x.bpred l.1 r.1 then (x.bop l.1 r.1, (l.2, r.2)) :: acc else acc) acc) []

/-- The node made by `reached_new_node` (cross.c:259-307).  Its edges are the carriers of the packets, in reverse order
(`_cru_carriers`, pack.c:307-318). -/
def maker (x : Crosser V V' L L' W M) (g : Gr N V L) (h : Gr N V' L') : Spawn.Maker (N × N) W M where
  vertex p := x.vprod (g.vertex p.1) (h.vertex p.2)
  edges p := (packets x (g.out p.1) (h.out p.2)).reverse

/-- The maximum number of vertices a worker makes, or zero for any number (cross.c:361-362). -/
def limit (lim lanes : Nat) : Nat := if lim / lanes ≠ 0 then lim / lanes else if lim ≠ 0 then 1 else 0

/-- `cru_crossed` (entry.c:227-248) by `_cru_cross` (cross.c:403-427) of two graphs that aren't empty and may be the same. -/
def Crossed [DecidableEq N] (x : Crosser V V' L L' W M) (addr : N → Nat) (hn : 0 < n) (g : Gr N V L) (h : Gr N V' L')
    (r : Except Int (Gr (Spawn.Id n) (Option W) M)) : Prop :=
  Spawn.Launched (maker x g h) (limit x.vertexLimit n) (rash addr) hn (g.base, h.base) r

end Cru.Cross
