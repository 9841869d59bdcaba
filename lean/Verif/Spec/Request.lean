import Verif.Model.Request
import Verif.Spec.Fold

/-! # What edges, edge maps and insertions hold -/

namespace Cru.Request

open Fold

variable {V : Type}

/-- The log entries of the label and the vertex of an edge. -/
def Edge.held (c : Env) (e : Edge V) : Multiset (Nat × Nat) := owned c.eFree e.label + owned c.vFree e.vertex

/-- Those of both labels and the vertex of a request. -/
def Map.held (c : Env) (m : Map V) : Multiset (Nat × Nat) := m.ante.held c + ((m.post.toList.map fun p => owned c.eFree p.label).sum)

/-- Those of an insertion. -/
def Insert.held (c : Env) (i : Insert V) : Multiset (Nat × Nat) := owned c.eFree i.ante + owned c.vFree i.vertex + owned c.eFree i.post

/-- Everything made so far is different, and each thing has been freed once or is held once. -/
def Exact (w : World) (o : Multiset (Nat × Nat)) : Prop := (w.made.map Prod.fst).Nodup ∧ w.made = w.freed + o

end Cru.Request
