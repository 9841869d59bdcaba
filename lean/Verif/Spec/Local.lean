import Verif.Model.Local

/-! # What callbacks should get -/

namespace Cru.Local

variable {A : Type}

/-- In thread `t`, the callback in progress is one for the job `j` invoked at the place `c`. -/
def Inside (s : Sys A) (t j : Nat) (c : Site) : Prop := ∃ th, s.threads t = some th ∧ th.frames.head? = some (j, c)

/-- In thread `t`, no callback is in progress. -/
def Outside (s : Sys A) (t : Nat) : Prop := ∀ th, s.threads t = some th → th.frames = []

/-- Whether a job has been killed by the end of a sequence of events and hasn't gone on to another task since. -/
def killedIn (j : Nat) : List (Event A) → Bool → Bool
  | [], b => b
  | .kill i :: es, b => killedIn j es (if i = j then true else b)
  | .reset i :: es, b => killedIn j es (if i = j then false else b)
  | _ :: es, b => killedIn j es b

/-- The places in worker threads where callbacks can't get the attribute. -/
def deprived : List Site := [.labeler, .mergedEdges, .property, .initial, .deduplication]

/-- The places in the thread that called the library. -/
def inCaller : List Site := [.baseFilter, .sequential, .vacuous]

end Cru.Local
