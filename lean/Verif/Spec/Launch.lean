import Verif.Model.Net

/-! # Vocabulary for operations that can't be started (C133) -/

namespace Cru.Launch

open Cru.Net

variable {n : Nat} {E : Type}

/-- What others do to the job state in the course of an execution, in order. -/
def events : List (Action n E) → List E
  | [] => []
  | .env e :: as => e :: events as
  | _ :: as => events as

/-- How many steps of an execution are those of the calling thread or a worker. -/
def moves : List (Action n E) → Nat
  | [] => 0
  | .env _ :: as => moves as
  | _ :: as => moves as + 1

/-- The calling thread never wakes up spuriously.  Workers may. -/
def Steady (as : List (Action n E)) : Prop := Action.spuriousMain ∉ as

end Cru.Launch
