import Verif.Model.SetProps
import Verif.Model.Merge

/-!
# `cru_merged` with folds over incoming edges (merge.c:505-541, props.c:277-315)

This is `Model/Merge.lean` with what's left out there: any incoming edges of the given graph are removed, then they're derived if the classifier
needs them, and removed again when properties have been computed.  It's assumed that the tasks can be started, and that there's memory enough.
-/

namespace Cru.Merge

open Net Duplex

variable {n : Nat} {N V L X : Type}

/-- `_cru_merged` when it ends without an error, and isn't killed: the graph it returns.  The incoming edges are removed at merge.c:523-528, derived at
props.c:292-295 and removed at props.c:300-307; the later phases don't touch what's left of them, which `Merge.fused` leaves out.  Unlike `Partition.PartitionOf`, executions with errors are left out. -/
def MergedBy [DecidableEq N] [DecidableEq X] (c : Partition.Rule V L X) (o : EdgeOps N L) (vop : Option (List N → V)) (g : Gr N V L) (addr : N → Nat)
    (hn : 0 < n) (R : Gr N V L) : Prop :=
  ∃ inn₀, (if halfDuplex g then inn₀ = g.inn else Launched (half g.out addr hn) g inn₀ 0) ∧
    ∃ inn, Prepared c.incident addr hn { g with inn := inn₀ } inn 0 ∧
    let g' : Gr N V L := { g with inn := inn }
    ∃ x : State n N (Trav.Job n N (Partition.Mem N X)),
      Net.Reach (Partition.setTask g' (c.on g').map addr hn) g'.base (Trav.start Partition.clear) x ∧ x.main = .done ∧ x.g.killed = 0 ∧
      ∃ left, Partition.Razed addr hn g' left 0 ∧ ∃ R', Merges { g with inn := left } (c.on g') o vop addr hn x.g R' ∧ R = { R' with inn := left }

end Cru.Merge
