import Verif.Model.Merge
import Verif.Model.MergeAcc
import Verif.Model.Infer

/-!
# Merging without a classifier (infer.c, merge.c)
-/

namespace Cru.Merge

variable {N X : Type}

/-- The classifier inferred for a merger that has neither a classifier nor a vertex operation (infer.c:347-355): the property of a vertex is the
vertex itself, which is a word that may be null (repl.c:288-301), and `_cru_false_bpred` (repl.c:88-97) is the equality predicate.  The hash function
is that of scalars; here it's any. -/
def unrelated (word : N → Option X) (hash : Option X → Nat) : Partition.Classifier N X where
  map _ m := (word m, 0)
  hash := hash
  equal _ _ _ := (false, 0)
  destroy _ _ := 0

end Cru.Merge
