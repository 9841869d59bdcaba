import Verif.Model.Fold

/-! # No error is lost (C143) -/

namespace Cru.Fold

/-- From `w` to `w'`, no error has been lost: if there's none in the end, there was none in the beginning, and no user function or allocation has
failed in between. -/
structure Says (w w' : World) : Prop where
  err : w'.err = 0 → w.err = 0
  upset : w'.err = 0 → w'.upset = true → w.upset = true

end Cru.Fold
