import Verif.Model.Errs
import Verif.Model.Infer
import Verif.Model.Orders
import Verif.Model.Build
import Verif.Model.Free
import Verif.Model.Wrap
import Verif.Model.Locate
import Verif.Model.Table
import Verif.Model.Coverage
import Verif.Model.Induce

/-! # C47: the messages for the error codes that other properties are about -/

namespace Cru.Errs

/-- The error codes raised in other parts of the model and what the manual says they mean (include/cru/error_codes.h, src/errs.c:196-250). -/
def meanings : List (Int × String) :=
  [(Free.badGph, "cru: invalid or corrupted graph"),
   (Wrap.devDbf, "cru: double free"),
   (Wrap.devIal, "cru: inconsistent allocation limits"),
   (Wrap.devMlk, "cru: memory leak"),
   (Infer.INCCON, "cru: inconsistent connectors in build specification"),
   (Infer.INCFIL, "cru: inconsistent filter specification"),
   (Locate.incInv, "cru: inconsistent initial vertex in zone"),
   (Infer.INCMRG, "cru: inconsistent merge specification"),
   (Infer.INCMUT, "cru: inconsistent mutations"),
   (Infer.INCSPB, "cru: inconsistent spreading builder"),
   (Infer.INCVEL, "cru: inconsistent vertex equality relation"),
   (Build.intKil, "cru: user interrupt"),
   (Build.intOvf, "cru: vertex limit exceeded during build or expansion"),
   (Infer.NULCSF, "cru: null classifier specification"),
   (Table.PARDPV, "cru: duplicate vertices detected while partitioning"),
   (Infer.TPCMPR, "cru: type conflict in map reduction destructors"),
   (Mutate.tpcMut, "cru: type conflict in mutated destructors"),
   (Infer.UNDANA, "cru: undefined ana function in splitter"),
   (Infer.UNDCAT, "cru: undefined cata function in splitter"),
   (Infer.UNDCBO, "cru: undefined conditional binary operator"),
   (Infer.UNDCON, "cru: undefined connectors in build specification"),
   (Infer.UNDCQO, "cru: undefined conditional quartenary operator"),
   (Infer.UNDCTO, "cru: undefined conditional ternary operator"),
   (Infer.UNDEFB, "cru: undefined edge fabricator"),
   (Infer.UNDEPR, "cru: undefined edge product operator in crosser"),
   (Infer.UNDEQU, "cru: undefined equality relation"),
   (Infer.UNDEXP, "cru: undefined predicate in stretcher specification"),
   (Infer.UNDHSH, "cru: undefined hash function"),
   (Infer.UNDMAP, "cru: undefined map in fold specification"),
   (Infer.UNDPOP, "cru: undefined postponable predicate in postponer"),
   (Infer.UNDRED, "cru: undefined reduction in fold specification"),
   (Infer.UNDVAC, "cru: undefined vacuous case in fold specification"),
   (Induce.undVac.1, "cru: undefined vacuous case in fold specification"),
   (Infer.UNDVFB, "cru: undefined vertex fabricator"),
   (Infer.UNDVPR, "cru: undefined vertex product operator in crosser")]

/-- **C47.** `cru_strerror` has the message for each of the error codes that other properties are about. -/
theorem C47_named (lo hi : Int) : ∀ x ∈ meanings, strerror lo hi x.1 = some (.text x.2) := by
  have h : ∀ x ∈ meanings, x.1 < 0 ∧ texts.lookup x.1 = some x.2 := by decide +kernel
  intro x hx
  obtain ⟨h1, h2⟩ := h x hx
  unfold strerror
  rw [if_neg (by omega), h2]

/-- For example, an operation that was killed reports a user interrupt. -/
example : strerror 1 511 Build.intKil = some (.text "cru: user interrupt") := C47_named 1 511 (Build.intKil, "cru: user interrupt") (by decide +kernel)

end Cru.Errs
