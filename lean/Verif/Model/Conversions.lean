import Verif.Model.SplitIndex

/-!
# Model of the conversions between the state classes

Source: `/repo/include/qlpeps/api/conversions.h`.
-/

namespace QLPeps.Conversions

open QLPeps.Peps (Tn Peps toTps)
open QLPeps.SplitIndex (fromTPS toTn)

noncomputable section

variable {𝕜 : Type*} [RCLike 𝕜]

/-- `ToSplitIndexTPS(tps)`, `SplitPhyIndex(tps)` (conversions.h:45-49, 66-70) -/
def splitTps (t : QLPeps.Tps.Tps 𝕜) : Site → List (Tn 𝕜) := fromTPS fun s => toTn (t.ten s.1 s.2)

/-- `ToSplitIndexTPS(peps)` (conversions.h:55-59); `none` if `ToTPS` ends the program -/
def splitPeps (p : Peps 𝕜) : Option (Site → List (Tn 𝕜)) := (toTps p).map splitTps

end

end QLPeps.Conversions
