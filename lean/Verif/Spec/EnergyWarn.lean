import Verif.Model.EnergyWarn

/-!
# What is to be warned about
-/

namespace QLPeps.EnergyWarn.Spec

open QLPeps.Psi

variable {𝕜 : Type*} [RCLike 𝕜]

/-- the samples of gradient evaluations whose relative error exceeds the threshold, in the order of time, with the number of
elements to be printed at their time -/
noncomputable def exceeding (t : ℝ) : ℕ → List (Event 𝕜) → List (List 𝕜 × ℕ)
  | _, [] => []
  | k, .sample l :: evs => open Classical in if t < (summary l).relErr then (l, k) :: exceeding t k evs else exceeding t k evs
  | _, .setMaxPrint k :: evs => exceeding t k evs
  | k, _ :: evs => exceeding t k evs

/-- the amplitudes of the last sample that was evaluated -/
def lastSample : List (Event 𝕜) → Option (List 𝕜)
  | [] => none
  | .sample l :: evs => some ((lastSample evs).getD l)
  | .energyOnly l :: evs => some ((lastSample evs).getD l)
  | _ :: evs => lastSample evs

end QLPeps.EnergyWarn.Spec
