import Verif.Model.UpdateRules

/-!
# The step along the natural gradient

Models `Optimizer::StochasticReconfigurationUpdate` (include/qlpeps/optimizer/optimizer_impl.h:1091-1120) after
the natural gradient has been computed (`CalculateNaturalGradient`, :1033-1088, see Model/SR and Model/CG).
Simplifications: as in Model/UpdateRules; the master rank only (the other ranks return their input, :1115).
-/

namespace QLPeps.SRStep

open QLPeps.UpdateRules

variable {ι 𝕜 : Type*} [Fintype ι] [RCLike 𝕜]

/-- optimizer_impl.h:1107-1111: the learning rate is divided by the norm of the natural gradient `x` if
`normalize` is set and the norm is positive -/
noncomputable def srRate (x : Wf ι 𝕜) (lr : ℝ) (normalize : Bool) : ℝ :=
  if normalize ∧ 0 < Real.sqrt (normSquare x) then lr / Real.sqrt (normSquare x) else lr

/-- optimizer_impl.h:1113-1117 -/
noncomputable def srUpdate (θ x : Wf ι 𝕜) (lr : ℝ) (normalize : Bool) : Wf ι 𝕜 :=
  θ + ((-srRate x lr normalize : ℝ) : 𝕜) • x

end QLPeps.SRStep
