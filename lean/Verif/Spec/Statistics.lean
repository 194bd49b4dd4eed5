import Mathlib.Analysis.RCLike.Basic
import Mathlib.Analysis.SpecialFunctions.Sqrt

/-! # Specification: textbook statistics of a list of numbers -/

namespace QLPeps.Statistics

variable {𝕜 : Type*} [RCLike 𝕜]

/-- arithmetic mean -/
noncomputable def average (l : List 𝕜) : 𝕜 := l.sum / (l.length : 𝕜)

/-- population variance: the mean squared distance from the mean -/
noncomputable def popVariance (l : List 𝕜) : ℝ :=
  (l.map (fun x => ‖x - average l‖ ^ 2)).sum / (l.length : ℝ)

/-- standard error of the mean -/
noncomputable def stdError (l : List 𝕜) : ℝ := Real.sqrt (popVariance l / ((l.length : ℝ) - 1))

end QLPeps.Statistics
