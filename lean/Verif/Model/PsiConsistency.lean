import Mathlib.Analysis.RCLike.Basic
import Mathlib.Data.List.Basic
import Mathlib.Algebra.BigOperators.Group.List.Basic

/-!
# Consistency of the amplitudes of one configuration

Model of `algorithm/vmc_update/psi_consistency.h`. Doubles are real numbers, `std::complex<double>` is
`ℂ`; both are instances of `RCLike`. `std::abs` is the norm.
-/

namespace QLPeps.Psi

variable {𝕜 : Type*} [RCLike 𝕜]

/-- `kReferenceTol` (psi_consistency.h:131). -/
noncomputable def refTol : ℝ := 1 / 10 ^ 14

/-- `std::numeric_limits<double>::epsilon()`, the floor of the denominator (psi_consistency.h:163). -/
noncomputable def eps : ℝ := 1 / 2 ^ 52

/-- The loop for the reference (psi_consistency.h:132-140): magnitude and index of the first entry of
largest magnitude, `(0, 0)` if all entries vanish. -/
noncomputable def reference (l : List 𝕜) : ℝ × ℕ :=
  l.zipIdx.foldl (fun acc p => if acc.1 < ‖p.1‖ then (‖p.1‖, p.2) else acc) (0, 0)

/-- The body of the alignment loop (psi_consistency.h:150-156). -/
noncomputable def alignOne (valid : Prop) [Decidable valid] (ref v : 𝕜) : 𝕜 :=
  if valid then (if RCLike.re (v * (starRingEnd 𝕜) ref) < 0 then -v else v) else v

/-- The aligned amplitudes (psi_consistency.h:141-159). -/
noncomputable def aligned (l : List 𝕜) : List 𝕜 :=
  let r := reference l
  l.map (alignOne (refTol < r.1) (l.getD r.2 0))

/-- The mean (psi_consistency.h:144, 158, 160). -/
noncomputable def mean (l : List 𝕜) : 𝕜 :=
  (aligned l).foldl (· + ·) 0 / ((l.length : ℝ) : 𝕜)

/-- The largest deviation from the mean (psi_consistency.h:164-167). -/
noncomputable def maxDev (a : List 𝕜) (m : 𝕜) : ℝ :=
  a.foldl (fun d v => max d ‖v - m‖) 0

/-- `PsiConsistencySummary` (psi_consistency.h:105-109). -/
structure Summary (𝕜 : Type*) where
  mean : 𝕜
  relErr : ℝ

/-- `ComputePsiConsistencySummaryAligned` (psi_consistency.h:120-172). -/
noncomputable def summary (l : List 𝕜) : Summary 𝕜 :=
  if l.isEmpty then ⟨0, 0⟩
  else ⟨mean l, maxDev (aligned l) (mean l) / max ‖mean l‖ eps⟩

end QLPeps.Psi
