import Verif.Model.UpdateRules

/-!
# Specification: the size of the tensors of a site
-/

namespace QLPeps.GradStep.Spec

open QLPeps.UpdateRules

noncomputable section

variable {ι 𝕜 : Type*} [Fintype ι] [RCLike 𝕜]

/-- squared norm of the tensors of a site; `I` are the places of their elements -/
def siteNormSq (I : Finset ι) (θ : Wf ι 𝕜) : ℝ := ∑ i ∈ I, ‖θ i‖ ^ 2

/-- the gradient has no component along the tensors of the site -/
def SiteOrth (I : Finset ι) (θ g : Wf ι 𝕜) : Prop := ∑ i ∈ I, (starRingEnd 𝕜) (θ i) * g i = 0

/-- in every iteration of the history the gradient has no component along the tensors the site has
at that moment -/
def OrthHistory (p : SGDParams) (I : Finset ι) (θ : Wf ι 𝕜) (h : List (ℝ × Wf ι 𝕜)) : Prop :=
  ∀ k a, h[k]? = some a → SiteOrth I (sgdRun p θ (h.take k)).1 a.2

end

end QLPeps.GradStep.Spec
