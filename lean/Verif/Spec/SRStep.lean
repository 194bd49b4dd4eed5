import Verif.Model.UpdateRules

/-!
# Specification: rescaling the tensors of a site
-/

namespace QLPeps.SRStep.Spec

open QLPeps.UpdateRules

noncomputable section

variable {ι 𝕜 : Type*} [Fintype ι] [DecidableEq ι] [RCLike 𝕜]

/-- the elements in the places `I` multiplied by `k`: the same state with the tensors of a site rescaled -/
def rescale (I : Finset ι) (k : 𝕜) (θ : Wf ι 𝕜) : Wf ι 𝕜 := WithLp.toLp 2 fun i => if i ∈ I then k * θ i else θ i

end

end QLPeps.SRStep.Spec
