import Verif.Spec.ExactRun

/-!
# Specification: the direction in which a site's own tensors point
-/

namespace QLPeps.GradScale.Spec

universe u

open QLPeps.Peps (Tn)

noncomputable section

variable {𝕜 : Type u} [RCLike 𝕜]

/-- the state's own tensors at the site `p` and zero tensors at all other sites: moving along this
direction multiplies the tensors of `p` by a number, and so the whole state -/
def own (sitps : QLPeps.Site → ℕ → Tn 𝕜) (p : QLPeps.Site) : QLPeps.Site → ℕ → Tn 𝕜 :=
  fun s k => ⟨(sitps s k).shape, fun x => if s = p then (sitps s k).elem x else 0⟩

end

end QLPeps.GradScale.Spec
