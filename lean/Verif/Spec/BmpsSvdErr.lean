import Verif.Spec.BmpsVar

/-!
# Specification for the compression of the boundary MPS with singular value decompositions
-/

namespace QLPeps.BmpsVar.Spec

open QLPeps.Peps (Tn Lib)

noncomputable section

variable {𝕜 : Type*} [RCLike 𝕜]

/-- `SVD` of a three-leg tensor, with the first leg as rows, keeps at most `D` singular values -/
def AtMost (lib : Lib 𝕜) (D : ℕ) : Prop := ∀ t : Tn 𝕜, t.shape.length = 3 → (lib.svd t 1).s.dim ≤ D

/-- `SVD` of a three-leg tensor discards at most the part `ε` of its squared norm -/
def Discards (lib : Lib 𝕜) (ε : ℝ) : Prop :=
  ∀ t : Tn 𝕜, t.shape.length = 3 → (1 - ε) * normSq t.shape t.elem ≤
    ∑ m ∈ Finset.range (lib.svd t 1).s.dim, (lib.svd t 1).s.val m ^ 2

end

end QLPeps.BmpsVar.Spec
