import Verif.Model.TrgTensor
import Verif.Spec.Trg
import Verif.Spec.Peps

/-!
# Specification for TRG contraction without truncation
-/

namespace QLPeps.Trg.Spec

open QLPeps.Peps (Tn Lib)
open QLPeps.Tps.Spec (Bond Site leg)

noncomputable section

variable {𝕜 : Type} [RCLike 𝕜]

/-- The tensors of the `n × n` torus fit together: the legs left, down, right, up of each have the dimensions of its
four bonds. -/
def Fits (n : ℕ) (ten : ℕ → ℕ → Tn 𝕜) (dim : Bond .pbc n n → ℕ) : Prop :=
  ∀ s : Site n n, (ten s.1 s.2).shape =
    [dim (leg .pbc s 0), dim (leg .pbc s 1), dim (leg .pbc s 2), dim (leg .pbc s 3)]

/-- The value of the network: the sum over all values of all bonds of the product of the elements of the tensors. -/
def value (n : ℕ) (dim : Bond .pbc n n → ℕ) (ten : ℕ → ℕ → Tn 𝕜) : 𝕜 :=
  ∑ β ∈ Fintype.piFinset fun b => Finset.range (dim b),
    ∏ s : Site n n, (ten s.1 s.2).elem [β (leg .pbc s 0), β (leg .pbc s 1), β (leg .pbc s 2), β (leg .pbc s 3)]

/-- No splitting in the caches of the contractor has discarded anything. -/
def Untruncated (lib : Lib 𝕜) (g : Trg (Tn 𝕜) (Tn 𝕜) (Iso 𝕜)) : Prop :=
  ∀ sc ∈ g.scales, ∀ i t d, sc.tens i = some t → sc.split i = some d → (factors lib d.type1 t).err = 0

end

end QLPeps.Trg.Spec
