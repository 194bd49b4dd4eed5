import Verif.Model.Bmps
import Verif.Model.Traversal

/-!
# Model of the trace over a 2×3 block

Source: `/repo/include/qlpeps/two_dim_tn/tensor_network_2d/bmps/impl/bmps_contractor_trace.h:426-536`.
Adds the trace used for links of length √5 to the tensor operations of `Model/Bmps`.
-/

namespace QLPeps.Bmps

universe u

open QLPeps.Contractor QLPeps.Sweep
open QLPeps.Peps (Tn Lib contract contractN transpose)

noncomputable section

variable {𝕜 : Type u} [RCLike 𝕜]

/-- `ReplaceSqrt5DistTwoSiteTrace` (bmps_contractor_trace.h:426-536): near two-layer boundary tensor;
at each of the three positions the tensors of the first-side and second-side boundary MPS and the site
tensors of the first and second slice; far boundary tensor. The vertical version starts at the
bottom. -/
def sq5Op : Orient → Tn 𝕜 → (Tn 𝕜 × Tn 𝕜 × Tn 𝕜 × Tn 𝕜) → (Tn 𝕜 × Tn 𝕜 × Tn 𝕜 × Tn 𝕜) →
    (Tn 𝕜 × Tn 𝕜 × Tn 𝕜 × Tn 𝕜) → Tn 𝕜 → 𝕜
  | .horizontal, left, (up1, down1, x0, x1), (up2, down2, x2, x3), (up3, down3, x4, x5), right =>
    let mpo0 := transpose [3, 0, 2, 1] x0
    let mpo2 := transpose [3, 0, 2, 1] x2
    let mpo5 := transpose [1, 2, 0, 3] x5
    let tmp0 := contract up1 2 left 0
    let tmp1 := contract2 tmp0 1 mpo0 0
    let tmp2 := contract2 tmp1 4 x1 3
    let tmp3 := contractN tmp2 [0, 3] down1 [0, 1]
    let tmp4 := contract down3 2 right 0
    let tmp5 := contract2 tmp4 1 mpo5 0
    let tmp6 := contract2 tmp5 4 x4 1
    let tmp7 := contractN tmp6 [0, 3] up3 [0, 1]
    let tmp8 := contract up2 2 tmp3 0
    let tmp9 := contract2 tmp8 1 mpo2 0
    let tmp10 := contract2 tmp9 4 x3 3
    let tmp11 := contractN tmp10 [0, 3] down2 [0, 1]
    (contractN tmp11 [0, 1, 2, 3] tmp7 [3, 2, 1, 0]).elem []
  | .vertical, top, (left1, right1, x4, x5), (left2, right2, x2, x3), (left3, right3, x0, x1), bottom =>
    let mpo0 := transpose [0, 1, 3, 2] x0
    let mpo2 := transpose [0, 1, 3, 2] x2
    let mpo5 := transpose [2, 3, 1, 0] x5
    let tmp0 := contract left3 2 bottom 0
    let tmp1 := contract2 tmp0 1 mpo0 0
    let tmp2 := contract2 tmp1 4 x1 0
    let tmp3 := contractN tmp2 [0, 3] right3 [0, 1]
    let tmp4 := contract right1 2 top 0
    let tmp5 := contract2 tmp4 1 mpo5 0
    let tmp6 := contract2 tmp5 4 x4 2
    let tmp7 := contractN tmp6 [0, 3] left1 [0, 1]
    let tmp8 := contract left2 2 tmp3 0
    let tmp9 := contract2 tmp8 1 mpo2 0
    let tmp10 := contract2 tmp9 4 x3 0
    let tmp11 := contractN tmp10 [0, 3] right2 [0, 1]
    (contractN tmp11 [0, 1, 2, 3] tmp7 [3, 2, 1, 0]).elem []

/-- the tensor operations of the contractor with the trace over a 2×3 block -/
def tensorOps5 (lib : Lib 𝕜) (rows cols : ℕ) :
    Ops5 (Tn 𝕜) (Tn 𝕜) (List (Tn 𝕜)) (Tn 𝕜) (Tn 𝕜) 𝕜 (Tn 𝕜) where
  toOps := tensorOps lib rows cols
  sq5 := sq5Op

end

end QLPeps.Bmps
