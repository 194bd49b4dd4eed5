import Mathlib.Analysis.RCLike.Basic
import Mathlib.Analysis.Real.Sqrt
import Mathlib.Analysis.InnerProductSpace.PiL2

/-!
# First-order update rules of the optimizer

Models the gradient preprocessing of `Optimizer::IterativeOptimize`
(include/qlpeps/optimizer/optimizer_impl.h:305-318), `SGDUpdate` (:947-997), `SGDPreviewUpdate_`
(:999-1029), `AdaGradUpdate` (:1250-1307), `AdamUpdate` (:1309-1396), and the element-wise operations of
`SplitIndexTPS` they use (include/qlpeps/two_dim_tn/tps/split_index_tps_impl.h:170-177, 505-580).

Simplifications: a wave function (`SplitIndexTPS`) is the family of its tensor elements, a vector indexed
by a finite type `ι` with entries in `𝕜 = ℝ` or `ℂ`; default (unallocated) tensors are zero entries.
Real arithmetic is exact. Only the master rank is modelled (the other ranks return their input and keep
no optimizer state). `QLTensor::ElementWiseClipTo` and `ElementWiseInv` belong to the external tensor
library: the first is modelled by its documentation (split_index_tps.h:498-508), the second is a
parameter `inv`, of which the theorems assume only that it is a guarded reciprocal.
`ElementWiseSquaredNorm` (split_index_tps_impl.h:505-523) replaces `z` by `|z|²`, here `‖z‖ ^ 2`.
-/

namespace QLPeps.UpdateRules

variable {ι 𝕜 : Type*} [Fintype ι] [RCLike 𝕜]

/-- a wave function or gradient: all tensor elements -/
abbrev Wf (ι 𝕜 : Type*) [Fintype ι] := EuclideanSpace 𝕜 ι

/-- `QLTensor::ElementWiseClipTo` on one element, as documented in split_index_tps.h:498-508:
if `|g| > c` then `polar(c, arg g)` else unchanged. -/
noncomputable def clipElem (c : ℝ) (z : 𝕜) : 𝕜 := if c < ‖z‖ then ((c / ‖z‖ : ℝ) : 𝕜) * z else z

/-- split_index_tps_impl.h:565-570 `ElementWiseClipTo` -/
noncomputable def elementWiseClipTo (c : ℝ) (g : Wf ι 𝕜) : Wf ι 𝕜 := WithLp.toLp 2 fun i => clipElem c (g i)

/-- split_index_tps_impl.h:170-177 `NormSquare`: sum of `re (conj z * z)` over all elements -/
noncomputable def normSquare (g : Wf ι 𝕜) : ℝ := ∑ i, RCLike.re ((starRingEnd 𝕜) (g i) * g i)

/-- split_index_tps_impl.h:572-580 `ClipByGlobalNorm` -/
noncomputable def clipByGlobalNorm (c : ℝ) (g : Wf ι 𝕜) : Wf ι 𝕜 :=
  let r := Real.sqrt (normSquare g)
  if 0 < r ∧ c < r then ((c / r : ℝ) : 𝕜) • g else g

/-- optimizer_impl.h:307-318: gradient preprocessing; `clip_value` first, then `clip_norm`; only for
SGD, AdaGrad and Adam (`IsFirstOrder`, optimizer_params.h:470-472); absent or nonpositive limits do
nothing -/
noncomputable def preprocess (firstOrder : Bool) (clipValue clipNorm : Option ℝ) (g : Wf ι 𝕜) : Wf ι 𝕜 :=
  if firstOrder then
    let g₁ := match clipValue with
      | some c => if 0 < c then elementWiseClipTo c g else g
      | none => g
    match clipNorm with
    | some c => if 0 < c then clipByGlobalNorm c g₁ else g₁
    | none => g₁
  else g

/-! ## SGD -/

/-- optimizer_params.h:69-76 `SGDParams` -/
structure SGDParams where
  momentum : ℝ
  nesterov : Bool
  weightDecay : ℝ

/-- the velocity: `none` before the first update (`sgd_momentum_initialized_ = false`) -/
abbrev Velocity (ι 𝕜 : Type*) [Fintype ι] := Option (Wf ι 𝕜)

/-- optimizer_impl.h:947-997 `SGDUpdate`: the updated state and the new velocity -/
noncomputable def sgdUpdate (p : SGDParams) (vel : Velocity ι 𝕜) (θ g : Wf ι 𝕜) (lr : ℝ) :
    Wf ι 𝕜 × Velocity ι 𝕜 :=
  let v := vel.getD 0
  let θ₁ := if 0 < p.weightDecay then ((1 - lr * p.weightDecay : ℝ) : 𝕜) • θ else θ
  if 0 < p.momentum then
    let v₁ := (p.momentum : 𝕜) • v + g
    if p.nesterov then (θ₁ + ((-lr : ℝ) : 𝕜) • ((p.momentum : 𝕜) • v₁ + g), some v₁)
    else (θ₁ + ((-lr : ℝ) : 𝕜) • v₁, some v₁)
  else (θ₁ + ((-lr : ℝ) : 𝕜) • g, some v)

/-- optimizer_impl.h:999-1029 `SGDPreviewUpdate_`; the method is `const`: it returns the state only -/
noncomputable def sgdPreview (p : SGDParams) (vel : Velocity ι 𝕜) (θ g : Wf ι 𝕜) (lr : ℝ) : Wf ι 𝕜 :=
  let θ₁ := if 0 < p.weightDecay then ((1 - lr * p.weightDecay : ℝ) : 𝕜) • θ else θ
  if 0 < p.momentum then
    let v := match vel with
      | some v => v
      | none => 0
    let v₁ := (p.momentum : 𝕜) • v + g
    if p.nesterov then θ₁ + ((-lr : ℝ) : 𝕜) • ((p.momentum : 𝕜) • v₁ + g)
    else θ₁ + ((-lr : ℝ) : 𝕜) • v₁
  else θ₁ + ((-lr : ℝ) : 𝕜) • g

/-- one SGD iteration on (state, velocity) with the learning rate and gradient of that iteration -/
noncomputable def sgdStep (p : SGDParams) (s : Wf ι 𝕜 × Velocity ι 𝕜) (a : ℝ × Wf ι 𝕜) :
    Wf ι 𝕜 × Velocity ι 𝕜 := sgdUpdate p s.2 s.1 a.2 a.1

/-- a history of SGD iterations from a fresh optimizer -/
noncomputable def sgdRun (p : SGDParams) (θ : Wf ι 𝕜) (h : List (ℝ × Wf ι 𝕜)) :
    Wf ι 𝕜 × Velocity ι 𝕜 := h.foldl (sgdStep p) (θ, none)

/-! ## AdaGrad -/

/-- AdaGrad's state: `none` before the first update, then the accumulated squared gradients. They are
real numbers stored in the element type. -/
abbrev Accum (ι : Type*) := Option (ι → ℝ)

/-- optimizer_impl.h:1250-1307 `AdaGradUpdate`. `init` = `initial_accumulator_value`, `inv` =
`ElementWiseInv(epsilon)`. The accumulator and the adaptive rates have nonnegative real elements for real
and complex tensors alike (`ElementWiseSqrt` of them is the real square root), so they are kept in `ℝ`. -/
noncomputable def adaGradUpdate (init : ℝ) (inv : ℝ → ℝ) (acc : Accum ι) (θ g : Wf ι 𝕜) (lr : ℝ) :
    Wf ι 𝕜 × Accum ι :=
  let a := acc.getD fun _ => init
  let a₁ := fun i => a i + ‖g i‖ ^ 2
  (WithLp.toLp 2 fun i => θ i + -(((inv (Real.sqrt (a₁ i)) : ℝ) : 𝕜) * g i * ((lr : ℝ) : 𝕜)), some a₁)

noncomputable def adaGradStep (init : ℝ) (inv : ℝ → ℝ) (s : Wf ι 𝕜 × Accum ι) (a : ℝ × Wf ι 𝕜) :
    Wf ι 𝕜 × Accum ι := adaGradUpdate init inv s.2 s.1 a.2 a.1

noncomputable def adaGradRun (init : ℝ) (inv : ℝ → ℝ) (θ : Wf ι 𝕜) (h : List (ℝ × Wf ι 𝕜)) :
    Wf ι 𝕜 × Accum ι := h.foldl (adaGradStep init inv) (θ, none)

/-! ## Adam -/

/-- optimizer_params.h:82-90 `AdamParams` without epsilon (the parameter `inv`) -/
structure AdamParams where
  beta1 : ℝ
  beta2 : ℝ
  weightDecay : ℝ

/-- Adam's state: both moments and the time step -/
structure AdamSt (ι 𝕜 : Type*) [Fintype ι] where
  m : Wf ι 𝕜
  v : ι → ℝ
  t : ℕ

/-- optimizer_impl.h:1337-1355: lazy initialization -/
noncomputable def AdamSt.fresh : AdamSt ι 𝕜 := ⟨0, fun _ => 0, 0⟩

/-- the bias-corrected moments of a state: optimizer_impl.h:1372-1378 -/
noncomputable def mHat (p : AdamParams) (s : AdamSt ι 𝕜) : Wf ι 𝕜 :=
  ((1 / (1 - p.beta1 ^ s.t) : ℝ) : 𝕜) • s.m

noncomputable def vHat (p : AdamParams) (s : AdamSt ι 𝕜) (i : ι) : ℝ :=
  (1 / (1 - p.beta2 ^ s.t)) * s.v i

/-- optimizer_impl.h:1357-1370: the moments after one gradient -/
noncomputable def moments (p : AdamParams) (s : AdamSt ι 𝕜) (g : Wf ι 𝕜) : AdamSt ι 𝕜 where
  t := s.t + 1
  m := (p.beta1 : 𝕜) • s.m + ((1 - p.beta1 : ℝ) : 𝕜) • g
  v := fun i => p.beta2 * s.v i + (1 - p.beta2) * ‖g i‖ ^ 2

/-- optimizer_impl.h:1327-1396 `AdamUpdate` -/
noncomputable def adamUpdate (p : AdamParams) (inv : ℝ → ℝ) (st : Option (AdamSt ι 𝕜)) (θ g : Wf ι 𝕜)
    (lr : ℝ) : Wf ι 𝕜 × Option (AdamSt ι 𝕜) :=
  let s₁ := moments p (st.getD .fresh) g
  let θ₁ := if 0 < p.weightDecay then ((1 - lr * p.weightDecay : ℝ) : 𝕜) • θ else θ
  (WithLp.toLp 2 fun i =>
    θ₁ i + -(((inv (Real.sqrt (vHat p s₁ i)) : ℝ) : 𝕜) * mHat p s₁ i * ((lr : ℝ) : 𝕜)), some s₁)

noncomputable def adamStep (p : AdamParams) (inv : ℝ → ℝ) (s : Wf ι 𝕜 × Option (AdamSt ι 𝕜))
    (a : ℝ × Wf ι 𝕜) : Wf ι 𝕜 × Option (AdamSt ι 𝕜) := adamUpdate p inv s.2 s.1 a.2 a.1

noncomputable def adamRun (p : AdamParams) (inv : ℝ → ℝ) (θ : Wf ι 𝕜) (h : List (ℝ × Wf ι 𝕜)) :
    Wf ι 𝕜 × Option (AdamSt ι 𝕜) := h.foldl (adamStep p inv) (θ, none)

end QLPeps.UpdateRules
