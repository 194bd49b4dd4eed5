import Verif.Model.SRStep
import Verif.Spec.SRStep
import Verif.Props.SR

/-!
# Property C161: natural gradient steps do not depend on the scale of the tensors of a site

When the tensors of a site (the elements in the places `I`) are multiplied by `k`, the samples of `O*` and the
gradient are divided by the complex conjugate of `k` there (C160). Without diagonal shift and without
normalization the step along the natural gradient is then the same step of the same physical state. The plain
gradient step is not, and neither are natural gradient steps with diagonal shift or normalization.
-/

namespace QLPeps.SRStep

open Spec
open QLPeps.UpdateRules QLPeps.SR

noncomputable section

variable {ι 𝕜 : Type*} [Fintype ι] [DecidableEq ι] [RCLike 𝕜]

theorem rescale_apply (I : Finset ι) (k : 𝕜) (θ : Wf ι 𝕜) (i : ι) :
    rescale I k θ i = (if i ∈ I then k else 1) * θ i := by
  unfold rescale
  by_cases h : i ∈ I <;> simp [h]

/-- rescaling is linear -/
def rescaleL (I : Finset ι) (k : 𝕜) : Wf ι 𝕜 →ₗ[𝕜] Wf ι 𝕜 where
  toFun := rescale I k
  map_add' x y := by ext i; simp only [rescale_apply, PiLp.add_apply]; ring
  map_smul' c x := by ext i; simp only [rescale_apply, PiLp.smul_apply, smul_eq_mul, RingHom.id_apply]; ring

theorem rescale_rescale (I : Finset ι) (k l : 𝕜) (x : Wf ι 𝕜) :
    rescale I k (rescale I l x) = rescale I (k * l) x := by
  ext i
  simp only [rescale_apply]
  by_cases h : i ∈ I <;> simp [h, mul_assoc]

theorem rescale_one (I : Finset ι) (x : Wf ι 𝕜) : rescale I 1 x = x := by
  ext i
  simp [rescale_apply]

theorem inner_rescale (I : Finset ι) {k : 𝕜} (hk : k ≠ 0) (o v : Wf ι 𝕜) :
    inner 𝕜 (rescale I (star k)⁻¹ o) (rescale I k v) = inner 𝕜 o v := by
  simp only [PiLp.inner_apply, rescale_apply, RCLike.inner_apply]
  refine Finset.sum_congr rfl fun i _ => ?_
  by_cases h : i ∈ I
  · simp only [h, if_true, map_mul, map_inv₀, RCLike.star_def, RCLike.conj_conj]
    field_simp
  · simp [h]

theorem all_map {P : ℕ} (samples : Fin P → List (Wf ι 𝕜)) (f : Wf ι 𝕜 → Wf ι 𝕜) :
    all (fun r => (samples r).map f) = (all samples).map f := by
  unfold all
  rw [← Multiset.coe_mapAddMonoidHom, map_sum]
  rfl

theorem mean_map (s : Multiset (Wf ι 𝕜)) (L : Wf ι 𝕜 →ₗ[𝕜] Wf ι 𝕜) : mean 𝕜 (s.map L) = L (mean 𝕜 s) := by
  unfold mean
  rw [Multiset.card_map, map_smul, map_multiset_sum]

theorem cov_rescale (I : Finset ι) {k : 𝕜} (hk : k ≠ 0) (s : Multiset (Wf ι 𝕜)) (v : Wf ι 𝕜) :
    cov 𝕜 (s.map (rescale I (star k)⁻¹)) (rescale I k v) = rescale I (star k)⁻¹ (cov 𝕜 s v) := by
  have hm : mean 𝕜 (s.map (rescale I (star k)⁻¹)) = rescale I (star k)⁻¹ (mean 𝕜 s) :=
    mean_map s (rescaleL I (star k)⁻¹)
  have hs : ∀ o, rescale I (star k)⁻¹ o - rescale I (star k)⁻¹ (mean 𝕜 s) = rescale I (star k)⁻¹ (o - mean 𝕜 s) :=
    fun o => (map_sub (rescaleL I (star k)⁻¹) o (mean 𝕜 s)).symm
  unfold cov
  rw [Multiset.card_map, Multiset.map_map, hm]
  refine Eq.trans ?_ (map_smul (rescaleL I (star k)⁻¹) _ _).symm
  rw [map_multiset_sum, Multiset.map_map]
  congr 2
  refine Multiset.map_congr rfl fun o _ => ?_
  simp only [Function.comp, hs, inner_rescale I hk]
  exact (map_smul (rescaleL I (star k)⁻¹) _ _).symm

/-- **C161.** The equations of the natural gradient: `x` solves them for the state if and only if the
rescaled `x` solves them for the rescaled state. -/
theorem sr_equation_scale {P B : ℕ} (hP : 0 < P) (hB : 0 < B) (samples : Fin P → List (Wf ι 𝕜))
    (hlen : ∀ r, (samples r).length = B) (I : Finset ι) {k : 𝕜} (hk : k ≠ 0) (x g : Wf ι 𝕜) :
    Applied (fun r => (samples r).map (rescale I (star k)⁻¹)) (0 : 𝕜) (rescale I k x) (rescale I (star k)⁻¹ g) ↔
      Applied samples (0 : 𝕜) x g := by
  have hk' : star k ≠ 0 := star_ne_zero.2 hk
  rw [C41_apply hP hB _ (fun r => by rw [List.length_map, hlen]), C41_apply hP hB samples hlen, zero_smul, add_zero,
    zero_smul, add_zero, all_map, cov_rescale I hk]
  constructor
  · intro h
    have := congrArg (rescale I (star k)) h
    rwa [rescale_rescale, rescale_rescale, mul_inv_cancel₀ hk', rescale_one, rescale_one] at this
  · intro h; rw [h]

/-- **C161.** Every natural gradient step of the rescaled state is the rescaled natural gradient step of
the state, without diagonal shift and without normalization. -/
theorem sr_step_scale {P B : ℕ} (hP : 0 < P) (hB : 0 < B) (samples : Fin P → List (Wf ι 𝕜))
    (hlen : ∀ r, (samples r).length = B) (I : Finset ι) {k : 𝕜} (hk : k ≠ 0) (θ x' g : Wf ι 𝕜) (lr : ℝ)
    (h : Applied (fun r => (samples r).map (rescale I (star k)⁻¹)) (0 : 𝕜) x' (rescale I (star k)⁻¹ g)) :
    ∃ x, Applied samples (0 : 𝕜) x g ∧
      srUpdate (rescale I k θ) x' lr false = rescale I k (srUpdate θ x lr false) := by
  have e : rescale I k (rescale I k⁻¹ x') = x' := by
    rw [rescale_rescale, mul_inv_cancel₀ hk, rescale_one]
  refine ⟨rescale I k⁻¹ x', (sr_equation_scale hP hB samples hlen I hk _ _).1 (by rwa [e]), ?_⟩
  have h1 : ∀ y : Wf ι 𝕜, srRate y lr false = lr := fun y => by simp [srRate]
  unfold srUpdate
  rw [h1, h1]
  refine Eq.trans ?_ (map_add (rescaleL I k) _ _).symm
  rw [map_smul]
  exact congrArg (fun y => rescale I k θ + ((-lr : ℝ) : 𝕜) • y) e.symm

/-- **C161.** The plain gradient step of the rescaled state is a step with the learning rate of the site
divided by the squared absolute value of the number. -/
theorem plain_step_scale (p : SGDParams) (hm : p.momentum ≤ 0) (hw : p.weightDecay ≤ 0) (vel : Velocity ι 𝕜)
    (I : Finset ι) {k : 𝕜} (hk : k ≠ 0) (θ g : Wf ι 𝕜) (lr : ℝ) :
    (sgdUpdate p vel (rescale I k θ) (rescale I (star k)⁻¹ g) lr).1 =
      rescale I k (sgdUpdate p vel θ (rescale I ((‖k‖ ^ 2 : ℝ) : 𝕜)⁻¹ g) lr).1 := by
  unfold sgdUpdate
  simp only [if_neg hm.not_gt, if_neg hw.not_gt]
  refine Eq.trans ?_ (map_add (rescaleL I k) _ _).symm
  rw [map_smul]
  refine congrArg (fun y => rescale I k θ + ((-lr : ℝ) : 𝕜) • y) ?_
  refine Eq.trans ?_ (rescale_rescale I k _ g).symm
  congr 1
  have hk' : star k ≠ 0 := star_ne_zero.2 hk
  rw [RCLike.ofReal_pow, ← RCLike.mul_conj, mul_inv, ← mul_assoc, mul_inv_cancel₀ hk, one_mul]
  rfl

/-- **C161.** With normalization the length of the step is the learning rate, whatever the scale. -/
theorem normalized_length (θ x : Wf ι 𝕜) (hx : x ≠ 0) (lr : ℝ) (hl : 0 ≤ lr) :
    ‖srUpdate θ x lr true - θ‖ = lr := by
  have hn : normSquare x = ‖x‖ ^ 2 := by
    rw [EuclideanSpace.norm_sq_eq]
    unfold normSquare
    refine Finset.sum_congr rfl fun i _ => ?_
    rw [RCLike.conj_mul, ← RCLike.ofReal_pow, RCLike.ofReal_re]
  have hp : 0 < ‖x‖ := norm_pos_iff.2 hx
  unfold srUpdate srRate
  rw [hn, Real.sqrt_sq hp.le, if_pos ⟨rfl, hp⟩, add_sub_cancel_left, norm_smul, RCLike.norm_ofReal, abs_neg,
    abs_of_nonneg (div_nonneg hl hp.le), div_mul_cancel₀ _ hp.ne']

/-- **C161.** With a diagonal shift the step does depend on the scale: samples 1 and 3 of one element,
gradient 2, shift 1. The solution is 1; after doubling the tensor it is 4/5 and not 2. -/
theorem shift_depends : ∃ (samples : Fin 1 → List (Wf (Fin 1) ℝ)) (x x' g : Wf (Fin 1) ℝ),
    Applied samples (1 : ℝ) x g ∧
    Applied (fun r => (samples r).map (rescale Finset.univ (star (2 : ℝ))⁻¹)) (1 : ℝ) x'
      (rescale Finset.univ (star (2 : ℝ))⁻¹ g) ∧
    srUpdate (rescale Finset.univ 2 0) x' 1 false ≠ rescale Finset.univ 2 (srUpdate 0 x 1 false) := by
  refine ⟨fun _ => [!₂[1], !₂[3]], !₂[1], !₂[4 / 5], !₂[2], ?_, ?_, ?_⟩
  · rw [C41_apply (B := 2) (by omega) (by omega) _ (fun _ => rfl)]
    ext i
    fin_cases i
    simp [cov, mean, all, PiLp.inner_apply]
    norm_num
  · rw [C41_apply (B := 2) (by omega) (by omega) _ (fun _ => rfl)]
    ext i
    fin_cases i
    simp [cov, mean, all, PiLp.inner_apply, rescale_apply]
    norm_num
  · intro h
    have := congrFun (congrArg WithLp.ofLp h) 0
    simp [srUpdate, srRate, rescale_apply] at this
    norm_num at this

/-- **C161.** So does the normalized step: along a natural gradient that has elements at the site only. -/
theorem normalized_depends : ∃ x : Wf (Fin 2) ℝ, srUpdate (rescale {0} 2 0) (rescale {0} 2 x) 1 true ≠
    rescale {0} 2 (srUpdate 0 x 1 true) := by
  refine ⟨!₂[1, 0], fun h => ?_⟩
  have := congrFun (congrArg WithLp.ofLp h) 0
  have h4 : Real.sqrt (2 * 2) = 2 := Real.sqrt_mul_self (by norm_num)
  simp [srUpdate, srRate, rescale_apply, normSquare, Fin.sum_univ_two, h4] at this

/-- a nontrivial case: two processes with two samples each, complex numbers, the second element multiplied
by `2i` -/
example (θ x' g : Wf (Fin 2) ℂ) (lr : ℝ)
    (h : Applied (fun r : Fin 2 => [!₂[(1 : ℂ), r + 1], !₂[0, 3]].map (rescale {1} (star (2 * Complex.I))⁻¹)) (0 : ℂ) x'
      (rescale {1} (star (2 * Complex.I))⁻¹ g)) :
    ∃ x, Applied (fun r : Fin 2 => [!₂[(1 : ℂ), r + 1], !₂[0, 3]]) (0 : ℂ) x g ∧
      srUpdate (rescale {1} (2 * Complex.I) θ) x' lr false = rescale {1} (2 * Complex.I) (srUpdate θ x lr false) :=
  sr_step_scale (by omega) (B := 2) (by omega) _ (fun _ => rfl) {1} (by simp) θ x' g lr h

end

end QLPeps.SRStep
