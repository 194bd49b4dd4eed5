import Mathlib.Tactic
import Mathlib.Analysis.Calculus.Deriv.Mul
import Mathlib.Analysis.Calculus.Deriv.Inv
import Mathlib.Analysis.Calculus.Deriv.Add
import Mathlib.Analysis.Calculus.Deriv.Star
import Mathlib.Analysis.Calculus.Deriv.Linear
import Verif.Lemmas.Evaluator

namespace QLPeps.Evaluator

open Finset

variable {ι X : Type*} {𝕜 : Type*} [RCLike 𝕜] [DecidableEq ι]

theorem increment_eq (s : Sample ι X 𝕜) (r : ι) (b : ℕ) (x : X) :
    increment s r b x = ((‖s.amplitude‖ ^ 2 : ℝ) : 𝕜) * logDeriv s r b x := by
  unfold increment logDeriv
  by_cases h : b = s.config r
  · rw [if_pos h, if_pos h]
    by_cases h0 : s.amplitude = 0
    · simp [h0]
    · have h1 : star s.amplitude ≠ 0 := star_ne_zero.2 h0
      have h2 : ((‖s.amplitude‖ ^ 2 : ℝ) : 𝕜) = s.amplitude * star s.amplitude := by
        have := RCLike.mul_conj s.amplitude
        rw [RCLike.star_def, this]; push_cast; rfl
      rw [h2]; field_simp
  · rw [if_neg h, if_neg h, mul_zero]

theorem normSq_eq (z : 𝕜) : ((‖z‖ ^ 2 : ℝ) : 𝕜) = star z * z := by
  have := RCLike.conj_mul z
  rw [RCLike.star_def, this]; push_cast; rfl

/-- Derivative of the quotient of a Hermitian form by the norm. -/
theorem energy_deriv (H : ℕ → ℕ → 𝕜) (n : ℕ) (hH : ∀ i j, star (H i j) = H j i)
    (ψ : ℝ → ℕ → 𝕜) (ψ' : ℕ → 𝕜) (hψ : ∀ i, HasDerivAt (fun t => ψ t i) (ψ' i) 0)
    (hW : totalWeight (ψ 0) n ≠ 0) :
    HasDerivAt (fun t => energyOf H n (ψ t))
      ((2 * RCLike.re ((∑ i ∈ range n, star (ψ' i) *
          ((∑ j ∈ range n, H i j * ψ 0 j) - star (energyOf H n (ψ 0)) * ψ 0 i))
            / ((totalWeight (ψ 0) n : ℝ) : 𝕜)) : ℝ) : 𝕜) 0 := by
  have hstar : ∀ i, HasDerivAt (fun t => star (ψ t i)) (star (ψ' i)) 0 := fun i => (hψ i).star
  have hN : HasDerivAt (fun t => ∑ i ∈ range n, ∑ j ∈ range n, star (ψ t i) * H i j * ψ t j)
      (∑ i ∈ range n, ∑ j ∈ range n,
        (star (ψ' i) * H i j * ψ 0 j + star (ψ 0 i) * H i j * ψ' j)) 0 := by
    apply HasDerivAt.fun_sum; intro i _
    apply HasDerivAt.fun_sum; intro j _
    exact ((hstar i).mul_const (H i j)).mul (hψ j)
  have hD : HasDerivAt (fun t => ((totalWeight (ψ t) n : ℝ) : 𝕜))
      (∑ i ∈ range n, (star (ψ' i) * ψ 0 i + star (ψ 0 i) * ψ' i)) 0 := by
    have e : (fun t => ((totalWeight (ψ t) n : ℝ) : 𝕜))
        = fun t => ∑ i ∈ range n, star (ψ t i) * ψ t i := by
      funext t; unfold totalWeight; rw [RCLike.ofReal_sum]
      exact sum_congr rfl fun i _ => normSq_eq _
    rw [e]
    apply HasDerivAt.fun_sum; intro i _
    exact (hstar i).mul (hψ i)
  have hW' : ((totalWeight (ψ 0) n : ℝ) : 𝕜) ≠ 0 := RCLike.ofReal_ne_zero.2 hW
  have hq := hN.div hD hW'
  refine hq.congr_deriv ?_
  set W : 𝕜 := ((totalWeight (ψ 0) n : ℝ) : 𝕜) with hWdef
  set N : 𝕜 := ∑ i ∈ range n, ∑ j ∈ range n, star (ψ 0 i) * H i j * ψ 0 j with hNdef
  have hWs : star W = W := by rw [hWdef, RCLike.star_def, RCLike.conj_ofReal]
  have hNs : star N = N := by
    rw [hNdef, star_sum, Finset.sum_comm]
    apply sum_congr rfl; intro j _
    rw [star_sum]
    apply sum_congr rfl; intro i _
    rw [star_mul', star_mul', hH, star_star]; ring
  have hE : energyOf H n (ψ 0) = N / W := rfl
  have hEs : star (N / W) = N / W := by rw [star_div₀, hNs, hWs]
  set A : 𝕜 := ∑ i ∈ range n, star (ψ' i) * ∑ j ∈ range n, H i j * ψ 0 j with hA
  set C : 𝕜 := ∑ i ∈ range n, star (ψ' i) * ψ 0 i with hC
  have e1 : (∑ i ∈ range n, ∑ j ∈ range n,
        (star (ψ' i) * H i j * ψ 0 j + star (ψ 0 i) * H i j * ψ' j)) = A + star A := by
    simp only [sum_add_distrib]
    congr 1
    · rw [hA]; apply sum_congr rfl; intro i _; rw [mul_sum]
      apply sum_congr rfl; intro j _; ring
    · rw [hA, star_sum, Finset.sum_comm]
      apply sum_congr rfl; intro j _
      rw [star_mul', star_star, star_sum, mul_sum]
      apply sum_congr rfl; intro i _
      rw [star_mul', hH]; ring
  have e2 : (∑ i ∈ range n, (star (ψ' i) * ψ 0 i + star (ψ 0 i) * ψ' i)) = C + star C := by
    rw [sum_add_distrib]
    congr 1
    rw [hC, star_sum]
    apply sum_congr rfl; intro i _
    rw [star_mul', star_star]; ring
  have e3 : (∑ i ∈ range n, star (ψ' i) *
          ((∑ j ∈ range n, H i j * ψ 0 j) - star (energyOf H n (ψ 0)) * ψ 0 i)) = A - N / W * C := by
    rw [hE, hEs, hA, hC, mul_sum, ← sum_sub_distrib]
    apply sum_congr rfl; intro i _; ring
  rw [e1, e2, e3]
  have re2 : ∀ z : 𝕜, ((2 * RCLike.re z : ℝ) : 𝕜) = z + star z := by
    intro z
    rw [RCLike.star_def, RCLike.add_conj]; push_cast; rfl
  rw [re2, star_div₀, hWs, star_sub, star_mul', hEs]
  field_simp
  ring

section peps

variable [Fintype ι] [Fintype X] [DecidableEq X] {B : Type*} [Fintype B]

/-- Moving all site tensors along `v` changes the amplitude at the rate given by the punched
networks. -/
theorem amp_deriv (leg : ι → B → X) (θ v : Tps ι X 𝕜) (S : ι → ℕ) :
    HasDerivAt (fun t : ℝ => amp leg (fun r b x => θ r b x + (t : 𝕜) * v r b x) S)
      (∑ r, ∑ x, v r (S r) x * star (hole leg θ S r x)) 0 := by
  have h1 : ∀ r x, HasDerivAt (fun t : ℝ => θ r (S r) x + (t : 𝕜) * v r (S r) x) (v r (S r) x) 0 := by
    intro r x
    have h0 : HasDerivAt (fun t : ℝ => (t : 𝕜)) 1 0 := by
      have := (RCLike.ofRealCLM (K := 𝕜)).hasDerivAt (x := (0 : ℝ))
      simpa using this
    have := (h0.mul_const (v r (S r) x)).const_add (θ r (S r) x)
    simpa using this
  unfold amp
  have h2 : HasDerivAt (fun t : ℝ => ∑ β : B, ∏ r, (θ r (S r) (leg r β) + (t : 𝕜) * v r (S r) (leg r β)))
      (∑ β : B, ∑ r, (∏ j ∈ univ.erase r, θ j (S j) (leg j β)) * v r (S r) (leg r β)) 0 := by
    apply HasDerivAt.fun_sum; intro β _
    have := HasDerivAt.fun_finset_prod (u := (univ : Finset ι))
      (f := fun r (t : ℝ) => θ r (S r) (leg r β) + (t : 𝕜) * v r (S r) (leg r β))
      (f' := fun r => v r (S r) (leg r β)) (x := 0) (fun r _ => h1 r (leg r β))
    simpa using this
  refine h2.congr_deriv ?_
  rw [sum_comm]
  apply sum_congr rfl; intro r _
  simp only [hole, star_star, mul_sum]
  rw [← Finset.sum_fiberwise_of_maps_to (s := (univ : Finset B)) (t := (univ : Finset X)) (g := leg r)
    (fun _ _ => mem_univ _)]
  apply sum_congr rfl; intro x _
  apply sum_congr rfl; intro β hβ
  rw [(mem_filter.1 hβ).2]; ring

end peps

end QLPeps.Evaluator
