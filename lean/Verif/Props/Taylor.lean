import Verif.Lemmas.Taylor
import Mathlib.Analysis.Complex.ExponentialBounds

/-!
# Properties of the evolution gates of the simple update

* C89: the gate built from a local Hamiltonian is its imaginary-time exponential `exp(-τH)`, up to
  an error bounded by the tolerance of the Taylor loop.

Norms are Frobenius norms.
-/

namespace QLPeps.Taylor

open Spec
open scoped Nat Matrix.Norms.Frobenius

variable {𝕜 : Type*} [RCLike 𝕜]

/-- C89: whether or not the Taylor loop reached its tolerance, the gate is a Taylor polynomial of
`exp(-τH)`, of an order `m` below the maximal order, and differs from the exponential by at most the
norm of the last term kept times `exp(τ‖H‖) - 1`. The loop ends early exactly at the first order from
2 on whose term is below the tolerance. -/
theorem C89_gate_is_taylor_polynomial (dims : List ℕ) (eps : ℝ) (maxOrder : ℕ) (hmax : 2 ≤ maxOrder)
    (tau : ℝ) (ham : Ten 𝕜) :
    let X := (-(tau : 𝕜)) • hamOp dims ham
    let T : ℕ → Matrix (State dims) (State dims) 𝕜 := fun k => ((k ! : 𝕜)⁻¹) • X ^ k
    ∃ m, 1 ≤ m ∧ m < maxOrder ∧
      gateOp dims (taylorExp dims eps maxOrder tau ham) = ∑ k ∈ Finset.range (m + 1), T k ∧
      ‖gateOp dims (taylorExp dims eps maxOrder tau ham) - NormedSpace.exp X‖ ≤
        ‖T m‖ * (Real.exp ‖X‖ - 1) ∧
      (∀ k, 1 < k → k < m → eps ≤ ‖T k‖) ∧
      (m < maxOrder - 1 → ‖T m‖ < eps) := by
  intro X T
  obtain ⟨m, h1, h2, h3, h4, h5⟩ := taylor_spec dims eps maxOrder hmax tau ham
  refine ⟨m, h1, h2, h3, ?_, h4, fun h => ?_⟩
  · rw [h3]
    exact remainder X m
  · rcases h5 with h6 | h6
    · exact h6.2
    · omega

/-- terms at the maximal order are tiny for moderate arguments -/
theorem pow_div_factorial_small (r : ℝ) (h0 : 0 ≤ r) (hr : r ≤ 100) :
    r ^ 999 / (999 ! : ℝ) < 1 / 10 ^ 200 := by
  have h1 : (3 * r) ^ 999 / (999 ! : ℝ) ≤ Real.exp (3 * r) :=
    Real.pow_div_factorial_le_exp (3 * r) (by positivity) 999
  have h2 : Real.exp (3 * r) ≤ 3 ^ 300 := by
    calc Real.exp (3 * r) ≤ Real.exp ((300 : ℕ) * 1) := Real.exp_le_exp.2 (by push_cast; linarith)
      _ = Real.exp 1 ^ 300 := by rw [Real.exp_nat_mul]
      _ ≤ 3 ^ 300 := pow_le_pow_left₀ (Real.exp_pos 1).le (by
          have := Real.exp_one_lt_d9; linarith) 300
  rw [mul_pow, mul_div_assoc] at h1
  have h3 : (3 : ℝ) ^ 999 * (r ^ 999 / (999 ! : ℝ)) ≤ 3 ^ 300 := h1.trans h2
  have h4 : (3 : ℝ) ^ 300 * 10 ^ 200 < 3 ^ 999 := by
    have a : (10 : ℝ) ^ 200 ≤ (3 ^ 3) ^ 200 := pow_le_pow_left₀ (by norm_num) (by norm_num) 200
    rw [← pow_mul] at a
    calc (3 : ℝ) ^ 300 * 10 ^ 200 ≤ 3 ^ 300 * 3 ^ (3 * 200) :=
          mul_le_mul_of_nonneg_left a (by positivity)
      _ = 3 ^ 900 := by rw [← pow_add]
      _ < 3 ^ 999 := pow_lt_pow_right₀ (by norm_num) (by norm_num)
  have h5 : (0 : ℝ) < 3 ^ 999 := by positivity
  rw [lt_div_iff₀ (by positivity)]
  by_contra hcon
  push Not at hcon
  have h6 : (3 : ℝ) ^ 999 * 1 ≤ 3 ^ 999 * (r ^ 999 / (999 ! : ℝ) * 10 ^ 200) :=
    mul_le_mul_of_nonneg_left hcon h5.le
  have h7 : (3 : ℝ) ^ 999 * (r ^ 999 / (999 ! : ℝ)) * 10 ^ 200 ≤ 3 ^ 300 * 10 ^ 200 :=
    mul_le_mul_of_nonneg_right h3 (by positivity)
  rw [← mul_assoc, mul_one] at h6
  exact absurd (h6.trans h7) (not_le.2 h4)

/-- C89: for `τ‖H‖ ≤ 100` and the maximal order of the code, the gate differs from `exp(-τH)` by less
than the tolerance times `exp(τ‖H‖) - 1` (and is equal to it when `τH = 0`). -/
theorem C89_gate_is_exponential (dims : List ℕ) (eps : ℝ) (heps : 1 / 10 ^ 200 ≤ eps)
    (tau : ℝ) (ham : Ten 𝕜) (hb : |tau| * ‖hamOp dims ham‖ ≤ 100) :
    ‖gateOp dims (taylorExp dims eps kMaxOrder tau ham) -
        NormedSpace.exp ((-(tau : 𝕜)) • hamOp dims ham)‖ ≤
      eps * (Real.exp (|tau| * ‖hamOp dims ham‖) - 1) := by
  have hX : ‖(-(tau : 𝕜)) • hamOp dims ham‖ = |tau| * ‖hamOp dims ham‖ := by
    rw [norm_smul, norm_neg, RCLike.norm_ofReal]
  obtain ⟨m, h1, h2, h3, h4, h5⟩ := taylor_spec dims eps kMaxOrder (by norm_num [kMaxOrder]) tau ham
  have hlt : ‖term 𝕜 ((-(tau : 𝕜)) • hamOp dims ham) m‖ < eps := by
    rcases h5 with h6 | h6
    · exact h6.2
    · have hm : m = 999 := by have := h6.1; simp only [kMaxOrder] at this; omega
      subst hm
      refine lt_of_lt_of_le (lt_of_le_of_lt (norm_term_le _ 999 (by norm_num)) ?_) heps
      rw [hX]
      exact pow_div_factorial_small _ (by positivity) hb
  rw [h3]
  refine (remainder _ m).trans ?_
  rw [hX]
  refine mul_le_mul_of_nonneg_right hlt.le ?_
  have : (0 : ℝ) ≤ |tau| * ‖hamOp dims ham‖ := by positivity
  have := Real.add_one_le_exp (|tau| * ‖hamOp dims ham‖)
  linarith

/-- C89: the zero Hamiltonian gives exactly the identity gate. -/
theorem C89_zero_hamiltonian (dims : List ℕ) (eps : ℝ) (heps : 1 / 10 ^ 200 ≤ eps) (tau : ℝ) :
    gateOp dims (taylorExp dims eps kMaxOrder tau (fun _ => (0 : 𝕜))) = 1 := by
  have h0 : hamOp dims (fun _ => (0 : 𝕜)) = 0 := rfl
  have := C89_gate_is_exponential dims eps heps tau (fun _ => (0 : 𝕜)) (by rw [h0]; simp)
  rw [h0, norm_zero, mul_zero, Real.exp_zero, sub_self, mul_zero, smul_zero, NormedSpace.exp_zero]
    at this
  exact sub_eq_zero.1 (norm_le_zero_iff.1 this)

/-! ## The hypotheses are met -/

/-- two sites of dimension 2 with the exchange term `S⁺S⁻ + S⁻S⁺` have norm `√2`, so a time step of
0.1 is far inside the bound -/
example : ‖hamOp [2, 2] (fun x : List ℕ => if x = [0, 1, 1, 0] ∨ x = [1, 0, 0, 1] then (1 : ℝ) else 0)‖ ≤ 4 := by
  rw [Matrix.frobenius_norm_def]
  have hone : ∀ x y : State [2, 2],
      ‖hamOp [2, 2] (fun x : List ℕ => if x = [0, 1, 1, 0] ∨ x = [1, 0, 0, 1] then (1 : ℝ) else 0) x y‖
        ^ (2 : ℝ) ≤ 1 := by
    intro x y
    unfold hamOp
    dsimp only
    split <;> simp
  have hcard : Fintype.card (State [2, 2]) = 4 := by decide
  have hs : (∑ x : State [2, 2], ∑ y : State [2, 2],
      ‖hamOp [2, 2] (fun x : List ℕ => if x = [0, 1, 1, 0] ∨ x = [1, 0, 0, 1] then (1 : ℝ) else 0) x y‖
        ^ (2 : ℝ)) ≤ 4 ^ 2 := by
    calc _ ≤ ∑ _x : State [2, 2], ∑ _y : State [2, 2], (1 : ℝ) :=
          Finset.sum_le_sum fun x _ => Finset.sum_le_sum fun y _ => hone x y
      _ = 4 ^ 2 := by simp [hcard]; norm_num
  rw [← Real.sqrt_eq_rpow]
  exact Real.sqrt_le_iff.2 ⟨by norm_num, hs⟩

end QLPeps.Taylor
