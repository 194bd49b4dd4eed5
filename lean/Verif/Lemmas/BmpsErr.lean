import Verif.Lemmas.BmpsSvdErr
import Verif.Lemmas.BmpsAmp
import Mathlib.Analysis.InnerProductSpace.PiL2

/-! # The error of a truncated boundary-MPS contraction -/

namespace QLPeps.BmpsErr

noncomputable section

variable {𝕜 : Type*} [RCLike 𝕜]

section linear

variable {α : Type*}

/-- the norm of a function on a finite set -/
def nrm (D : Finset α) (φ : α → 𝕜) : ℝ := Real.sqrt (∑ x ∈ D, ‖φ x‖ ^ 2)

theorem nrm_nonneg (D : Finset α) (φ : α → 𝕜) : 0 ≤ nrm D φ := Real.sqrt_nonneg _

theorem nrm_sq (D : Finset α) (φ : α → 𝕜) : nrm D φ ^ 2 = ∑ x ∈ D, ‖φ x‖ ^ 2 :=
  Real.sq_sqrt (Finset.sum_nonneg fun _ _ => sq_nonneg _)

theorem nrm_congr {D : Finset α} {φ ψ : α → 𝕜} (h : ∀ x ∈ D, φ x = ψ x) : nrm D φ = nrm D ψ := by
  rw [nrm, nrm, Finset.sum_congr rfl fun x hx => by rw [h x hx]]

theorem nrm_eq (D : Finset α) (φ : α → 𝕜) : nrm D φ = ‖WithLp.toLp 2 (fun i : D => φ i)‖ := by
  rw [nrm, EuclideanSpace.norm_eq, ← Finset.sum_coe_sort]

theorem nrm_add (D : Finset α) (φ ψ : α → 𝕜) : nrm D (fun x => φ x + ψ x) ≤ nrm D φ + nrm D ψ := by
  simp only [nrm_eq]
  exact norm_add_le (WithLp.toLp 2 (fun i : D => φ i)) (WithLp.toLp 2 (fun i : D => ψ i))

theorem pair_le (D : Finset α) (φ ψ : α → 𝕜) : ‖∑ x ∈ D, φ x * ψ x‖ ≤ nrm D φ * nrm D ψ := by
  refine abs_le_of_sq_le_sq' ?_ (mul_nonneg (nrm_nonneg _ _) (nrm_nonneg _ _)) |>.2
  rw [mul_pow, nrm_sq, nrm_sq]
  refine (pow_le_pow_left₀ (norm_nonneg _) (norm_sum_le _ _) 2).trans ?_
  simp only [norm_mul]
  exact Finset.sum_mul_sq_le_sq_mul_sq _ _ _

/-- a bound on the bilinear form of a layer -/
def Bounds (D D' : Finset α) (R : α → α → 𝕜) (τ : ℝ) : Prop :=
  ∀ φ ψ : α → 𝕜, ‖∑ x ∈ D, ∑ y ∈ D', φ x * R x y * ψ y‖ ≤ τ * (nrm D φ * nrm D' ψ)

/-- a layer acts on a function -/
def act (D : Finset α) (R : α → α → 𝕜) (φ : α → 𝕜) (y : α) : 𝕜 := ∑ x ∈ D, φ x * R x y

theorem act_le {D D' : Finset α} {R : α → α → 𝕜} {τ : ℝ} (hτ : 0 ≤ τ) (h : Bounds D D' R τ) (φ : α → 𝕜) :
    nrm D' (act D R φ) ≤ τ * nrm D φ := by
  have h1 := h φ fun y => (starRingEnd 𝕜) (act D R φ y)
  have h2 : nrm D' (fun y => (starRingEnd 𝕜) (act D R φ y)) = nrm D' (act D R φ) := by
    simp only [nrm, RCLike.norm_conj]
  rw [h2, Finset.sum_comm] at h1
  have h3 : ∑ y ∈ D', ∑ x ∈ D, φ x * R x y * (starRingEnd 𝕜) (act D R φ y) = ((nrm D' (act D R φ) ^ 2 : ℝ) : 𝕜) := by
    rw [nrm_sq, RCLike.ofReal_sum]
    refine Finset.sum_congr rfl fun y _ => ?_
    rw [← Finset.sum_mul, QLPeps.BmpsVar.sq_eq, mul_comm]
    rfl
  rw [h3, RCLike.norm_ofReal, abs_of_nonneg (sq_nonneg _)] at h1
  by_cases h0 : nrm D' (act D R φ) = 0
  · rw [h0]
    exact mul_nonneg hτ (nrm_nonneg _ _)
  · have hp : 0 < nrm D' (act D R φ) := lt_of_le_of_ne (nrm_nonneg _ _) (Ne.symm h0)
    have : nrm D' (act D R φ) * nrm D' (act D R φ) ≤ (τ * nrm D φ) * nrm D' (act D R φ) := by nlinarith
    exact le_of_mul_le_mul_right this hp

theorem act_sub (D : Finset α) (R : α → α → 𝕜) (φ ψ : α → 𝕜) (y : α) :
    act D R (fun x => φ x - ψ x) y = act D R φ y - act D R ψ y := by
  simp only [act, sub_mul, Finset.sum_sub_distrib]

/-- the error of states that are evolved and truncated again and again -/
theorem evolve {D : ℕ → Finset α} {R : ℕ → α → α → 𝕜} {τ : ℕ → ℝ} {n : ℕ} {δ : ℝ} (hδ : 0 ≤ δ) (hτ : ∀ k, 0 ≤ τ k)
    (hR : ∀ k < n, Bounds (D k) (D (k + 1)) (R k) (τ k)) {E S : ℕ → α → 𝕜} (h0 : ∀ x ∈ D 0, E 0 x = S 0 x)
    (h1 : nrm (D 0) (S 0) ≤ 1) (hE : ∀ k < n, ∀ y ∈ D (k + 1), E (k + 1) y = act (D k) (R k) (E k) y)
    (hS1 : ∀ k < n, nrm (D (k + 1)) (S (k + 1)) ≤ nrm (D (k + 1)) (act (D k) (R k) (S k)))
    (hS2 : ∀ k < n, nrm (D (k + 1)) (fun y => act (D k) (R k) (S k) y - S (k + 1) y) ≤
      δ * nrm (D (k + 1)) (act (D k) (R k) (S k))) :
    ∀ k ≤ n, nrm (D k) (S k) ≤ ∏ i ∈ Finset.range k, τ i ∧ nrm (D k) (E k) ≤ ∏ i ∈ Finset.range k, τ i ∧
      nrm (D k) (fun x => E k x - S k x) ≤ k * δ * ∏ i ∈ Finset.range k, τ i := by
  intro k
  induction k with
  | zero =>
    intro _
    refine ⟨by simpa using h1, ?_, ?_⟩
    · rw [nrm_congr h0]; simpa using h1
    · rw [nrm_congr (ψ := fun _ => (0 : 𝕜)) fun x hx => by rw [h0 x hx, sub_self]]
      simp [nrm]
  | succ k ih =>
    intro hk
    obtain ⟨i1, i2, i3⟩ := ih (by omega)
    have hP : 0 ≤ ∏ i ∈ Finset.range k, τ i := Finset.prod_nonneg fun i _ => hτ i
    have a1 := act_le (hτ k) (hR k hk) (S k)
    have a2 := act_le (hτ k) (hR k hk) (E k)
    have a3 := act_le (hτ k) (hR k hk) (fun x => E k x - S k x)
    have b1 : nrm (D (k + 1)) (act (D k) (R k) (S k)) ≤ ∏ i ∈ Finset.range (k + 1), τ i := by
      rw [Finset.prod_range_succ, mul_comm]
      exact a1.trans (mul_le_mul_of_nonneg_left i1 (hτ k))
    refine ⟨(hS1 k hk).trans b1, ?_, ?_⟩
    · rw [nrm_congr (hE k hk), Finset.prod_range_succ, mul_comm]
      exact a2.trans (mul_le_mul_of_nonneg_left i2 (hτ k))
    · have e : nrm (D (k + 1)) (fun x => E (k + 1) x - S (k + 1) x) =
          nrm (D (k + 1)) (fun y => act (D k) (R k) (fun x => E k x - S k x) y + (act (D k) (R k) (S k) y - S (k + 1) y)) :=
        nrm_congr fun y hy => by rw [hE k hk y hy, act_sub]; ring
      rw [e]
      refine (nrm_add _ _ _).trans ?_
      have c1 : nrm (D (k + 1)) (act (D k) (R k) fun x => E k x - S k x) ≤ k * δ * ∏ i ∈ Finset.range (k + 1), τ i := by
        refine a3.trans ((mul_le_mul_of_nonneg_left i3 (hτ k)).trans (le_of_eq ?_))
        rw [Finset.prod_range_succ]; ring
      have c2 := (hS2 k hk).trans (mul_le_mul_of_nonneg_left b1 hδ)
      push_cast
      linarith

end linear

end

end QLPeps.BmpsErr
