import Verif.Lemmas.ArnoldiRun
import Mathlib.Analysis.Complex.Polynomial.Basic
import Mathlib.LinearAlgebra.Eigenspace.Minpoly
import Mathlib.LinearAlgebra.Eigenspace.Triangularizable
import Mathlib.LinearAlgebra.Matrix.ToLin

/-!
# C135: results of the Arnoldi solver; C136: results of the power method
-/

namespace QLPeps.Arnoldi

open Spec

variable {𝕜 : Type*} [RCLike 𝕜] {m : ℕ}

/-- **C135.** What the Arnoldi solver returns is the dominant Ritz pair of a Krylov space of the initial
vector, whose dimension `k` is less than the number of elements and the number of iterations. Unless it
warns, the residual is at most the requested error times the norm of the map (for real elements up to the
tolerance for eigenvalues that are not real). It warns exactly when all iterations were used. -/
theorem C135_dominant_ritz_pair {geev : ℕ → (ℕ → ℕ → 𝕜) → Option (List (EigPair 𝕜))} {real : Bool}
    (hg : GeevExact real geev) {p : Params} (ht : 0 ≤ p.degeneracyTol) (he : 0 ≤ p.error)
    (A : Vec 𝕜 m →ₗ[𝕜] Vec 𝕜 m) {vec0 : Vec 𝕜 m} {θ : 𝕜} {v : Vec 𝕜 m} {warned : Bool}
    (hres : arnoldi A geev real p vec0 = .ret θ v warned) :
    ∃ k, 1 ≤ k ∧ k < min m p.maxIterations ∧ (warned = true ↔ k + 1 = min m p.maxIterations) ∧
      Ritz A (krylov A vec0 k) (slack real p.degeneracyTol) θ v ∧
      (warned = false → ∀ C, 0 ≤ C → (∀ y, ‖A y‖ ≤ C * ‖y‖) →
        ‖A v - θ • v‖ ≤ p.error * C + slack real p.degeneracyTol * ‖θ‖) := by
  unfold arnoldi at hres
  dsimp only at hres
  split at hres
  · simp at hres
  · split at hres
    · simp at hres
    · rename_i h1 h2
      by_cases hx : ‖vec0‖ = 0
      · have h3 : min m p.maxIterations = 1 := by
          by_contra hc
          exact h2 ⟨hc, hx⟩
        rw [h3] at hres
        simp [loop] at hres
      · obtain ⟨k, k1, k2, k3, k4, k5⟩ := loop_ret hg ht he _ (inv_init (A := A) hx) hres
        rw [List.length_singleton] at k1 k2 k3
        exact ⟨k, k1, by omega, by rw [k3]; omega, k4, k5⟩

/-- **C135.** For complex elements the solver always returns, if LAPACK does not fail, the initial vector
is not zero, and there are at least two elements and two iterations. -/
theorem C135_complex_returns {geev : ℕ → (ℕ → ℕ → 𝕜) → Option (List (EigPair 𝕜))}
    (hg : GeevExact false geev) (hsome : ∀ n h, geev n h ≠ none) {p : Params} (he : 0 ≤ p.error)
    (hm : 2 ≤ m) (hp : 2 ≤ p.maxIterations) (f : Vec 𝕜 m → Vec 𝕜 m) {vec0 : Vec 𝕜 m} (hv : vec0 ≠ 0) :
    ∃ θ v warned, arnoldi f geev false p vec0 = .ret θ v warned := by
  unfold arnoldi
  dsimp only
  rw [if_neg (by omega), if_neg (by simp [hv])]
  obtain ⟨n, hn⟩ : ∃ n, min m p.maxIterations - 1 = n + 1 := ⟨min m p.maxIterations - 2, by omega⟩
  rw [hn]
  exact loop_returns hg hsome he n _ _ _ (by simp)

/-- **C135.** With one element, as on a bond of dimension one, or with one iteration, the solver ends the
process, whatever the map and the vector are. -/
theorem C135_exits_for_one_element (f : Vec 𝕜 m → Vec 𝕜 m)
    (geev : ℕ → (ℕ → ℕ → 𝕜) → Option (List (EigPair 𝕜))) (real : Bool) (p : Params) (vec0 : Vec 𝕜 m)
    (h : min m p.maxIterations = 1) : arnoldi f geev real p vec0 = .exit := by
  simp [arnoldi, h, loop]

/-- **C136.** What the power method returns is the normalized image of the initial vector under a power
`k` of the map, and the number is the factor of the last step. It warns exactly when the allowed
iterations are used up without convergence; otherwise the vector is an eigenvector up to the square root
of twice the tolerance, for an eigenvalue of nearly the returned modulus. -/
theorem C136_power_method (A : Vec 𝕜 m →ₗ[𝕜] Vec 𝕜 m) {maxIter : ℕ} {tol : ℝ} {burnIn : ℕ}
    {vec0 : Vec 𝕜 m} {w : ℝ} {v : Vec 𝕜 m} {warned : Bool}
    (hres : power A maxIter tol burnIn vec0 = .ret w v warned) :
    ∃ k ≤ maxIter, ‖(A ^ k) vec0‖ ≠ 0 ∧ v = ((1 / ‖(A ^ k) vec0‖ : ℝ) : 𝕜) • (A ^ k) vec0 ∧
      (∀ i, k = i + 1 → w = ‖(A ^ k) vec0‖ / ‖(A ^ i) vec0‖) ∧ (warned = true → k = maxIter) ∧
      (warned = false → burnIn + 2 ≤ k ∧ ∃ μ : 𝕜, (1 - tol) * w < ‖μ‖ ∧ ‖μ‖ ≤ w ∧
        ∀ C, 0 ≤ C → (∀ y, ‖A y‖ ≤ C * ‖y‖) → ‖A v - μ • v‖ ≤ C * Real.sqrt (2 * tol)) := by
  unfold power at hres
  split at hres
  · simp at hres
  · rename_i h0
    obtain ⟨k, -, k2, k3, k4, k5, k6, k7⟩ := powerLoop_ret (A := A) (x := vec0) maxIter 0
      (by simpa using h0) rfl (by simp) hres
    refine ⟨k, by omega, k3, k4, fun i hi => ?_, fun hw => by simpa using k6 hw, fun hw => ?_⟩
    · have h := k5 i hi
      rw [eq_div_iff]
      · exact h
      · intro h1
        rw [h1, mul_zero] at h
        exact k3 h.symm
    · obtain ⟨b, hw, c, c1, c2, c3⟩ := k7 hw
      refine ⟨b, c * (w : 𝕜), ?_, ?_, c3⟩ <;> rw [norm_mul, RCLike.norm_ofReal, abs_of_pos hw]
      · exact mul_lt_mul_of_pos_right c1 hw
      · exact (mul_le_mul_of_nonneg_right c2 hw.le).trans (one_mul w).le

/-- **C136.** Every set of vectors that the map and positive factors do not leave contains the result if it
contains the initial vector: a Hermitian matrix stays Hermitian, a positive one positive. -/
theorem C136_keeps_cones (A : Vec 𝕜 m →ₗ[𝕜] Vec 𝕜 m) {maxIter : ℕ} {tol : ℝ} {burnIn : ℕ}
    {vec0 : Vec 𝕜 m} {w : ℝ} {v : Vec 𝕜 m} {warned : Bool}
    (hres : power A maxIter tol burnIn vec0 = .ret w v warned) {S : Set (Vec 𝕜 m)}
    (hA : ∀ x ∈ S, A x ∈ S) (hs : ∀ x ∈ S, ∀ c : ℝ, 0 < c → (c : 𝕜) • x ∈ S) (h0 : vec0 ∈ S) : v ∈ S := by
  obtain ⟨k, -, h1, rfl, -⟩ := C136_power_method A hres
  refine hs _ ?_ _ (by positivity)
  clear h1 hres
  induction k with
  | zero => simpa using h0
  | succ k ih =>
    rw [pow_succ']
    exact hA _ ih

/-! ## The hypotheses are met -/

/-- there is a routine as `zgeev` is documented -/
theorem exists_geev : ∃ geev : ℕ → (ℕ → ℕ → ℂ) → Option (List (EigPair ℂ)),
    GeevExact false geev ∧ ∀ n h, geev n h ≠ none := by
  classical
  have key : ∀ (n : ℕ) (h : ℕ → ℕ → ℂ), ∃ es : List (EigPair ℂ), (0 < n → es ≠ []) ∧
      (∀ e ∈ es, e.wi = 0 ∧ (∃ i < n, e.vec i ≠ 0) ∧ ∑ i ∈ Finset.range n, ‖e.vec i‖ ^ 2 = 1 ∧
        ∀ i < n, ∑ j ∈ Finset.range n, h i j * e.vec j = e.w * e.vec i) ∧
      ∀ (μ : ℂ) (y : ℕ → ℂ), (∃ i < n, y i ≠ 0) →
        (∀ i < n, ∑ j ∈ Finset.range n, h i j * y j = μ * y i) → ∃ e ∈ es, e.w = μ ∧ e.wi = 0 := by
    intro n h
    let L : Module.End ℂ (Fin n → ℂ) := Matrix.toLin' fun i j => h i j
    have hL : ∀ (y : Fin n → ℂ) i, L y i = ∑ j : Fin n, h i j * y j := fun y i => by
      rfl
    have hfin : {μ | L.HasEigenvalue μ}.Finite :=
      (Module.End.finite_spectrum L).subset fun μ hμ => hμ.mem_spectrum
    have hvec : ∀ μ, L.HasEigenvalue μ → ∃ y : ℕ → ℂ, (∃ i < n, y i ≠ 0) ∧
        ∑ i ∈ Finset.range n, ‖y i‖ ^ 2 = 1 ∧
        ∀ i < n, ∑ j ∈ Finset.range n, h i j * y j = μ * y i := by
      intro μ hμ
      obtain ⟨u, hu⟩ := hμ.exists_hasEigenvector
      have hne := hu.2
      have hap := hu.apply_eq_smul
      set N : ℝ := Real.sqrt (∑ i : Fin n, ‖u i‖ ^ 2) with hN
      obtain ⟨i0, hi0⟩ := Function.ne_iff.1 hne
      have hpos : 0 < ∑ i : Fin n, ‖u i‖ ^ 2 := by
        refine Finset.sum_pos' (fun i _ => sq_nonneg _) ⟨i0, Finset.mem_univ _, ?_⟩
        have : 0 < ‖u i0‖ := norm_pos_iff.2 hi0
        positivity
      have hNpos : 0 < N := Real.sqrt_pos.2 hpos
      have hNsq : N ^ 2 = ∑ i : Fin n, ‖u i‖ ^ 2 := Real.sq_sqrt hpos.le
      refine ⟨fun i => if hi : i < n then ((1 / N : ℝ) : ℂ) * u ⟨i, hi⟩ else 0, ⟨i0, i0.2, ?_⟩, ?_, ?_⟩
      · dsimp only
        rw [dif_pos i0.2]
        exact mul_ne_zero (by exact_mod_cast (by positivity)) hi0
      · rw [Finset.sum_range]
        simp only [Fin.is_lt, dif_pos, Fin.eta, norm_mul, Complex.norm_real, mul_pow]
        rw [← Finset.mul_sum, ← hNsq]
        simp
        field_simp
      · intro i hi
        rw [Finset.sum_range]
        simp only [Fin.is_lt, dif_pos, Fin.eta, dif_pos hi]
        have := congrFun hap ⟨i, hi⟩
        rw [hL] at this
        simp only [Pi.smul_apply, smul_eq_mul] at this
        calc _ = ((1 / N : ℝ) : ℂ) * ∑ j : Fin n, h i j * u j := by
              rw [Finset.mul_sum]
              exact Finset.sum_congr rfl fun j _ => by ring
          _ = _ := by rw [this]; ring
    choose! y hy using hvec
    refine ⟨hfin.toFinset.toList.map fun μ => ⟨μ, 0, y μ⟩, ?_, ?_, ?_⟩
    · intro hn
      haveI : Nonempty (Fin n) := ⟨⟨0, hn⟩⟩
      obtain ⟨c, hc⟩ := Module.End.exists_eigenvalue L
      intro hnil
      rw [List.map_eq_nil_iff, Finset.toList_eq_nil] at hnil
      have : c ∈ hfin.toFinset := by simpa using hc
      rw [hnil] at this
      simp at this
    · intro e he
      simp only [List.mem_map, Finset.mem_toList, Set.Finite.mem_toFinset, Set.mem_setOf_eq] at he
      obtain ⟨μ, hμ, rfl⟩ := he
      exact ⟨rfl, hy μ hμ⟩
    · intro μ z ⟨i, hi, hz⟩ hr
      refine ⟨⟨μ, 0, y μ⟩, ?_, rfl, rfl⟩
      simp only [List.mem_map, Finset.mem_toList, Set.Finite.mem_toFinset, Set.mem_setOf_eq]
      refine ⟨μ, Module.End.hasEigenvalue_of_hasEigenvector (x := fun i => z i) ⟨?_, ?_⟩, rfl⟩
      · rw [Module.End.mem_eigenspace_iff]
        funext i
        rw [hL, Pi.smul_apply, smul_eq_mul, ← hr i i.2, Finset.sum_range]
      · exact Function.ne_iff.2 ⟨⟨i, hi⟩, hz⟩
  choose es h1 h2 h3 using key
  refine ⟨fun n h => some (es n h), ⟨?_, ?_, ?_, ?_⟩, by simp⟩
  · intro n h hn e
    exact h1 n h hn (Option.some.inj e)
  · rintro n h _ ⟨⟩ e he
    obtain ⟨a, b, c, d⟩ := h2 n h e he
    exact ⟨b, c.le, fun _ => c, fun _ => 0, by simp, fun i hi => by rw [d i hi]; simp⟩
  · rintro - n h _ ⟨⟩ e he
    exact (h2 n h e he).1
  · rintro n h _ ⟨⟩ μ y hy hr
    exact h3 n h μ y hy hr

/-- C135: the solver returns for every complex map on 2 x 2 matrices with the default parameters -/
example (A : Vec ℂ 4 →ₗ[ℂ] Vec ℂ 4) : ∃ geev, GeevExact false geev ∧
    ∃ θ v warned, arnoldi A geev false ⟨1e-7, 200, 1e-14⟩ (EuclideanSpace.single 0 1) =
      .ret θ v warned := by
  obtain ⟨geev, hg, hs⟩ := exists_geev
  exact ⟨geev, hg, C135_complex_returns hg hs (by norm_num) (by norm_num) (by norm_num) A (by
    intro h
    have := congrArg (fun v : Vec ℂ 4 => v 0) h
    simp at this)⟩

/-- C135: and without a warning for twice the identity -/
example : ∃ geev, GeevExact false geev ∧ ∃ θ v,
    arnoldi (((2 : ℂ) • LinearMap.id : Vec ℂ 4 →ₗ[ℂ] Vec ℂ 4)) geev false ⟨1e-7, 200, 1e-14⟩
      (EuclideanSpace.single 0 1) = .ret θ v false := by
  obtain ⟨geev, hg, hs⟩ := exists_geev
  refine ⟨geev, hg, ?_⟩
  have hone : ‖(EuclideanSpace.single 0 1 : Vec ℂ 4)‖ = 1 := by simp
  have horth : ∀ u : Vec ℂ 4, ‖u‖ = 1 → orth [u] ((2 : ℂ) • u) = ([2], 0) := by
    intro u hu
    have : inner ℂ u u = (1 : ℂ) := by rw [inner_self_eq_norm_sq_to_K, hu]; simp
    simp only [orth, inner_smul_right, this, mul_one, neg_smul, add_neg_cancel]
  have hd : ∀ h, ∃ w y, heiMatDiag geev false 1e-14 1 h = .ok w y := by
    intro h
    unfold heiMatDiag
    split
    · rename_i e; exact absurd e (hs _ _)
    · rename_i e; exact absurd e (hg.nonempty _ _ one_pos)
    · simp [degenerate]
  unfold arnoldi
  dsimp only
  rw [if_neg (by norm_num), if_neg (by simp), show min 4 200 - 1 = 2 + 1 from rfl, loop]
  have hu := unit_smul (𝕜 := ℂ) (m := 4) (r := EuclideanSpace.single 0 1) (by simp)
  simp only [List.getLastD_cons, List.getLastD_nil, LinearMap.smul_apply, LinearMap.id_apply,
    horth _ hu]
  rw [if_neg (by norm_num)]
  obtain ⟨w, y, e⟩ := hd (entry ([] ++ [[(2 : ℂ)] ++ [(RCLike.ofReal ‖(0 : Vec ℂ 4)‖ : ℂ)]]))
  rw [List.length_singleton, e]
  exact ⟨_, _, rfl⟩

/-- C136: the power method converges for twice the identity -/
example : ∃ w v, power ((2 : ℝ) • LinearMap.id : Vec ℝ 4 →ₗ[ℝ] Vec ℝ 4) 100 1e-15 5
    (EuclideanSpace.single 0 1) = .ret w v false := by
  have hstep : ∀ n iter last, powerLoop ((2 : ℝ) • LinearMap.id : Vec ℝ 4 →ₗ[ℝ] Vec ℝ 4) 1e-15 5
      (n + 1) iter (EuclideanSpace.single 0 1) last =
      if 5 < iter ∧ |(2 - last) / 2| < 1e-15 then .ret 2 (EuclideanSpace.single 0 1) false
      else powerLoop ((2 : ℝ) • LinearMap.id : Vec ℝ 4 →ₗ[ℝ] Vec ℝ 4) 1e-15 5 n (iter + 1)
        (EuclideanSpace.single 0 1) 2 := by
    intro n iter last
    rw [powerLoop]
    have h2 : ‖((2 : ℝ) • LinearMap.id : Vec ℝ 4 →ₗ[ℝ] Vec ℝ 4) (EuclideanSpace.single 0 1)‖ = 2 := by
      simp [norm_smul]
    have h3 : ((1 / 2 : ℝ) : ℝ) • ((2 : ℝ) • LinearMap.id : Vec ℝ 4 →ₗ[ℝ] Vec ℝ 4)
        (EuclideanSpace.single 0 1) = EuclideanSpace.single 0 1 := by
      simp [smul_smul]
    simp only [h2, RCLike.ofReal_real_eq_id, id, h3]
    simp [show (0 : ℝ) < 1e-15 by norm_num]
  unfold power
  have h1 : ‖(EuclideanSpace.single 0 1 : Vec ℝ 4)‖ = 1 := by simp
  rw [h1, if_neg (by norm_num), show (((1 / 1 : ℝ) : ℝ)) = 1 by norm_num]
  simp only [RCLike.ofReal_real_eq_id, id, one_smul]
  rw [show (100 : ℕ) = 92 + 1 + 1 + 1 + 1 + 1 + 1 + 1 + 1 from rfl]
  refine ⟨2, EuclideanSpace.single 0 1, ?_⟩
  rw [hstep, if_neg (by norm_num), hstep, if_neg (by norm_num), hstep, if_neg (by norm_num), hstep,
    if_neg (by norm_num), hstep, if_neg (by norm_num), hstep, if_neg (by norm_num), hstep,
    if_pos (by norm_num)]

end QLPeps.Arnoldi
