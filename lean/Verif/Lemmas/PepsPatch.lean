import Verif.Lemmas.PepsRing

/-!
# Attaching the gate to the ring
-/

namespace QLPeps.Peps

open scoped Kronecker

variable {K : Type*} [Field K]

/-- a site with a gate tensor attached, as a matrix between pairs -/
def siteM (D D' W W' d : ℕ) (G : ℕ → ℕ → ℕ → K) (l : ℕ → K) (g : ℕ → ℕ → ℕ → K) :
    Matrix (Fin D × Fin W) (Fin D' × Fin W') K :=
  ∑ t ∈ Finset.range d, toM D D' (fun a b => G a b t * l b) ⊗ₖ toM W W' fun w w' => g w t w'

theorem siteM_apply (D D' W W' d : ℕ) (G : ℕ → ℕ → ℕ → K) (l : ℕ → K) (g : ℕ → ℕ → ℕ → K)
    (x : Fin D × Fin W) (y : Fin D' × Fin W') : siteM D D' W W' d G l g x y =
      (∑ t ∈ Finset.range d, G x.1 y.1 t * g x.2 t y.2) * l y.1 := by
  simp only [siteM, Matrix.sum_apply, Matrix.kroneckerMap_apply, toM, Matrix.of_apply, Finset.sum_mul]
  exact Finset.sum_congr rfl fun _ _ => by ring

/-- `PatSquareLocalLoopProjector_`, the sums -/
theorem patch_core {D0 D1 D2 D3 W0 W1 W2 W3 N0 N1 N2 N3 d0 d1 d2 d3 : ℕ}
    {G0 G1 G2 G3 g0 g1 g2 g3 : ℕ → ℕ → ℕ → K} {l0 l1 l2 l3 s0 s1 s2 s3 : ℕ → K}
    {Q0 vt0 vt1 vt2 vt3 : ℕ → ℕ → ℕ → K} {Q1 Q2 Q3 : ℕ → ℕ → K}
    (h0 : ∀ a < D3, ∀ w < W3, ∀ b < D0, ∀ w' < W0,
      ∑ n ∈ Finset.range N0, Q0 a w n * s0 n * vt0 n w' b =
        (∑ t ∈ Finset.range d0, G0 a b t * g0 w t w') * l0 b)
    (h1 : ∀ n < N0, ∀ b < D1, ∀ w' < W1, ∑ m ∈ Finset.range N1, Q1 n m * s1 m * vt1 m w' b =
      (∑ w ∈ Finset.range W0, ∑ a ∈ Finset.range D0, vt0 n w a *
        ∑ t ∈ Finset.range d1, G1 a b t * g1 w t w') * l1 b)
    (h2 : ∀ n < N1, ∀ b < D2, ∀ w' < W2, ∑ m ∈ Finset.range N2, Q2 n m * s2 m * vt2 m w' b =
      (∑ w ∈ Finset.range W1, ∑ a ∈ Finset.range D1, vt1 n w a *
        ∑ t ∈ Finset.range d2, G2 a b t * g2 w t w') * l2 b)
    (h3 : ∀ n < N2, ∀ b < D3, ∀ w' < W3, ∑ m ∈ Finset.range N3, Q3 n m * s3 m * vt3 m w' b =
      (∑ w ∈ Finset.range W2, ∑ a ∈ Finset.range D2, vt2 n w a *
        ∑ t ∈ Finset.range d3, G3 a b t * g3 w t w') * l3 b) :
    ring4 N0 N1 N2 N3
      (fun n m => ∑ a ∈ Finset.range D3, ∑ w ∈ Finset.range W3, vt3 n w a * Q0 a w m) s0
      Q1 s1 Q2 s2 Q3 s3 =
    ∑ t0 ∈ Finset.range d0, ∑ t1 ∈ Finset.range d1, ∑ t2 ∈ Finset.range d2, ∑ t3 ∈ Finset.range d3,
      ring4 D0 D1 D2 D3 (fun a b => G0 a b t0) l0 (fun a b => G1 a b t1) l1 (fun a b => G2 a b t2) l2
        (fun a b => G3 a b t3) l3 *
      ∑ m0 ∈ Finset.range W0, ∑ m1 ∈ Finset.range W1, ∑ m2 ∈ Finset.range W2,
        ∑ m3 ∈ Finset.range W3, g0 m3 t0 m0 * g1 m0 t1 m1 * g2 m1 t2 m2 * g3 m2 t3 m3 := by
  let Qm0 : Matrix (Fin D3 × Fin W3) (Fin N0) K := Matrix.of fun x n => Q0 x.1 x.2 n * s0 n
  let V0 : Matrix (Fin N0) (Fin D0 × Fin W0) K := Matrix.of fun n x => vt0 n x.2 x.1
  let V1 : Matrix (Fin N1) (Fin D1 × Fin W1) K := Matrix.of fun n x => vt1 n x.2 x.1
  let V2 : Matrix (Fin N2) (Fin D2 × Fin W2) K := Matrix.of fun n x => vt2 n x.2 x.1
  let V3 : Matrix (Fin N3) (Fin D3 × Fin W3) K := Matrix.of fun n x => vt3 n x.2 x.1
  have e0 : Qm0 * V0 = siteM D3 D0 W3 W0 d0 G0 l0 g0 := by
    ext x y
    rw [siteM_apply, ← h0 _ x.1.2 _ x.2.2 _ y.1.2 _ y.2.2, Matrix.mul_apply, Finset.sum_range]
    rfl
  have e1 : toM N0 N1 (fun a b => Q1 a b * s1 b) * V1 = V0 * siteM D0 D1 W0 W1 d1 G1 l1 g1 := by
    ext x y
    have := h1 _ x.2 _ y.1.2 _ y.2.2
    rw [Finset.sum_comm] at this
    simp only [Matrix.mul_apply, siteM_apply, Fintype.sum_prod_type, toM, Matrix.of_apply, V0, V1]
    simp only [Finset.sum_range, Finset.sum_mul] at this ⊢
    rw [this]
    exact Finset.sum_congr rfl fun _ _ => Finset.sum_congr rfl fun _ _ => by
      rw [Finset.mul_sum, Finset.mul_sum, Finset.sum_mul]
      exact Finset.sum_congr rfl fun _ _ => by ring
  have e2 : toM N1 N2 (fun a b => Q2 a b * s2 b) * V2 = V1 * siteM D1 D2 W1 W2 d2 G2 l2 g2 := by
    ext x y
    have := h2 _ x.2 _ y.1.2 _ y.2.2
    rw [Finset.sum_comm] at this
    simp only [Matrix.mul_apply, siteM_apply, Fintype.sum_prod_type, toM, Matrix.of_apply, V2, V1]
    simp only [Finset.sum_range, Finset.sum_mul] at this ⊢
    rw [this]
    exact Finset.sum_congr rfl fun _ _ => Finset.sum_congr rfl fun _ _ => by
      rw [Finset.mul_sum, Finset.mul_sum, Finset.sum_mul]
      exact Finset.sum_congr rfl fun _ _ => by ring
  have e3 : toM N2 N3 (fun a b => Q3 a b * s3 b) * V3 = V2 * siteM D2 D3 W2 W3 d3 G3 l3 g3 := by
    ext x y
    have := h3 _ x.2 _ y.1.2 _ y.2.2
    rw [Finset.sum_comm] at this
    simp only [Matrix.mul_apply, siteM_apply, Fintype.sum_prod_type, toM, Matrix.of_apply, V2, V3]
    simp only [Finset.sum_range, Finset.sum_mul] at this ⊢
    rw [this]
    exact Finset.sum_congr rfl fun _ _ => Finset.sum_congr rfl fun _ _ => by
      rw [Finset.mul_sum, Finset.mul_sum, Finset.sum_mul]
      exact Finset.sum_congr rfl fun _ _ => by ring
  have e4 : toM N3 N0 (fun n m => (∑ a ∈ Finset.range D3, ∑ w ∈ Finset.range W3,
      vt3 n w a * Q0 a w m) * s0 m) = V3 * Qm0 := by
    ext x y
    simp only [Matrix.mul_apply, Fintype.sum_prod_type, toM, Matrix.of_apply, V3, Qm0,
      Finset.sum_range, Finset.sum_mul, mul_assoc]
  rw [ring4_trace, e4, Matrix.mul_assoc, Matrix.trace_mul_comm]
  have e5 : Qm0 * (toM N0 N1 (fun a b => Q1 a b * s1 b) * (toM N1 N2 (fun a b => Q2 a b * s2 b) *
      toM N2 N3 fun a b => Q3 a b * s3 b)) * V3 =
      siteM D3 D0 W3 W0 d0 G0 l0 g0 * (siteM D0 D1 W0 W1 d1 G1 l1 g1 *
        (siteM D1 D2 W1 W2 d2 G2 l2 g2 * siteM D2 D3 W2 W3 d3 G3 l3 g3)) := by
    simp only [Matrix.mul_assoc]
    rw [e3, ← Matrix.mul_assoc _ V2, e2, Matrix.mul_assoc V1, ← Matrix.mul_assoc _ V1, e1,
      Matrix.mul_assoc V0, ← Matrix.mul_assoc _ V0, e0]
  rw [e5]
  simp only [siteM]
  rw [trace_kron]
  refine Finset.sum_congr rfl fun t0 _ => Finset.sum_congr rfl fun t1 _ =>
    Finset.sum_congr rfl fun t2 _ => Finset.sum_congr rfl fun t3 _ => ?_
  rw [ring4_trace, trace4 W0 W1 W2 W3]

end QLPeps.Peps
