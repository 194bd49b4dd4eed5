import Verif.Spec.PepsLoop
import Verif.Lemmas.PepsProject
import Mathlib.LinearAlgebra.Matrix.Kronecker
import Mathlib.LinearAlgebra.Matrix.Trace

/-!
# Rings of four matrices
-/

namespace QLPeps.Peps

open scoped Kronecker

variable {K : Type*} [Field K]

/-- trace of four weighted matrices -/
def ring4 (D0 D1 D2 D3 : ℕ) (G0 : ℕ → ℕ → K) (w0 : ℕ → K) (G1 : ℕ → ℕ → K) (w1 : ℕ → K)
    (G2 : ℕ → ℕ → K) (w2 : ℕ → K) (G3 : ℕ → ℕ → K) (w3 : ℕ → K) : K :=
  ∑ k0 ∈ Finset.range D0, ∑ k1 ∈ Finset.range D1, ∑ k2 ∈ Finset.range D2, ∑ k3 ∈ Finset.range D3,
    G0 k3 k0 * w0 k0 * (G1 k0 k1 * w1 k1) * (G2 k1 k2 * w2 k2) * (G3 k2 k3 * w3 k3)

theorem ring4_rotate (D0 D1 D2 D3 : ℕ) (G0 : ℕ → ℕ → K) (w0 : ℕ → K) (G1 : ℕ → ℕ → K) (w1 : ℕ → K)
    (G2 : ℕ → ℕ → K) (w2 : ℕ → K) (G3 : ℕ → ℕ → K) (w3 : ℕ → K) :
    ring4 D0 D1 D2 D3 G0 w0 G1 w1 G2 w2 G3 w3 = ring4 D1 D2 D3 D0 G1 w1 G2 w2 G3 w3 G0 w0 := by
  unfold ring4
  rw [Finset.sum_comm]
  refine Finset.sum_congr rfl fun k1 _ => ?_
  rw [Finset.sum_comm]
  refine Finset.sum_congr rfl fun k2 _ => ?_
  rw [Finset.sum_comm]
  refine Finset.sum_congr rfl fun k3 _ => Finset.sum_congr rfl fun k0 _ => by ring

/-- changing the tensors on both sides of a bond and its weights -/
theorem ring4_bond {D0 D1 D2 D3 D3' : ℕ} {G0 G0' : ℕ → ℕ → K} {w0 : ℕ → K} {G1 : ℕ → ℕ → K}
    {w1 : ℕ → K} {G2 : ℕ → ℕ → K} {w2 : ℕ → K} {G3 G3' : ℕ → ℕ → K} {w3 w3' : ℕ → K}
    (h : ∀ a < D2, ∀ b < D0, ∑ k ∈ Finset.range D3', G3' a k * w3' k * G0' k b =
      ∑ k ∈ Finset.range D3, G3 a k * w3 k * G0 k b) :
    ring4 D0 D1 D2 D3' G0' w0 G1 w1 G2 w2 G3' w3' = ring4 D0 D1 D2 D3 G0 w0 G1 w1 G2 w2 G3 w3 := by
  unfold ring4
  refine Finset.sum_congr rfl fun k0 h0 => Finset.sum_congr rfl fun k1 _ =>
    Finset.sum_congr rfl fun k2 h2 => ?_
  have h' := congrArg (fun z => w0 k0 * (G1 k0 k1 * w1 k1) * (G2 k1 k2 * w2 k2) * z)
    (h k2 (Finset.mem_range.1 h2) k0 (Finset.mem_range.1 h0))
  simp only [Finset.mul_sum] at h'
  refine Eq.trans (Finset.sum_congr rfl fun _ _ => by ring)
    (h'.trans (Finset.sum_congr rfl fun _ _ => by ring))

/-- a function of two numbers as a matrix -/
def toM (m n : ℕ) (A : ℕ → ℕ → K) : Matrix (Fin m) (Fin n) K := Matrix.of fun i j => A i j

/-- a function of four numbers as a matrix between pairs -/
def toM2 (m m' n n' : ℕ) (A : ℕ → ℕ → ℕ → ℕ → K) : Matrix (Fin m × Fin m') (Fin n × Fin n') K :=
  Matrix.of fun i j => A i.1 i.2 j.1 j.2

theorem trace4 (D0 D1 D2 D3 : ℕ) (A0 A1 A2 A3 : ℕ → ℕ → K) :
    (toM D3 D0 A0 * (toM D0 D1 A1 * (toM D1 D2 A2 * toM D2 D3 A3))).trace =
    ∑ k0 ∈ Finset.range D0, ∑ k1 ∈ Finset.range D1, ∑ k2 ∈ Finset.range D2,
      ∑ k3 ∈ Finset.range D3, A0 k3 k0 * A1 k0 k1 * A2 k1 k2 * A3 k2 k3 := by
  simp only [Matrix.trace, Matrix.diag, Matrix.mul_apply, Finset.sum_range, toM, Matrix.of_apply,
    Finset.mul_sum]
  rw [Finset.sum_comm]
  refine Finset.sum_congr rfl fun k0 _ => ?_
  rw [Finset.sum_comm]
  refine Finset.sum_congr rfl fun k1 _ => ?_
  rw [Finset.sum_comm]
  refine Finset.sum_congr rfl fun k2 _ => Finset.sum_congr rfl fun k3 _ => by ring

theorem ring4_trace (D0 D1 D2 D3 : ℕ) (G0 : ℕ → ℕ → K) (w0 : ℕ → K) (G1 : ℕ → ℕ → K) (w1 : ℕ → K)
    (G2 : ℕ → ℕ → K) (w2 : ℕ → K) (G3 : ℕ → ℕ → K) (w3 : ℕ → K) :
    ring4 D0 D1 D2 D3 G0 w0 G1 w1 G2 w2 G3 w3 =
      (toM D3 D0 (fun a b => G0 a b * w0 b) * (toM D0 D1 (fun a b => G1 a b * w1 b) *
        (toM D1 D2 (fun a b => G2 a b * w2 b) * toM D2 D3 fun a b => G3 a b * w3 b))).trace := by
  rw [trace4]
  rfl

/-- a ring of sums of products of two matrices -/
theorem trace_kron {α0 α1 α2 α3 : Type*} {ι0 ι1 ι2 ι3 κ0 κ1 κ2 κ3 : Type*}
    [Fintype ι0] [Fintype ι1] [Fintype ι2] [Fintype ι3] [Fintype κ0] [Fintype κ1] [Fintype κ2]
    [Fintype κ3] (S0 : Finset α0) (S1 : Finset α1) (S2 : Finset α2) (S3 : Finset α3)
    (A0 : α0 → Matrix ι3 ι0 K) (A1 : α1 → Matrix ι0 ι1 K) (A2 : α2 → Matrix ι1 ι2 K)
    (A3 : α3 → Matrix ι2 ι3 K) (B0 : α0 → Matrix κ3 κ0 K) (B1 : α1 → Matrix κ0 κ1 K)
    (B2 : α2 → Matrix κ1 κ2 K) (B3 : α3 → Matrix κ2 κ3 K) :
    ((∑ t ∈ S0, A0 t ⊗ₖ B0 t) * ((∑ t ∈ S1, A1 t ⊗ₖ B1 t) * ((∑ t ∈ S2, A2 t ⊗ₖ B2 t) *
      ∑ t ∈ S3, A3 t ⊗ₖ B3 t))).trace =
    ∑ t0 ∈ S0, ∑ t1 ∈ S1, ∑ t2 ∈ S2, ∑ t3 ∈ S3,
      (A0 t0 * (A1 t1 * (A2 t2 * A3 t3))).trace * (B0 t0 * (B1 t1 * (B2 t2 * B3 t3))).trace := by
  simp only [Matrix.sum_mul, Matrix.mul_sum, ← Matrix.mul_kronecker_mul, Matrix.trace_sum,
    Matrix.trace_kronecker]
  conv_rhs =>
    rw [Finset.sum_congr rfl fun t0 _ => Finset.sum_congr rfl fun t1 _ => Finset.sum_comm,
      Finset.sum_congr rfl fun t0 _ => Finset.sum_comm, Finset.sum_comm]
  refine Finset.sum_congr rfl fun t3 _ => ?_
  conv_rhs => rw [Finset.sum_congr rfl fun t0 _ => Finset.sum_comm, Finset.sum_comm]
  exact Finset.sum_congr rfl fun t2 _ => Finset.sum_comm

end QLPeps.Peps
