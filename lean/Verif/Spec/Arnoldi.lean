import Verif.Model.Arnoldi

/-!
# Specification: Krylov spaces, and what LAPACK returns
-/

namespace QLPeps.Arnoldi.Spec

variable {𝕜 : Type*} [RCLike 𝕜] {m : ℕ}

/-- the space spanned by `x, A x, …, A ^ (k - 1) x` -/
def krylov (A : Vec 𝕜 m →ₗ[𝕜] Vec 𝕜 m) (x : Vec 𝕜 m) (k : ℕ) : Submodule 𝕜 (Vec 𝕜 m) :=
  Submodule.span 𝕜 {y | ∃ i < k, y = (A ^ i) x}

/-- documented behaviour of `dgeev` (`real`) and `zgeev` on a matrix of order `n`. A column of a real
matrix that belongs to a complex eigenvalue is the real or the imaginary part `c` of the eigenvector, `z`
is the other part up to its sign. -/
structure GeevExact (real : Bool) (geev : ℕ → (ℕ → ℕ → 𝕜) → Option (List (EigPair 𝕜))) : Prop where
  nonempty : ∀ n h, 0 < n → geev n h ≠ some []
  column : ∀ n h es, geev n h = some es → ∀ e ∈ es, (∃ i < n, e.vec i ≠ 0) ∧
    ∑ i ∈ Finset.range n, ‖e.vec i‖ ^ 2 ≤ 1 ∧
    (e.wi = 0 → ∑ i ∈ Finset.range n, ‖e.vec i‖ ^ 2 = 1) ∧
    ∃ z : ℕ → 𝕜, ∑ i ∈ Finset.range n, ‖z i‖ ^ 2 ≤ 1 ∧ ∀ i < n,
      ∑ j ∈ Finset.range n, h i j * e.vec j = e.w * e.vec i - (e.wi : 𝕜) * z i
  complex : real = false → ∀ n h es, geev n h = some es → ∀ e ∈ es, e.wi = 0
  all : ∀ n h es, geev n h = some es → ∀ (μ : 𝕜) (y : ℕ → 𝕜), (∃ i < n, y i ≠ 0) →
    (∀ i < n, ∑ j ∈ Finset.range n, h i j * y j = μ * y i) → ∃ e ∈ es, e.w = μ ∧ e.wi = 0

/-- the tolerance for eigenvalues that are not real -/
def slack (real : Bool) (tol : ℝ) : ℝ := if real = true then tol else 0

/-- `θ` and `v` are the dominant Ritz pair of `A` in the space `K`, up to `δ`: `v` is in `K`, the residual
is orthogonal to `K`, and no Ritz value in `K` is larger -/
structure Ritz (A : Vec 𝕜 m →ₗ[𝕜] Vec 𝕜 m) (K : Submodule 𝕜 (Vec 𝕜 m)) (δ : ℝ) (θ : 𝕜) (v : Vec 𝕜 m) :
    Prop where
  mem : v ∈ K
  ne : v ≠ 0
  le_one : ‖v‖ ≤ 1
  eq_one : δ = 0 → ‖v‖ = 1
  galerkin : ∀ b ∈ K, ‖(inner 𝕜 b (A v - θ • v) : 𝕜)‖ ≤ δ * ‖θ‖ * ‖b‖
  dominant : ∀ (μ : 𝕜) (y : Vec 𝕜 m), y ∈ K → y ≠ 0 → (∀ b ∈ K, inner 𝕜 b (A y - μ • y) = (0 : 𝕜)) →
    ‖μ‖ ^ 2 ≤ (1 + δ ^ 2) * ‖θ‖ ^ 2

end QLPeps.Arnoldi.Spec
