import Verif.Model.MinSRRun
import Verif.Spec.SR

/-!
# What the numerical libraries are trusted to do
-/

namespace QLPeps.MinSR

open QLPeps.SR (Eigen)

variable {𝕜 : Type*} [RCLike 𝕜]

/-- where ScaLAPACK stores a matrix: block sizes, process grid, leading dimension in every process row -/
structure Desc where
  mb : ℕ
  nb : ℕ
  nprow : ℕ
  npcol : ℕ
  lld : ℕ → ℕ

/-- position within its process of the `i`-th row (column) of a block-cyclic distribution -/
def cyclic (nb nprocs i : ℕ) : ℕ := i / (nb * nprocs) * nb + i % nb

/-- Entry `(i, j)` of a distributed matrix: blocks are dealt out cyclically, local storage is by columns;
`buf p q` is the buffer of the process in row `p` and column `q` of the grid. -/
def Desc.entry (d : Desc) (buf : ℕ → ℕ → ℕ → 𝕜) (i j : ℕ) : 𝕜 :=
  buf (i / d.mb % d.nprow) (j / d.nb % d.npcol)
    (cyclic d.mb d.nprow i + cyclic d.nb d.npcol j * d.lld (i / d.mb % d.nprow))

/-- the source layout: one column of processes, blocks of `B` whole rows (`desc_src`,
minsr_scalapack.h:226-229) -/
def source (P B N : ℕ) : Desc := ⟨B, N, P, 1, fun _ => max 1 B⟩

/-- the target layout (`desc_tgt`, `desc_z`, minsr_scalapack.h:231-237, 256-257) -/
def Grid.desc (g : Grid) (N : ℕ) : Desc :=
  ⟨g.nb, g.nb, g.nprow, g.npcol, fun p => max 1 (numroc N g.nb p g.nprow)⟩

/-- the buffers of the processes by their position in the grid -/
def Grid.at (g : Grid) (z : ℕ → ℕ → 𝕜) : ℕ → ℕ → ℕ → 𝕜 := fun p q => z (p * g.npcol + q)

/-- `p?gemr2d_` copies a matrix from one layout to another. -/
def Copied (n : ℕ) (d : Desc) (buf : ℕ → ℕ → ℕ → 𝕜) (d' : Desc) (buf' : ℕ → ℕ → ℕ → 𝕜) : Prop :=
  ∀ i j, i < n → j < n → d'.entry buf' i j = d.entry buf i j

/-- An eigensolver returns the eigenvalues and an orthonormal basis of eigenvectors, the columns of `Z`. -/
def Solved (n : ℕ) (A : ℕ → ℕ → 𝕜) (ev : ℕ → ℝ) (Z : ℕ → ℕ → 𝕜) : Prop :=
  Eigen (ι := Fin n) (fun i j => A i j) (fun k => ev k) fun k i => Z i k

/-- the matrix a LAPACK routine sees in a buffer -/
def lapack (n : ℕ) (buf : ℕ → 𝕜) (i j : ℕ) : 𝕜 := buf (i + j * n)

/-- the matrix the row blocks of all processes make up: process `r` has rows `r * B` to `r * B + B - 1` -/
def matrix (B N : ℕ) (rb : ℕ → ℕ → 𝕜) (i j : ℕ) : 𝕜 := rb (i / B) (i % B * N + j)

/-- the filtered inverse eigenvalues -/
noncomputable def pinv (n : ℕ) (ev : ℕ → ℝ) (rPinv aPinv : ℝ) (soft : Bool) (k : ℕ) : ℝ :=
  (SR.applyPinv ((List.range n).map ev) rPinv aPinv soft).getD k 0

/-- The two paths, with libraries that do what they promise: `Returns … y` says that `y` is a possible result
on all processes. -/
inductive Returns (real : Bool) (P B : ℕ) (g : Grid) (rb : ℕ → ℕ → 𝕜) (rhs : ℕ → 𝕜) (rPinv aPinv : ℝ)
    (soft : Bool) : Bool → Option (ℕ → 𝕜) → Prop
  | replicated (ev : ℕ → ℝ) (z : ℕ → 𝕜)
      (h : Solved (P * B) (lapack (P * B) (if real then inputReal B (P * B) rb else inputComplex B (P * B) rb)) ev
        (lapack (P * B) z)) :
      Returns real P B g rb rhs rPinv aPinv soft false
        (some (replicated (P * B) z (pinv (P * B) ev rPinv aPinv soft) rhs))
  | distributed (t z : ℕ → ℕ → 𝕜) (ev : ℕ → ℝ)
      (h1 : Copied (P * B) (source P B (P * B)) (fun p _ => colMajorBlock B (P * B) (rb p)) (g.desc (P * B)) (g.at t))
      (h2 : Solved (P * B) ((g.desc (P * B)).entry (g.at t)) ev ((g.desc (P * B)).entry (g.at z))) :
      Returns real P B g rb rhs rPinv aPinv soft true
        (distributed P g (P * B) z (pinv (P * B) ev rPinv aPinv soft) rhs)

end QLPeps.MinSR
