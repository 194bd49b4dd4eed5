import Mathlib.Analysis.InnerProductSpace.PiL2

/-!
# Model of the eigenvector search of the loop update

Source: `/repo/include/qlpeps/two_dim_tn/peps/arnoldi_solver.h` (`HeiMatDiag`, `ArnoldiSolver`) and
`square_lattice_peps_projection4_impl.h:618-658` (`PowerMethod`), bosonic branches, element types `double`
and `complex<double>`. Tensors are vectors of their `m` elements: the contraction of the conjugate of one
with another over all legs is the inner product and `QuasiNormalize` returns the norm and divides by it.
The linear map is a parameter. `LAPACKE_dgeev` and `LAPACKE_zgeev` are a parameter. A vector divided by a
norm that is zero consists of NaN; when it would be read the outcome is `nan`.
-/

namespace QLPeps.Arnoldi

noncomputable section

variable {𝕜 : Type*} [RCLike 𝕜] {m : ℕ}

/-- vectors with `m` elements -/
abbrev Vec (𝕜 : Type*) (m : ℕ) := EuclideanSpace 𝕜 (Fin m)

/-- an eigenvalue and a column of `vr` as LAPACK returns them: for real matrices `w` is the real and `wi`
the imaginary part, for complex matrices `wi` is zero -/
structure EigPair (𝕜 : Type*) where
  w : 𝕜
  wi : ℝ
  vec : ℕ → 𝕜

/-- `w_abs` (arnoldi_solver.h:153, :180) -/
def modulus (e : EigPair 𝕜) : ℝ := Real.sqrt (‖e.w‖ ^ 2 + e.wi ^ 2)

open Classical in
/-- `std::max_element` (arnoldi_solver.h:155, :182): the first largest -/
def maxElement : EigPair 𝕜 → List (EigPair 𝕜) → EigPair 𝕜
  | e, [] => e
  | e, x :: l => maxElement (if modulus e < modulus x then x else e) l

/-- `ArnoldiParams` (arnoldi_solver.h:20-31) -/
structure Params where
  error : ℝ
  maxIterations : ℕ
  degeneracyTol : ℝ

/-- result of `HeiMatDiag` -/
inductive HDiag (𝕜 : Type*)
  | exn
  | invalid
  | ok (w : 𝕜) (vec : ℕ → 𝕜)

/-- `std::abs(wi / wr) > degeneracy_tol` (arnoldi_solver.h:158), for real elements only; `0 / 0` is NaN
and the comparison false -/
def degenerate (real : Bool) (tol : ℝ) (e : EigPair 𝕜) : Prop :=
  real = true ∧ (e.w = 0 ∧ e.wi ≠ 0 ∨ e.w ≠ 0 ∧ tol < |e.wi| / ‖e.w‖)

open Classical in
/-- `HeiMatDiag` (arnoldi_solver.h:113-203): `geev` gives all eigenvalues, `none` for `info != 0`. (When
LAPACK fails, the test for degeneracy still runs on what it left; this is not modelled.) The left
eigenvectors are not used. -/
def heiMatDiag (geev : ℕ → (ℕ → ℕ → 𝕜) → Option (List (EigPair 𝕜))) (real : Bool) (tol : ℝ) (n : ℕ)
    (h : ℕ → ℕ → 𝕜) : HDiag 𝕜 :=
  match geev n (fun i j => if i - 1 ≤ j then h i j else 0) with
  | none => .exn
  | some [] => .exn
  | some (e :: es) =>
    let d := maxElement e es
    if degenerate real tol d then .invalid else .ok d.w d.vec

/-- the loop over `j` (arnoldi_solver.h:238-244): the overlaps and the remainder -/
def orth : List (Vec 𝕜 m) → Vec 𝕜 m → List 𝕜 × Vec 𝕜 m
  | [], x => ([], x)
  | b :: bs, x =>
    let c := inner 𝕜 b x
    let r := orth bs (x + (-c) • b)
    (c :: r.1, r.2)

/-- result of `ArnoldiSolver`: `ret` with the warning, `exit` for `exit(2)`, `nan` when elements that are
not numbers are used, `ub` for accesses out of range -/
inductive Outcome (𝕜 : Type*) (m : ℕ)
  | ret (w : 𝕜) (v : Vec 𝕜 m) (warned : Bool)
  | exit
  | exn
  | nan
  | ub

/-- the element `h[i][j]` of the matrix given by its columns -/
def entry (cols : List (List 𝕜)) (i j : ℕ) : 𝕜 := (cols.getD j []).getD i 0

/-- `LinearCombine` of the first vectors (arnoldi_solver.h:264) -/
def combine : List (Vec 𝕜 m) → (ℕ → 𝕜) → Vec 𝕜 m
  | [], _ => 0
  | b :: bs, y => y 0 • b + combine bs fun i => y (i + 1)

open Classical in
/-- the loop of `ArnoldiSolver` (arnoldi_solver.h:235-280) with `n` rounds left, the basis vectors and the
columns of `h` so far; `maxh` is `max_abs_h_elem` -/
def loop (A : Vec 𝕜 m → Vec 𝕜 m) (geev : ℕ → (ℕ → ℕ → 𝕜) → Option (List (EigPair 𝕜))) (real : Bool)
    (p : Params) : ℕ → List (Vec 𝕜 m) → List (List 𝕜) → ℝ → Outcome 𝕜 m
  | 0, _, _, _ => .exit
  | n + 1, bases, cols, maxh =>
    let o := orth bases (A (bases.getLastD 0))
    let nrm := ‖o.2‖
    let cols' := cols ++ [o.1 ++ [(nrm : 𝕜)]]
    let maxh' := max (o.1.foldl (fun a c => max a ‖c‖) maxh) nrm
    let next := if n ≠ 0 ∧ nrm = 0 then .nan
      else loop A geev real p n (bases ++ [((1 / nrm : ℝ) : 𝕜) • o.2]) cols' maxh'
    if maxh' ≠ 0 ∧ p.error < nrm / maxh' ∧ n ≠ 0 then next
    else match heiMatDiag geev real p.degeneracyTol bases.length (entry cols') with
      | .exn => .exn
      | .invalid => next
      | .ok w y => .ret w (combine bases y) (n == 0)

open Classical in
/-- `ArnoldiSolver` (arnoldi_solver.h:210-285); without iterations `bases[0]` is out of range -/
def arnoldi (A : Vec 𝕜 m → Vec 𝕜 m) (geev : ℕ → (ℕ → ℕ → 𝕜) → Option (List (EigPair 𝕜)))
    (real : Bool) (p : Params) (vec0 : Vec 𝕜 m) : Outcome 𝕜 m :=
  let maxIter := min m p.maxIterations
  if maxIter = 0 then .ub
  else if maxIter ≠ 1 ∧ ‖vec0‖ = 0 then .nan
  else loop A geev real p (maxIter - 1) [((1 / ‖vec0‖ : ℝ) : 𝕜) • vec0] [] 0

/-! ## Power method -/

/-- result of `PowerMethod` -/
inductive PowerRes (𝕜 : Type*) (m : ℕ)
  | ret (w : ℝ) (v : Vec 𝕜 m) (warned : Bool)
  | nan

open Classical in
/-- the loop of `PowerMethod` (projection4_impl.h:641-655): `n` rounds left, `iter` done -/
def powerLoop (A : Vec 𝕜 m → Vec 𝕜 m) (tol : ℝ) (burnIn : ℕ) :
    ℕ → ℕ → Vec 𝕜 m → ℝ → PowerRes 𝕜 m
  | 0, _, vec, last => .ret last vec true
  | n + 1, iter, vec, last =>
    let x := A vec
    let w := ‖x‖
    if w = 0 then .nan
    else
      let v := ((1 / w : ℝ) : 𝕜) • x
      if burnIn < iter ∧ |(w - last) / w| < tol ∧ |‖(inner 𝕜 vec v : 𝕜)‖ - 1| < tol then .ret w v false
      else powerLoop A tol burnIn n (iter + 1) v w

open Classical in
/-- `PowerMethod` (projection4_impl.h:618-658) -/
def power (A : Vec 𝕜 m → Vec 𝕜 m) (maxIter : ℕ) (tol : ℝ) (burnIn : ℕ) (vec0 : Vec 𝕜 m) :
    PowerRes 𝕜 m :=
  if ‖vec0‖ = 0 then .nan
  else powerLoop A tol burnIn maxIter 0 (((1 / ‖vec0‖ : ℝ) : 𝕜) • vec0) 0

end

end QLPeps.Arnoldi
