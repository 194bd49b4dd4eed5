import Verif.Model.State
import Mathlib.Analysis.SpecialFunctions.Pow.Real

/-!
# Model of the tensor product state and of superpositions

Source: `/repo/include/qlpeps/two_dim_tn/tps/tps_impl.h:150-345` (`WaveFunctionSum`).

A site tensor has a shape and a value for all coordinates of its five axes (0 west, 1 south, 2 east,
3 north, 4 physical). Quantum-number sectors are not modelled: `Expand`, a function of the tensor
library, is the direct sum over the given axes, with the coordinates of the first tensor first.
Arithmetic is exact; `assert`s are preconditions.
-/

namespace QLPeps.Tps

open QLPeps.State (BC)

/-- a site tensor -/
structure Ten (𝕜 : Type*) where
  shape : Fin 5 → ℕ
  elem : (Fin 5 → ℕ) → 𝕜

/-- `TPS` (tps.h): lattice, boundary condition and site tensors -/
structure Tps (𝕜 : Type*) where
  rows : ℕ
  cols : ℕ
  bc : BC
  ten : ℕ → ℕ → Ten 𝕜

variable {𝕜 : Type*}

/-- `Expand` of TensorToolkit (called at tps_impl.h:238, 294): direct sum over the axes `idx` -/
def expand [Zero 𝕜] (a b : Ten 𝕜) (idx : List (Fin 5)) : Ten 𝕜 where
  shape i := if i ∈ idx then a.shape i + b.shape i else a.shape i
  elem x :=
    if ∀ i ∈ idx, x i < a.shape i then a.elem x
    else if ∀ i ∈ idx, a.shape i ≤ x i then
      b.elem fun i => if i ∈ idx then x i - a.shape i else x i
    else 0

/-- `GetExpandIndices_` (tps_impl.h:167-200); `rows - 1` is a `size_t`, and there is a row -/
def expandIndices (row col rows cols : ℕ) (bc : BC) : List (Fin 5) :=
  if bc = .pbc then [0, 1, 2, 3]
  else
    (if 0 < col then [0] else []) ++ (if row < rows - 1 then [1] else []) ++
      (if col < cols - 1 then [2] else []) ++ (if 0 < row then [3] else [])

/-- `ten1 + ten2` -/
def addTen [Add 𝕜] (a b : Ten 𝕜) : Ten 𝕜 := ⟨a.shape, fun x => a.elem x + b.elem x⟩

/-- `ten * scalar` -/
def scaleTen [Mul 𝕜] (a : Ten 𝕜) (s : 𝕜) : Ten 𝕜 := ⟨a.shape, fun x => a.elem x * s⟩

/-- body of the loop over sites (tps_impl.h:222-240, 283-296) -/
def sumSite [Zero 𝕜] [Add 𝕜] (rows cols : ℕ) (bc : BC) (row col : ℕ) (a b : Ten 𝕜) : Ten 𝕜 :=
  if (expandIndices row col rows cols bc).isEmpty then addTen a b
  else expand a b (expandIndices row col rows cols bc)

/-- `WaveFunctionSum(tps1, tps2)` (tps_impl.h:202-245) -/
def waveFunctionSum [Zero 𝕜] [Add 𝕜] (t1 t2 : Tps 𝕜) : Tps 𝕜 :=
  ⟨t1.rows, t1.cols, t1.bc, fun row col =>
    sumSite t1.rows t1.cols t1.bc row col (t1.ten row col) (t2.ten row col)⟩

/-- `WaveFunctionSum(alpha, tps1, beta, tps2)` (tps_impl.h:247-300), given the two scales -/
def sumScaled [Semiring 𝕜] (s1 : 𝕜) (t1 : Tps 𝕜) (s2 : 𝕜) (t2 : Tps 𝕜) : Tps 𝕜 :=
  ⟨t1.rows, t1.cols, t1.bc, fun row col =>
    sumSite t1.rows t1.cols t1.bc row col (scaleTen (t1.ten row col) s1)
      (scaleTen (t2.ten row col) s2)⟩

noncomputable section

open Classical in
/-- per-site scale for `double` (tps_impl.h:266-272) -/
def scaleReal (N : ℕ) (alpha : ℝ) : ℝ :=
  let s := |alpha| ^ ((1 : ℝ) / N)
  if alpha < 0 ∧ N % 2 = 1 then -s else s

/-- per-site scale for complex numbers (tps_impl.h:273-277): a real number -/
def scaleComplex (N : ℕ) (alpha : ℂ) : ℂ := ((‖alpha‖ ^ ((1 : ℝ) / N) : ℝ) : ℂ)

/-- `WaveFunctionSum(alpha, tps1, beta, tps2)` for `double` -/
def sumReal (alpha : ℝ) (t1 : Tps ℝ) (beta : ℝ) (t2 : Tps ℝ) : Tps ℝ :=
  sumScaled (scaleReal (t1.rows * t1.cols) alpha) t1 (scaleReal (t1.rows * t1.cols) beta) t2

/-- `WaveFunctionSum(alpha, tps1, beta, tps2)` for complex numbers -/
def sumComplex (alpha : ℂ) (t1 : Tps ℂ) (beta : ℂ) (t2 : Tps ℂ) : Tps ℂ :=
  sumScaled (scaleComplex (t1.rows * t1.cols) alpha) t1 (scaleComplex (t1.rows * t1.cols) beta) t2

/-- `result({row, col}) *= scale` for all sites (tps_impl.h:318-322) -/
def scaleAll [Mul 𝕜] (t : Tps 𝕜) (s : 𝕜) : Tps 𝕜 :=
  ⟨t.rows, t.cols, t.bc, fun row col => scaleTen (t.ten row col) s⟩

/-- `WaveFunctionSum(tps_list, {})` (tps_impl.h:302-345); `none` for an empty list -/
def sumList [Zero 𝕜] [Add 𝕜] : List (Tps 𝕜) → Option (Tps 𝕜)
  | [] => none
  | [t] => some t
  | t1 :: t2 :: ts => some (ts.foldl waveFunctionSum (waveFunctionSum t1 t2))

/-- `WaveFunctionSum(tps_list, coefficients)` for `double` (tps_impl.h:302-345); the single state is
scaled by the absolute value of its coefficient (lines 313-323) -/
def sumListReal : List (ℝ × Tps ℝ) → Option (Tps ℝ)
  | [] => none
  | [(c, t)] => some (scaleAll t (|c| ^ ((1 : ℝ) / (t.rows * t.cols : ℕ))))
  | (c1, t1) :: (c2, t2) :: ts =>
    some (ts.foldl (fun acc ct => sumReal 1 acc ct.1 ct.2) (sumReal c1 t1 c2 t2))

end

end QLPeps.Tps
