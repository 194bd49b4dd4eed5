import Mathlib.Analysis.RCLike.Basic

/-!
# Model of `TaylorExpMatrix`

Source: `/repo/include/qlpeps/algorithm/simple_update/simple_update_impl.h:124-227`.

A tensor is a function of the list of its coordinates; `dims` are the dimensions of the sites, in
order. Quantum numbers, index directions and fermion signs are not modelled (bosonic tensors), and
the arithmetic is exact.
-/

namespace QLPeps.Taylor

noncomputable section

variable {𝕜 : Type*} [RCLike 𝕜]

/-- a tensor, as a function of its coordinates -/
abbrev Ten (𝕜 : Type*) := List ℕ → 𝕜

/-- `GenAllCoors` (called at simple_update_impl.h:191): all coordinates below a shape -/
def allCoors : List ℕ → List (List ℕ)
  | [] => [[]]
  | d :: ds => (List.range d).flatMap fun x => (allCoors ds).map (x :: ·)

/-- `DuplicateElements` (simple_update_impl.h:125-135) -/
def duplicate (c : List ℕ) : List ℕ := c.flatMap fun x => [x, x]

/-- `transpose_axes` (simple_update_impl.h:181-185) -/
def transposeAxes (N : ℕ) : List ℕ :=
  ((List.range N).map fun i => 2 * i) ++ (List.range N).map fun i => 2 * i + 1

/-- `Tensor::Transpose`: axis `m` of the result is axis `p[m]` of the argument -/
def transpose (p : List ℕ) (t : Ten 𝕜) : Ten 𝕜 := fun x =>
  t ((List.range p.length).map fun a => x.getD (p.idxOf a) 0)

/-- `Contract` of the last `N` axes of `a` with the first `N` axes of `b`
(simple_update_impl.h:202-210) -/
def contract (dims : List ℕ) (a b : Ten 𝕜) : Ten 𝕜 := fun x =>
  ((allCoors dims).map fun k => a (x.take dims.length ++ k) * b (k ++ x.drop dims.length)).sum

/-- `GetQuasi2Norm` of a tensor with axes `dims ++ dims` -/
def quasi2Norm (dims : List ℕ) (t : Ten 𝕜) : ℝ :=
  Real.sqrt (((allCoors dims).map fun x => ((allCoors dims).map fun y => ‖t (x ++ y)‖ ^ 2).sum).sum)

/-- `ham_scale` (simple_update_impl.h:179-186) -/
def hamScale (dims : List ℕ) (tau : ℝ) (ham : Ten 𝕜) : Ten 𝕜 :=
  transpose (transposeAxes dims.length) fun x => (-(tau : 𝕜)) * ham x

open Classical in
/-- `id` (simple_update_impl.h:188-195): zero except for ones at duplicated coordinates -/
def identity (dims : List ℕ) : Ten 𝕜 :=
  transpose (transposeAxes dims.length) fun x =>
    if x ∈ (allCoors dims).map duplicate then 1 else 0

/-- the loop over orders (simple_update_impl.h:208-222), from order `n` on with `fuel` iterations
left; the result is the list of all terms -/
def termsFrom (dims : List ℕ) (eps : ℝ) (x : Ten 𝕜) : ℕ → ℕ → List (Ten 𝕜) → Ten 𝕜 → List (Ten 𝕜)
  | 0, _, terms, _ => terms
  | fuel + 1, n, terms, last =>
    let tmp : Ten 𝕜 := fun c => contract dims last x c * (1 / (n : 𝕜))
    if quasi2Norm dims tmp < eps then terms ++ [tmp]
    else termsFrom dims eps x fuel (n + 1) (terms ++ [tmp]) tmp

/-- `taylor_terms` after the loop; `maxOrder` is `kMaxTaylorExpansionOrder` (consts.h:34, 1000) -/
def terms (dims : List ℕ) (eps : ℝ) (maxOrder : ℕ) (tau : ℝ) (ham : Ten 𝕜) : List (Ten 𝕜) :=
  termsFrom dims eps (hamScale dims tau ham) (maxOrder - 2) 2
    [identity dims, hamScale dims tau ham] (hamScale dims tau ham)

/-- `TaylorExpMatrix` (simple_update_impl.h:174-227): the sum of the terms -/
def taylorExp (dims : List ℕ) (eps : ℝ) (maxOrder : ℕ) (tau : ℝ) (ham : Ten 𝕜) : Ten 𝕜 := fun c =>
  ((terms dims eps maxOrder tau ham).map fun t => t c).sum

/-- `kMaxTaylorExpansionOrder` (consts.h:34) -/
def kMaxOrder : ℕ := 1000

end

end QLPeps.Taylor
