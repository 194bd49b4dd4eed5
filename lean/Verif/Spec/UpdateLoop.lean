import Verif.Model.UpdateLoop

/-!
# Specification: when a simple-update or loop-update run stops
-/

namespace QLPeps.UpdateLoop.Spec

open QLPeps.UpdateLoop (Config Sweep)

/-- two vectors of weights of the same length are within relative distance `tol` of each other,
in the Euclidean norm relative to the first -/
def Close (eps tol : ℝ) (prev cur : List ℝ) : Prop :=
  prev.length = cur.length ∧
  Real.sqrt ((List.zipWith (fun a b => (b - a) ^ 2) prev cur).sum) ≤
    tol * max (Real.sqrt ((prev.map (· ^ 2)).sum)) eps

/-- energies and weights after each sweep, as reals -/
structure Data where
  energy : ℕ → ℝ
  weights : ℕ → List (List ℝ)

/-- sweep `k` is quiet with respect to the previous one: minimal number of sweeps reached, energy
change within the hybrid tolerance, all weights close and of the same dimensions -/
def Quiet (c : Config) (eps : ℝ) (d : Data) (k : ℕ) : Prop :=
  1 ≤ k ∧ c.minSteps ≤ k + 1 ∧
  |d.energy k - d.energy (k - 1)| ≤
    max c.energyAbs (c.energyRel * max 1 (max |d.energy (k - 1)| |d.energy k|)) ∧
  List.Forall₂ (Close eps c.lambdaRel) (d.weights (k - 1)) (d.weights k)

/-- the last `patience` of the first `n` sweeps were all quiet -/
def Converged (c : Config) (eps : ℝ) (d : Data) (n : ℕ) : Prop :=
  c.patience ≤ n ∧ ∀ k, n - c.patience ≤ k → k < n → Quiet c eps d k

/-- the sweeps reported these data, without NaN in energies and weights -/
def Reports (outs : ℕ → Sweep) (d : Data) : Prop :=
  ∀ k, (outs k).e0 = some (d.energy k) ∧ (outs k).lambdas = (d.weights k).map (·.map some)

end QLPeps.UpdateLoop.Spec
