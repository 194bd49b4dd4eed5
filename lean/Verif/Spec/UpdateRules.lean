import Mathlib.Analysis.RCLike.Basic
import Mathlib.Analysis.Real.Sqrt
import Mathlib.Analysis.InnerProductSpace.PiL2

/-!
# Specification of the first-order update rules: closed forms over the gradient history
-/

namespace QLPeps.UpdateRules.Spec

/-- the first `n` (learning rate, gradient) pairs of a run -/
def history {E : Type*} (lr : ℕ → ℝ) (g : ℕ → E) (n : ℕ) : List (ℝ × E) :=
  (List.range n).map fun j => (lr j, g j)

/-- heavy-ball velocity after gradients `g 0, …, g (n-1)`: `∑ μ^(n-1-j) g_j` -/
noncomputable def velocity {E : Type*} [AddCommMonoid E] [Module ℝ E] (μ : ℝ) (g : ℕ → E) (n : ℕ) : E :=
  ∑ j ∈ Finset.range n, μ ^ (n - 1 - j) • g j

/-- the normalized exponentially weighted average of `g 0, …, g (n-1)`: the weights
`(1-β) β^(n-1-j) / (1-β^n)` add up to 1 -/
noncomputable def average {E : Type*} [AddCommMonoid E] [Module ℝ E] (β : ℝ) (g : ℕ → E) (n : ℕ) : E :=
  ∑ j ∈ Finset.range n, ((1 - β) * β ^ (n - 1 - j) / (1 - β ^ n)) • g j

/-- a guarded reciprocal: nonnegative and never larger than `1 / x` -/
def GuardedInverse (inv : ℝ → ℝ) : Prop := ∀ x, 0 ≤ x → 0 ≤ inv x ∧ inv x * x ≤ 1

end QLPeps.UpdateRules.Spec
