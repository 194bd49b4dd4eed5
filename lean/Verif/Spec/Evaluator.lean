import Mathlib.Algebra.BigOperators.Group.Finset.Basic
import Mathlib.Analysis.RCLike.Basic
import Verif.Model.Evaluator

/-!
# Specification: weighted averages, covariances and the energy of a tensor-network state

Nothing here refers to loops, ranks, messages or accumulators; only the record `Sample` and the
types `Tps`, `Table` of the model are used.
-/

namespace QLPeps.Evaluator

open Finset

variable {ι X : Type*} {𝕜 : Type*} [RCLike 𝕜]

/-- Total weight `Σ |Ψ(Sᵢ)|²` of configurations `0 … n-1`. -/
noncomputable def totalWeight (ψ : ℕ → 𝕜) (n : ℕ) : ℝ := ∑ i ∈ range n, ‖ψ i‖ ^ 2

/-- Average of `f` over configurations `0 … n-1` with probabilities proportional to `|Ψ|²`. -/
noncomputable def bornMean (ψ : ℕ → 𝕜) (n : ℕ) (f : ℕ → 𝕜) : 𝕜 :=
  (∑ i ∈ range n, ((‖ψ i‖ ^ 2 : ℝ) : 𝕜) * f i) / ((totalWeight ψ n : ℝ) : 𝕜)

/-- `O*`: the derivative of `ln Ψ*` with respect to the conjugated parameter at site `r`, component
`b`, element `x`. It vanishes for components other than the one the configuration selects. -/
noncomputable def logDeriv (s : Sample ι X 𝕜) (r : ι) (b : ℕ) (x : X) : 𝕜 :=
  if b = s.config r then s.holes r x / star s.amplitude else 0

/-- Arithmetic mean of `f` over a list of samples. -/
noncomputable def sampleMean {α : Type*} (l : List α) (f : α → 𝕜) : 𝕜 :=
  (l.map f).sum / (l.length : 𝕜)

/-! ## An exactly contracted tensor-network state -/

section peps

variable [Fintype ι] [DecidableEq ι] [DecidableEq X] {B : Type*} [Fintype B]

/-- The amplitude of configuration `S`: sum over all assignments `β` of the bonds of the product of
the selected site-tensor elements; `leg r β` is the element position `β` selects at site `r`. -/
noncomputable def amp (leg : ι → B → X) (θ : Tps ι X 𝕜) (S : ι → ℕ) : 𝕜 :=
  ∑ β, ∏ r, θ r (S r) (leg r β)

/-- The network with site `r` punched out, conjugated: what `holes_dag` holds. -/
noncomputable def hole (leg : ι → B → X) (θ : Tps ι X 𝕜) (S : ι → ℕ) (r : ι) (x : X) : 𝕜 :=
  star (∑ β with leg r β = x, ∏ r' ∈ univ.erase r, θ r' (S r') (leg r' β))

/-- Energy expectation value `⟨Ψ|H|Ψ⟩ / ⟨Ψ|Ψ⟩` over the configurations `confs 0 … confs (n-1)`; `H i j`
is the matrix element between configurations `i` and `j`. -/
noncomputable def energyOf (H : ℕ → ℕ → 𝕜) (n : ℕ) (ψ : ℕ → 𝕜) : 𝕜 :=
  (∑ i ∈ range n, ∑ j ∈ range n, star (ψ i) * H i j * ψ j) / ((totalWeight ψ n : ℝ) : 𝕜)

/-- The local energy of configuration `j`: `Σᵢ Ψ*(i) H i j / Ψ*(j)`. -/
noncomputable def localEnergy (H : ℕ → ℕ → 𝕜) (n : ℕ) (ψ : ℕ → 𝕜) (j : ℕ) : 𝕜 :=
  ∑ i ∈ range n, star (ψ i / ψ j) * H i j

end peps

end QLPeps.Evaluator

namespace QLPeps.Evaluator

variable {Key : Type*} [DecidableEq Key] {𝕜 : Type*} [RCLike 𝕜]

/-- An observable map with exactly the keys satisfying `keys`, each once, the list of key `k` having
`len k` values. -/
def Declares (keys : Key → Prop) (len : Key → ℕ) (o : Obs Key 𝕜) : Prop :=
  (o.map Prod.fst).Nodup ∧ (∀ k, keys k ↔ k ∈ o.map Prod.fst) ∧ ∀ kv ∈ o, kv.2.length = len kv.1

/-- The `j`-th value of observable `k` in an observable map. -/
def valueAt (o : Obs Key 𝕜) (k : Key) (j : ℕ) : 𝕜 := ((o.lookup k).getD []).getD j 0

end QLPeps.Evaluator
