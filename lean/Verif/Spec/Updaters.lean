import Verif.Model.Updaters
import Mathlib.MeasureTheory.Measure.Lebesgue.Basic
import Mathlib.Analysis.Complex.Basic
import Mathlib.Algebra.BigOperators.Group.Finset.Basic

/-! # Specifications used for the Monte-Carlo updates -/

open MeasureTheory Set

namespace QLPeps.Updaters

/-- The contractor is exact for the wave function `ψ`: replacement traces return the amplitude
of the configuration with the replaced local states. -/
structure Exact {A Γ : Type*} (C : Contractor A Γ) (ψ : Config → A) : Prop where
  nn : ∀ env c s1 s2 d a b, C.nnTrace env c s1 s2 d a b = ψ (setSite (setSite c s1 a) s2 b)
  tnn : ∀ env c s1 s2 s3 d a b e, C.tnnTrace env c s1 s2 s3 d a b e =
    ψ (setSite (setSite (setSite c s1 a) s2 b) s3 e)

/-- Probability that the exchange update on sites `s1`, `s2` moves from configuration `c`
(with amplitude `ψ c`) to configuration `c'`, for a random number uniform in `[0,1)`. -/
noncomputable def exchangeProb {Γ : Type*} (C : Contractor ℂ Γ) (ψ : Config → ℂ) (env : Γ)
    (s1 s2 : Site) (d : Orient) (c c' : Config) : ℝ :=
  (volume {u : ℝ | u ∈ Ico (0 : ℝ) 1 ∧
    (nnExchange C (fun z : ℂ => ‖z‖) (fun _ => u) s1 s2 d ⟨c, ψ c, env, 0⟩).1.config = c'}).toReal

/-- The same for an update that may hit undefined behaviour: probability of a defined step
that ends in `c'`. -/
noncomputable def stepProb {Γ : Type*}
    (step : (ℕ → ℝ) → Walker ℂ Γ → Option (Walker ℂ Γ × Bool)) (ψ : Config → ℂ) (env : Γ)
    (c c' : Config) : ℝ :=
  (volume {u : ℝ | u ∈ Ico (0 : ℝ) 1 ∧
    (step (fun _ => u) ⟨c, ψ c, env, 0⟩).map (fun r => r.1.config) = some c'}).toReal

/-- distribution over the finite set `Ω` after one step of the transition probability `P` -/
noncomputable def pushStep (Ω : Finset Config) (μ : Config → ℝ) (P : Config → Config → ℝ) :
    Config → ℝ := fun c' => ∑ c ∈ Ω, μ c * P c c'

/-- electrons of each spin in a Hubbard site state: 0 = both, 1 = up, 2 = down, 3 = empty -/
def upElectrons (s : ℕ) : ℕ := if s = 0 ∨ s = 1 then 1 else 0
def downElectrons (s : ℕ) : ℕ := if s = 0 ∨ s = 2 then 1 else 0

end QLPeps.Updaters
