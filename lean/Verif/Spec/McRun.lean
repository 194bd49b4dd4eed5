import Verif.Spec.Chain
import Verif.Spec.ExactRun
import Verif.Model.McRun
import Mathlib.MeasureTheory.Integral.Bochner.Set
import Mathlib.Analysis.Calculus.Deriv.Basic
import Mathlib.Analysis.SpecialFunctions.Log.Basic

/-!
# Specification: a rank in equilibrium, and what its estimates are worth
-/

open MeasureTheory ProbabilityTheory

namespace QLPeps.McRun.Spec

universe u

open QLPeps.Chain.Spec
open QLPeps.Peps (Tn)
open QLPeps.Spec (SpinCfg toConfig)
open QLPeps.Tps.Spec (Bond)
open QLPeps.SolverRun.Spec (amplitude)
open QLPeps.ExactRun.Spec (energy along overlap)

/-- The random numbers `U` of a rank are independent and uniform, its configuration at the start is
independent of them and distributed according to the weights `wt` on `Ω`. -/
structure Equilibrium {S : Type*} [MeasurableSpace S] (μ : Measure S) (Ω : Finset Config)
    (wt : Config → ℝ) (U : ℕ → S → ℝ) (start : S → Config) : Prop where
  stream : IidUniform μ U
  mem : ∀ ω, start ω ∈ Ω
  measurable : ∀ c, MeasurableSet {ω | start ω = c}
  law : ∀ c ∈ Ω, (μ {ω | start ω = c}).toReal = wt c / ∑ c ∈ Ω, wt c
  indep : ∀ c B, MeasurableSet[⨆ i, MeasurableSpace.comap (U i) inferInstance] B →
    μ ({ω | start ω = c} ∩ B) = μ {ω | start ω = c} * μ B

/-- no move of the updater leads out of `Ω`; `phys` is the number of states of a site -/
def Stays (u : Updater) (phys rows cols : ℕ) (Ω : Finset Config) : Prop :=
  match u with
  | .exchange => ∀ c ∈ Ω, ∀ a b, Neighbours rows cols a b → (fun p => c (Equiv.swap a b p)) ∈ Ω
  | .fullSpace => (∀ c ∈ Ω, ∀ a, QLPeps.Spec.InLattice rows cols a → c a < phys) ∧
      ∀ c ∈ Ω, ∀ a b, Neighbours rows cols a b → ∀ x y, x < phys → y < phys →
        Updaters.setSite (Updaters.setSite c a x) b y ∈ Ω
  | .threeSite => ∀ c ∈ Ω, ∀ a b e, Neighbours rows cols a b → Neighbours rows cols b e →
      ∀ x y z, [x, y, z].Perm [c a, c b, c e] →
        Updaters.setSite (Updaters.setSite (Updaters.setSite c a x) b y) e z ∈ Ω

/-- the lattice is large enough for the updater -/
def Big (u : Updater) (rows cols : ℕ) : Prop :=
  match u with
  | .threeSite => 3 ≤ rows ∧ 3 ≤ cols
  | _ => 2 ≤ rows ∧ 2 ≤ cols

variable {𝕜 : Type u} [RCLike 𝕜] {rows cols : ℕ}

/-- What the random results of a run tell about the state `sitps`, whose amplitudes are `ψ`:
* the run returns a result with probability one;
* the expectation of the energy is `⟨ψ|H|ψ⟩ / ⟨ψ|ψ⟩`;
* twice the real part of the expectation of `v · Ostar_mean` is the derivative of `ln ⟨ψ|ψ⟩` in the
  direction `v`;
* if no amplitude is zero, the expectation of `v ·` gradient, plus the covariance of the energy and
  `v · Ostar_mean`, is half the derivative of the energy in the direction `v`. -/
structure Unbiased {S : Type*} [MeasurableSpace S] (μ : Measure S) (dim : Bond .obc rows cols → ℕ)
    (sitps : QLPeps.Site → ℕ → Tn 𝕜) (H : (SpinCfg rows cols → 𝕜) → SpinCfg rows cols → 𝕜)
    (L : List (SpinCfg rows cols)) (run : S → Except Stop (Outcome 𝕜)) : Prop where
  returns : ∀ᵐ ω ∂μ, ∃ o, run ω = .ok o
  energy : ∀ E : S → 𝕜, (∀ ω o, run ω = .ok o → E ω = o.energy) →
    Integrable E μ ∧ ∫ ω, E ω ∂μ = energy H L fun s => amplitude dim sitps (toConfig s)
  ostar : ∀ (v : QLPeps.Site → ℕ → Tn 𝕜) (O : S → 𝕜), (∀ s, ∀ k < 2, (v s k).shape = (sitps s k).shape) →
    (∀ ω o, run ω = .ok o → O ω = overlap rows cols 2 v o.ostarMean) →
    Integrable O μ ∧ HasDerivAt
      (fun t => Real.log (L.map fun s => ‖amplitude dim (along sitps v t) (toConfig s)‖ ^ 2).sum)
      (2 * RCLike.re (∫ ω, O ω ∂μ)) 0
  gradient : (∀ s ∈ L, amplitude dim sitps (toConfig s) ≠ 0) →
    ∀ (v : QLPeps.Site → ℕ → Tn 𝕜) (E O G : S → 𝕜), (∀ s, ∀ k < 2, (v s k).shape = (sitps s k).shape) →
    (∀ ω o, run ω = .ok o → E ω = o.energy ∧ O ω = overlap rows cols 2 v o.ostarMean ∧
      G ω = overlap rows cols 2 v o.gradient) →
    Integrable G μ ∧ HasDerivAt
      (fun t => QLPeps.ExactRun.Spec.energy H L fun s => amplitude dim (along sitps v t) (toConfig s))
      ((2 * RCLike.re (∫ ω, G ω ∂μ +
        (∫ ω, star (E ω) * O ω ∂μ - star (∫ ω, E ω ∂μ) * ∫ ω, O ω ∂μ)) : ℝ) : 𝕜) 0

end QLPeps.McRun.Spec
