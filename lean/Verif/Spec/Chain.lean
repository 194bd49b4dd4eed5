import Verif.Model.Updaters
import Verif.Spec.Lattice
import Mathlib.Probability.Independence.Basic
import Mathlib.MeasureTheory.Measure.Lebesgue.Basic

/-!
# Specification: independent uniform random numbers

The C++ updaters draw from `std::uniform_real_distribution(0, 1)`. Here a run of the program is a
function of the whole sequence of numbers it may draw, and the sequence is random.
-/

open MeasureTheory ProbabilityTheory

namespace QLPeps.Chain.Spec

/-- the numbers `U 0, U 1, …` are independent and uniform in `[0, 1)` -/
structure IidUniform {Ω : Type*} [MeasurableSpace Ω] (μ : Measure Ω) (U : ℕ → Ω → ℝ) : Prop where
  measurable : ∀ i, Measurable (U i)
  indep : iIndepFun U μ
  law : ∀ i, μ.map (U i) = volume.restrict (Set.Ico 0 1)
  range : ∀ i ω, U i ω ∈ Set.Ico (0 : ℝ) 1

/-- the run came to its end without undefined behaviour, with configuration `c` -/
def EndsIn {A Γ : Type*} (x : Option (Updaters.Walker A Γ)) (c : Config) : Prop :=
  ∃ w, x = some w ∧ w.config = c

/-- `sim ξ c` is a simulation started with configuration `c` that reads its random numbers from
the stream `ξ`. It samples the weights `wt` on the finite set `Ω`:
* where it ends is determined by the random numbers, in a measurable way;
* if the configuration at the start is distributed according to the weights, so is the configuration
  at the end;
* from every configuration of nonzero weight it comes, with probability one, to its end without
  undefined behaviour, in a configuration of nonzero weight. -/
structure Samples {S : Type*} [MeasurableSpace S] (μ : Measure S) (U : ℕ → S → ℝ)
    (Ω : Finset Config) (wt : Config → ℝ) {A Γ : Type*}
    (sim : (ℕ → ℝ) → Config → Option (Updaters.Walker A Γ)) : Prop where
  measurable : ∀ c ∈ Ω, ∀ c', MeasurableSet[⨆ i, MeasurableSpace.comap (U i) inferInstance]
    {ω | EndsIn (sim (fun i => U i ω) c) c'}
  invariant : ∀ c' ∈ Ω,
    ∑ c ∈ Ω, wt c * (μ {ω | EndsIn (sim (fun i => U i ω) c) c'}).toReal = wt c'
  defined : ∀ c ∈ Ω, wt c ≠ 0 →
    μ {ω | ∃ c' ∈ Ω, wt c' ≠ 0 ∧ EndsIn (sim (fun i => U i ω) c) c'} = 1

/-- `a` is the left or upper one of two nearest neighbours of the open lattice -/
def Neighbours (rows cols : ℕ) (a b : Site) : Prop :=
  QLPeps.Spec.InLattice rows cols a ∧ QLPeps.Spec.InLattice rows cols b ∧
    ((a.1 = b.1 ∧ b.2 = a.2 + 1) ∨ (a.2 = b.2 ∧ b.1 = a.1 + 1))

end QLPeps.Chain.Spec
