import Verif.Spec.Chain
import Verif.Props.Updaters

/-!
# What the exchange updater can reach
-/

namespace QLPeps.Reach.Spec

open QLPeps.Updaters QLPeps.Chain.Spec

variable {A : Type*}

/-- The two configurations agree outside the lattice and have every local state on the same number of
sites. -/
def SameComposition (rows cols : ℕ) (c c' : Config) : Prop :=
  (∀ p, ¬ QLPeps.Spec.InLattice rows cols p → c p = c' p) ∧
    ∀ s, QLPeps.Spec.occupancy rows cols c s = QLPeps.Spec.occupancy rows cols c' s

/-- One exchange update of a bond of the lattice leads from `c` to `c'` with positive probability: it does so
whenever the random number is below some `p > 0`. -/
def Moves (ψ : Config → A) (ab : A → ℝ) (rows cols : ℕ) (c c' : Config) : Prop :=
  ∃ a b d, Neighbours rows cols a b ∧ ∃ p : ℝ, 0 < p ∧ ∀ (ξ : ℕ → ℝ) (draws : ℕ), ξ draws < p →
    (nnExchange (exactContractor ψ) ab ξ a b d ⟨c, ψ c, (), draws⟩).1.config = c'

end QLPeps.Reach.Spec
