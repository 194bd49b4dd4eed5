import Verif.Spec.SolverRun
import Verif.Model.ExactRun

/-!
# Specification: energy of a state over a list of configurations, and directions in the space of states
-/

namespace QLPeps.ExactRun.Spec

universe u

open QLPeps.Peps (Tn)
open QLPeps.Evaluator (Tps)
open QLPeps.Spec (SpinCfg)

noncomputable section

variable {𝕜 : Type u} [RCLike 𝕜] {rows cols : ℕ}

/-- `⟨ψ|H|ψ⟩ / ⟨ψ|ψ⟩`, where only the configurations in `L` are summed over -/
def energy (H : (SpinCfg rows cols → 𝕜) → SpinCfg rows cols → 𝕜) (L : List (SpinCfg rows cols))
    (ψ : SpinCfg rows cols → 𝕜) : 𝕜 :=
  (L.map fun s => star (ψ s) * H ψ s).sum / (L.map fun s => star (ψ s) * ψ s).sum

/-- `H` does not connect configurations in `L` with others: on `L`, `H f` depends on the values of `f`
on `L` only -/
def Closed (H : (SpinCfg rows cols → 𝕜) → SpinCfg rows cols → 𝕜) (L : List (SpinCfg rows cols)) : Prop :=
  ∀ f, (∀ s ∈ L, f s = 0) → ∀ s ∈ L, H f s = 0

/-- the state `θ + t v` -/
def along (θ v : QLPeps.Site → ℕ → Tn 𝕜) (t : ℝ) : QLPeps.Site → ℕ → Tn 𝕜 :=
  fun s k => ⟨(θ s k).shape, fun x => (θ s k).elem x + (t : 𝕜) * (v s k).elem x⟩

/-- the sum over all elements of all tensors of the lattice of `v*` times `g`; `d` is the number of
states of a site -/
def overlap (rows cols d : ℕ) (v : QLPeps.Site → ℕ → Tn 𝕜) (g : Tps QLPeps.Site (List ℕ) 𝕜) : 𝕜 :=
  ∑ s : QLPeps.Tps.Spec.Site rows cols, ∑ b ∈ Finset.range d,
    ∑ i ∈ Finset.range ((v (s.1, s.2) b).shape.getD 0 0),
    ∑ j ∈ Finset.range ((v (s.1, s.2) b).shape.getD 1 0),
    ∑ k ∈ Finset.range ((v (s.1, s.2) b).shape.getD 2 0),
    ∑ m ∈ Finset.range ((v (s.1, s.2) b).shape.getD 3 0),
      star ((v (s.1, s.2) b).elem [i, j, k, m]) * g (s.1, s.2) b [i, j, k, m]

end

end QLPeps.ExactRun.Spec
