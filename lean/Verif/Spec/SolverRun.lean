import Verif.Spec.BmpsTraversal
import Verif.Spec.Energy
import Verif.Model.SolverRun

/-!
# Specification: the wave function of a split-index tensor product state
-/

namespace QLPeps.SolverRun.Spec

universe u

open QLPeps.Tps.Spec (Bond)
open QLPeps.Peps (Tn Lib)
open QLPeps.Contractor (project inside)
open QLPeps.Bmps.Spec (Fits value pair)

variable {𝕜 : Type u} [RCLike 𝕜] {rows cols : ℕ}

/-- the amplitude of a configuration: the value of the network of the tensors it selects -/
noncomputable def amplitude (dim : Bond .obc rows cols → ℕ) (sitps : QLPeps.Site → ℕ → Tn 𝕜)
    (cfg : Config) : 𝕜 :=
  value dim (project sitps cfg)

/-- for every configuration with `d` states per site the selected tensors fit together -/
def FitsAll (dim : Bond .obc rows cols → ℕ) (sitps : QLPeps.Site → ℕ → Tn 𝕜) (d : ℕ) : Prop :=
  ∀ cfg : Config, (∀ s, cfg s < d) → Fits (project sitps cfg) dim

/-- one hole for every site of the lattice: its complex conjugate is the derivative of the amplitude with
respect to the tensor of the site, that is, contracted with any tensor of the right shape it gives the
value of the network with this tensor at the site; with the tensor of a state `k` of the site in
particular, the amplitude of the configuration with the site in state `k` -/
def GoodHoles (dim : Bond .obc rows cols → ℕ) (d : ℕ) (sitps : QLPeps.Site → ℕ → Tn 𝕜) (cfg : Config)
    (hs : List (QLPeps.Site × Tn 𝕜)) : Prop :=
  (hs.map Prod.fst).Nodup ∧ (∀ s, s ∈ hs.map Prod.fst ↔ inside rows cols s) ∧
    ∀ p ∈ hs, p.2.shape = (sitps p.1 (cfg p.1)).shape ∧
      (∀ x : Tn 𝕜, x.shape = p.2.shape →
        pair ⟨p.2.shape, fun x => (starRingEnd 𝕜) (p.2.elem x)⟩ x =
          value dim (Function.update (project sitps cfg) p.1 x)) ∧
      ∀ k < d, pair ⟨p.2.shape, fun x => (starRingEnd 𝕜) (p.2.elem x)⟩ (sitps p.1 k) =
        amplitude dim sitps (Function.update cfg p.1 k)

/-- what a solver returns on every sample of nonzero amplitude, whatever the (not outdated) caches and
whether or not holes are asked for -/
def Returns (lib : Lib 𝕜) (dim : Bond .obc rows cols → ℕ) (sitps : QLPeps.Site → ℕ → Tn 𝕜)
    (solver : Config → Bool → Contractor.Ctr (List (Tn 𝕜)) (Tn 𝕜) (Tn 𝕜) → Except Contractor.Fail (Result 𝕜))
    (E : QLPeps.Spec.SpinCfg rows cols → 𝕜) : Prop :=
  ∀ s calchols c, Contractor.Fresh (QLPeps.Bmps.tensorOps lib rows cols) rows cols (project sitps (QLPeps.Spec.toConfig s)) c →
    amplitude dim sitps (QLPeps.Spec.toConfig s) ≠ 0 →
    ∃ r, solver (QLPeps.Spec.toConfig s) calchols c = .ok r ∧ r.energy = E s

end QLPeps.SolverRun.Spec
