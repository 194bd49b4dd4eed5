import Verif.Spec.Lattice
import Mathlib.Analysis.SpecialFunctions.Exp
import Mathlib.Algebra.BigOperators.Group.Finset.Basic

/-! # Specification: the Jastrow exponent -/

namespace QLPeps.Jastrow

/-- site number `i` of a lattice with `Lx` columns -/
def siteOf (Lx i : ℕ) : Site := (i / Lx, i % Lx)

/-- `J(n) = Σ_{i<j} v_ij n_i n_j`, each pair once (the convention stated in jastrow_factor.h) -/
noncomputable def exponent (Ly Lx : ℕ) (v : ℕ → ℕ → ℝ) (n : Site → ℕ) : ℝ :=
  ∑ j ∈ Finset.range (Ly * Lx), ∑ i ∈ Finset.range j,
    v i j * (n (siteOf Lx i) : ℝ) * (n (siteOf Lx j) : ℝ)

/-- particle number of a t-J site state: up and down carry one particle, `2` is empty -/
def particles (s : ℕ) : ℕ := if s = 2 then 0 else 1

end QLPeps.Jastrow
