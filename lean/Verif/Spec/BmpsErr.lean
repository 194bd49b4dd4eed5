import Verif.Spec.BmpsVar

/-!
# Specification for the error of the boundary-MPS contraction

A row of the network is a bilinear form of the legs below it and the legs above it, a column one of the legs to its left
and the legs to its right. These are bounds on those forms.
-/

namespace QLPeps.BmpsErr.Spec

open QLPeps.Peps (Tn sumCoors)
open QLPeps.BmpsVar.Spec (rowAmp normSq)

noncomputable section

variable {𝕜 : Type*} [RCLike 𝕜]

/-- Row `r` of a lattice with `cols` columns, contracted with any state of the legs below it and any state of the legs
above it, does not exceed `τ` times their norms. -/
def RowBound (cols : ℕ) (t : QLPeps.Site → Tn 𝕜) (r : ℕ) (τ : ℝ) : Prop :=
  let row := (List.range cols).map fun c => t (r, c)
  let south := (List.range cols).map fun c => (t (r, c)).shape.getD 1 0
  let north := (List.range cols).map fun c => (t (r, c)).shape.getD 3 0
  ∀ φ ψ : List ℕ → 𝕜, ‖sumCoors south fun xs => sumCoors north fun ys => φ xs * rowAmp .down row xs ys 0 * ψ ys‖ ^ 2 ≤
    τ ^ 2 * (normSq south φ * normSq north ψ)

/-- the same for column `c` of a lattice with `rows` rows -/
def ColBound (rows : ℕ) (t : QLPeps.Site → Tn 𝕜) (c : ℕ) (τ : ℝ) : Prop :=
  let col := (List.range rows).map fun r => t (r, c)
  let west := (List.range rows).map fun r => (t (r, c)).shape.getD 0 0
  let east := (List.range rows).map fun r => (t (r, c)).shape.getD 2 0
  ∀ φ ψ : List ℕ → 𝕜, ‖sumCoors west fun xs => sumCoors east fun ys => φ xs * rowAmp .left col xs ys 0 * ψ ys‖ ^ 2 ≤
    τ ^ 2 * (normSq west φ * normSq east ψ)

end

end QLPeps.BmpsErr.Spec
