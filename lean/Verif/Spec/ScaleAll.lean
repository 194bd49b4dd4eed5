import Verif.Spec.ExactRun

/-!
# Specification: the tensors of every site multiplied by a number of the site
-/

namespace QLPeps.ScaleAll.Spec

universe u

open QLPeps.Peps (Tn)

noncomputable section

variable {𝕜 : Type u} [RCLike 𝕜]

/-- the tensors of every site `s` multiplied by `κ s` -/
def scaleBy (κ : QLPeps.Site → 𝕜) (t : QLPeps.Site → ℕ → Tn 𝕜) : QLPeps.Site → ℕ → Tn 𝕜 :=
  fun s b => ⟨(t s b).shape, fun x => κ s * (t s b).elem x⟩

/-- `g'` is `g` with the elements of the tensors of every site of the lattice multiplied by the number of the
site, two states per site -/
def ScaledBy (rows cols : ℕ) (t : QLPeps.Site → ℕ → Tn 𝕜) (κ : QLPeps.Site → 𝕜)
    (g g' : QLPeps.Evaluator.Tps QLPeps.Site (List ℕ) 𝕜) : Prop :=
  ∀ q : QLPeps.Tps.Spec.Site rows cols, ∀ b < 2, ∀ i < (t (q.1, q.2) b).shape.getD 0 0,
    ∀ j < (t (q.1, q.2) b).shape.getD 1 0, ∀ k < (t (q.1, q.2) b).shape.getD 2 0,
    ∀ m < (t (q.1, q.2) b).shape.getD 3 0,
      g' (q.1, q.2) b [i, j, k, m] = κ (q.1, q.2) * g (q.1, q.2) b [i, j, k, m]

end

end QLPeps.ScaleAll.Spec
