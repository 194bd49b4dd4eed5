import Verif.Model.Contractor
import Verif.Spec.ExactRun

/-!
# Specification: the same state with the tensors of one site multiplied by a number
-/

namespace QLPeps.ScaleRun.Spec

universe u

open QLPeps.Peps (Tn)

noncomputable section

variable {𝕜 : Type u} [RCLike 𝕜]

/-- the tensors of the site `p` multiplied by `k`, the others as they are -/
def scaleSite (k : 𝕜) (p : QLPeps.Site) (t : QLPeps.Site → ℕ → Tn 𝕜) : QLPeps.Site → ℕ → Tn 𝕜 :=
  fun s b => ⟨(t s b).shape, fun x => if s = p then k * (t s b).elem x else (t s b).elem x⟩

/-- `g'` is `g` with the elements of the tensors of `p` multiplied by `c`, for all elements of the tensors
of the lattice, two states per site -/
def ScaledAt (rows cols : ℕ) (t : QLPeps.Site → ℕ → Tn 𝕜) (c : 𝕜) (p : QLPeps.Site)
    (g g' : QLPeps.Evaluator.Tps QLPeps.Site (List ℕ) 𝕜) : Prop :=
  ∀ q : QLPeps.Tps.Spec.Site rows cols, ∀ b < 2, ∀ i < (t (q.1, q.2) b).shape.getD 0 0,
    ∀ j < (t (q.1, q.2) b).shape.getD 1 0, ∀ k < (t (q.1, q.2) b).shape.getD 2 0,
    ∀ m < (t (q.1, q.2) b).shape.getD 3 0,
      g' (q.1, q.2) b [i, j, k, m] =
        (if ((q.1 : ℕ), (q.2 : ℕ)) = p then c else 1) * g (q.1, q.2) b [i, j, k, m]

end

end QLPeps.ScaleRun.Spec
