import Verif.Spec.Bmps
import Verif.Spec.Traversal

/-!
# Specification: what exact traces in a traversal are

Every number shown to a solver is the value of the network with the replaced tensors, whatever
tensors of the right shape replace the original ones.
-/

namespace QLPeps.Bmps.Spec

universe u

open QLPeps.Tps.Spec (Bond)
open QLPeps.Peps (Tn Lib)
open QLPeps.Contractor

variable {𝕜 : Type u} [RCLike 𝕜] {rows cols : ℕ}

/-- what is shown at a visit is exact; `x1 row` is the tensor put at the first site of the
correlations along a row -/
def ExactVisit (dim : Bond .obc rows cols → ℕ) (t : QLPeps.Site → Tn 𝕜) (x1 : ℕ → Option (Tn 𝕜)) :
    Visit (Tn 𝕜) 𝕜 (Tn 𝕜) → Prop
  | .psi _ _ a => a = value dim t
  | .hole s h => h.shape = (t s).shape ∧
      ∀ x : Tn 𝕜, x.shape = (t s).shape → pair h x = value dim (Function.update t s x)
  | .site s q => ∀ x : Tn 𝕜, x.shape = (t s).shape → q x = some (value dim (Function.update t s x))
  | .bond _ s1 s2 q => Replaced s1 s2 q
  | .link _ s1 s2 q => Replaced s1 s2 q
  | .link5 _ s1 s2 q => Replaced s1 s2 q
  | .pair s1 s2 q => ∀ x : Tn 𝕜, x1 s1.1 = some x → x.shape = (t s1).shape →
      ∀ y : Tn 𝕜, y.shape = (t s2).shape →
        q y = some (value dim (Function.update (Function.update t s1 x) s2 y))
where
  /-- the trace with the tensors at two sites replaced -/
  Replaced (s1 s2 : QLPeps.Site) (q : Tn 𝕜 → Tn 𝕜 → Option 𝕜) : Prop :=
    ∀ x y : Tn 𝕜, x.shape = (t s1).shape → y.shape = (t s2).shape →
      q x y = some (value dim (Function.update (Function.update t s1 x) s2 y))

/-- every nearest-neighbour bond is shown exactly once; if asked for, every hole, both diagonals of
every plaquette, and every link of length √5 that runs from lower left to upper right -/
def Complete (rows cols : ℕ) (pl : Plan (Tn 𝕜)) (vs : List (Visit (Tn 𝕜) 𝕜 (Tn 𝕜))) : Prop :=
  ((vs.filterMap Visit.bondOf).Nodup ∧ ∀ s1 s2, (s1, s2) ∈ vs.filterMap Visit.bondOf ↔
    inside rows cols s1 ∧ inside rows cols s2 ∧ (s2 = (s1.1, s1.2 + 1) ∨ s2 = (s1.1 + 1, s1.2))) ∧
  (pl.holes = true → (vs.filterMap Visit.holeOf).Nodup ∧ ∀ s, s ∈ vs.filterMap Visit.holeOf ↔
    inside rows cols s) ∧
  (pl.links = true → (vs.filterMap Visit.linkOf).Nodup ∧ ∀ s1 s2,
    (s1, s2) ∈ vs.filterMap Visit.linkOf ↔ inside rows cols s1 ∧ inside rows cols s2 ∧
      (s2 = (s1.1 + 1, s1.2 + 1) ∨ s1.1 = s2.1 + 1 ∧ s2.2 = s1.2 + 1)) ∧
  (pl.links = true ∧ pl.links5 = true → (vs.filterMap Visit.link5Of).Nodup ∧ ∀ s1 s2,
    (s1, s2) ∈ vs.filterMap Visit.link5Of ↔ inside rows cols s1 ∧ inside rows cols s2 ∧
      (s1.1 = s2.1 + 1 ∧ s2.2 = s1.2 + 2 ∨ s1.1 = s2.1 + 2 ∧ s2.2 = s1.2 + 1))

/-- amplitude evaluated at the plaquette with upper left corner `s`, within its two columns -/
def plaquetteV (o : Ops (Tn 𝕜) (Tn 𝕜) (List (Tn 𝕜)) (Tn 𝕜) (Tn 𝕜) 𝕜 (Tn 𝕜)) (rows cols : ℕ)
    (t : QLPeps.Site → Tn 𝕜) (s : QLPeps.Site) : 𝕜 :=
  o.nnn .vertical (benv2 o rows cols t .up s.2 s.1)
    (facing o rows cols .left (beyond o rows cols t .left s.2) s.1)
    (facing o rows cols .left (beyond o rows cols t .left s.2) (s.1 + 1))
    (facing o rows cols .right (beyond o rows cols t .right (s.2 + 1)) s.1)
    (facing o rows cols .right (beyond o rows cols t .right (s.2 + 1)) (s.1 + 1))
    (t s) (t (s.1 + 1, s.2)) (t (s.1, s.2 + 1)) (t (s.1 + 1, s.2 + 1))
    (benv2 o rows cols t .down s.2 (rows - 1 - (s.1 + 1)))

end QLPeps.Bmps.Spec
