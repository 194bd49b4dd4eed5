import Verif.Spec.Tps

/-!
# Specification: bond dimensions of a lattice
-/

namespace QLPeps.SplitIndex.Spec

open QLPeps.Tps.Spec (Bond leg external)
open QLPeps.State (BC)

variable {bc : BC} {rows cols : ℕ}

/-- `sh r c k` is the dimension of leg `k` of site `(r, c)`, for legs west, south, east, north; the
dimensions are those of the bonds, and bonds leaving the lattice have dimension one -/
structure Legs (sh : ℕ → ℕ → ℕ → ℕ) (dim : Bond bc rows cols → ℕ) : Prop where
  leg : ∀ (s : QLPeps.Tps.Spec.Site rows cols) (k : Fin 4), sh s.1 s.2 k = dim (leg bc s k)
  external : ∀ b, external bc b → dim b = 1

/-- the vertical and horizontal weights have the dimensions of the bonds -/
structure Weights (dv dh : ℕ → ℕ → ℕ) (dim : Bond bc rows cols → ℕ) : Prop where
  horizontal : ∀ b, dh b.1 b.2 = dim (.inl b)
  vertical : ∀ b, dv b.1 b.2 = dim (.inr b)
  external : ∀ b, external bc b → dim b = 1

/-- a bond between two sites -/
def Between (b : Bond bc rows cols) : Prop := ¬ QLPeps.Tps.Spec.external bc b

/-- all bonds between sites have the same dimension -/
def Uniform (dim : Bond bc rows cols → ℕ) : Prop := ∀ b b', Between b → Between b' → dim b = dim b'

end QLPeps.SplitIndex.Spec
