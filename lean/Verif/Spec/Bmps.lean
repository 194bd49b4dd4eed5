import Verif.Model.Peps
import Verif.Spec.Peps
import Verif.Spec.Traversal

/-!
# Specification: the value of a two-dimensional tensor network

The network has one tensor with four legs (west, south, east, north) on every site of an open
lattice. Its value is the sum, over all values of all bonds, of the product of the tensors. Bonds and
legs are those of `Spec/Tps`.
-/

namespace QLPeps.Bmps.Spec

open QLPeps.Tps.Spec (Bond leg external)
open QLPeps.Peps (Tn Lib)
open QLPeps.Contractor (Ops benv facing beyond)

variable {𝕜 : Type*} [RCLike 𝕜] {rows cols : ℕ}

/-- the tensors fit together with the bond dimensions `dim`; bonds leaving the lattice have dimension
one -/
structure Fits (t : QLPeps.Site → Tn 𝕜) (dim : Bond .obc rows cols → ℕ) : Prop where
  shape : ∀ s : QLPeps.Tps.Spec.Site rows cols, (t (s.1, s.2)).shape =
    [dim (leg .obc s 0), dim (leg .obc s 1), dim (leg .obc s 2), dim (leg .obc s 3)]
  external : ∀ b, external .obc b → dim b = 1

/-- the value of the network -/
noncomputable def value (dim : Bond .obc rows cols → ℕ) (t : QLPeps.Site → Tn 𝕜) : 𝕜 :=
  ∑ β ∈ Fintype.piFinset fun b => Finset.range (dim b),
    ∏ s : QLPeps.Tps.Spec.Site rows cols, (t (s.1, s.2)).elem
      [β (leg .obc s 0), β (leg .obc s 1), β (leg .obc s 2), β (leg .obc s 3)]

/-- all four legs of `h` contracted with those of `x` -/
noncomputable def pair (h x : Tn 𝕜) : 𝕜 :=
  ∑ i ∈ Finset.range (h.shape.getD 0 0), ∑ j ∈ Finset.range (h.shape.getD 1 0),
    ∑ k ∈ Finset.range (h.shape.getD 2 0), ∑ m ∈ Finset.range (h.shape.getD 3 0),
      h.elem [i, j, k, m] * x.elem [i, j, k, m]

/-- The factorizations are exact and the compression of the boundary MPS truncates nothing. -/
structure Lossless (lib : Lib 𝕜) : Prop where
  exact : QLPeps.Peps.Spec.Exact lib
  err : ∀ t, (lib.svd t 1).err = 0

/-- everything but site `s`, from the environments of its column -/
noncomputable def holeV (o : Ops (Tn 𝕜) (Tn 𝕜) (List (Tn 𝕜)) (Tn 𝕜) (Tn 𝕜) 𝕜 (Tn 𝕜)) (rows cols : ℕ)
    (t : QLPeps.Site → Tn 𝕜) (s : QLPeps.Site) : Tn 𝕜 :=
  o.hole .vertical (benv o rows cols t .up s.2 s.1)
    (facing o rows cols .left (beyond o rows cols t .left s.2) s.1)
    (facing o rows cols .right (beyond o rows cols t .right s.2) s.1)
    (benv o rows cols t .down s.2 (rows - 1 - s.1))

/-- amplitude of the network evaluated at one site, within its column -/
noncomputable def oneV (o : Ops (Tn 𝕜) (Tn 𝕜) (List (Tn 𝕜)) (Tn 𝕜) (Tn 𝕜) 𝕜 (Tn 𝕜)) (rows cols : ℕ)
    (t : QLPeps.Site → Tn 𝕜) (s : QLPeps.Site) : 𝕜 :=
  o.one .vertical (benv o rows cols t .up s.2 s.1)
    (facing o rows cols .left (beyond o rows cols t .left s.2) s.1)
    (facing o rows cols .right (beyond o rows cols t .right s.2) s.1) (t s)
    (benv o rows cols t .down s.2 (rows - 1 - s.1))

end QLPeps.Bmps.Spec
