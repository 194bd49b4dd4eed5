import Verif.Model.TrgHoles
import Verif.Spec.TrgTensor

/-!
# Specification for the holes of the TRG contractor
-/

namespace QLPeps.Trg.Spec

open QLPeps.Peps (Tn Lib)

noncomputable section

variable {𝕜 : Type} [RCLike 𝕜]

/-- the contraction of a hole with a tensor over all four legs (no conjugation) -/
def pair (h t : Tn 𝕜) : 𝕜 :=
  ∑ a ∈ Finset.range (t.shape.getD 0 0), ∑ b ∈ Finset.range (t.shape.getD 1 0), ∑ c ∈ Finset.range (t.shape.getD 2 0),
    ∑ d ∈ Finset.range (t.shape.getD 3 0), h.elem [a, b, c, d] * t.elem [a, b, c, d]

/-- What `SVD` of a tensor with four legs, split two and two, returns are singular vectors: `U† T = S V†` and
`T V = U S`, for as many of them as were kept. -/
structure SingularVectors (lib : Lib 𝕜) : Prop where
  left : ∀ (t : Tn 𝕜) (a b c e : ℕ), t.shape = [a, b, c, e] → ∀ m < (lib.svd t 2).s.dim, ∀ z < c, ∀ w < e,
    ∑ x ∈ Finset.range a, ∑ y ∈ Finset.range b, (starRingEnd 𝕜) ((lib.svd t 2).u.elem [x, y, m]) * t.elem [x, y, z, w] =
      ((lib.svd t 2).s.val m : 𝕜) * (lib.svd t 2).vt.elem [m, z, w]
  right : ∀ (t : Tn 𝕜) (a b c e : ℕ), t.shape = [a, b, c, e] → ∀ m < (lib.svd t 2).s.dim, ∀ x < a, ∀ y < b,
    ∑ z ∈ Finset.range c, ∑ w ∈ Finset.range e, t.elem [x, y, z, w] * (starRingEnd 𝕜) ((lib.svd t 2).vt.elem [m, z, w]) =
      (lib.svd t 2).u.elem [x, y, m] * ((lib.svd t 2).s.val m : 𝕜)

/-- No root of a kept singular value is cut off when the roots are inverted, except zero. -/
def Resolved (lib : Lib 𝕜) (relEps tiny : ℝ) (g : Trg (Tn 𝕜) (Tn 𝕜) (Iso 𝕜)) : Prop :=
  ∀ sc ∈ g.scales, ∀ i t d, sc.tens i = some t → sc.split i = some d →
    ∀ m < (factors lib d.type1 t).s.dim, (factors lib d.type1 t).s.val m = 0 ∨
      max (relEps * maxAbs (rootDiag (factors lib d.type1 t).s)) tiny < Real.sqrt ((factors lib d.type1 t).s.val m)

/-- The contractor and the caller's network after the calls of a sampler. -/
def after {T P I A : Type} (o : Ops T P I A) : Trg T P I → Net T → List (Call T) → Except Fail (Trg T P I × Net T)
  | g, tn, [] => .ok (g, tn)
  | g, tn, .trial reps accept :: cs =>
    match beginTrial o g reps with
    | .error e => .error e
    | .ok t =>
      if accept then
        match commit o g t with
        | .error e => .error e
        | .ok g => after o g (Net.sets tn reps) cs
      else after o g tn cs
  | g, tn, .evaluate reps :: cs =>
    match evaluate o g reps with
    | .error e => .error e
    | .ok _ => after o g tn cs
  | g, tn, .trace :: cs =>
    match Trg.trace o g tn with
    | .error e => .error e
    | .ok (g, _) => after o g tn cs

end

end QLPeps.Trg.Spec
