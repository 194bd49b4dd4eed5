import Verif.Model.BmpsCano
import Verif.Spec.BmpsVar

/-!
# Specification for the canonical forms of a boundary MPS

Isometric tensors, the canonical form about a tensor, reduced density matrices and their entropies.
-/

namespace QLPeps.BmpsCano.Spec

open QLPeps.BmpsVar.Spec
open QLPeps.Bmps (nil)
open QLPeps.Peps (Tn Lib sumCoors)

noncomputable section

variable {𝕜 : Type*} [RCLike 𝕜]

/-- What is assumed of the factorizations: `QR` and `SVD` as for the compressions, `LQ` reproduces its
argument and the rows of `Q` are orthonormal, the `SVD` without truncation drops no nonzero singular
value. -/
structure Good (fac : Facs 𝕜) : Prop where
  lib : ∀ te dmin dmax, Factorizations (fac.lib te dmin dmax)
  lq : ∀ t, ∃ k, (fac.lq t).1.shape = t.shape.take 1 ++ [k] ∧ (fac.lq t).2.shape = k :: t.shape.drop 1 ∧
    (∀ x y, List.Forall₂ (· < ·) x (t.shape.take 1) → List.Forall₂ (· < ·) y (t.shape.drop 1) →
      ∑ m ∈ Finset.range k, (fac.lq t).1.elem (x ++ [m]) * (fac.lq t).2.elem (m :: y) = t.elem (x ++ y)) ∧
    ∀ m < k, ∀ m' < k, sumCoors (t.shape.drop 1) (fun y =>
      (fac.lq t).2.elem (m :: y) * (starRingEnd 𝕜) ((fac.lq t).2.elem (m' :: y))) = if m = m' then 1 else 0
  full : Factorizations fac.full
  keeps : ∀ t, Keeps fac.full t 1

/-- isometric from the left and outer legs to the right leg -/
def LeftIso (e : Tn 𝕜) : Prop :=
  ∃ A X B, e.shape = [A, X, B] ∧ ∀ b < B, ∀ b' < B, ∑ a ∈ Finset.range A, ∑ x ∈ Finset.range X,
    (starRingEnd 𝕜) (e.elem [a, x, b]) * e.elem [a, x, b'] = if b = b' then 1 else 0

/-- isometric from the right and outer legs to the left leg -/
def RightIso (e : Tn 𝕜) : Prop :=
  ∃ A X B, e.shape = [A, X, B] ∧ ∀ a < A, ∀ a' < A, ∑ x ∈ Finset.range X, ∑ b ∈ Finset.range B,
    e.elem [a, x, b] * (starRingEnd 𝕜) (e.elem [a', x, b]) = if a = a' then 1 else 0

/-- the canonical form about the tensor `c` -/
def Canonical (c : ℕ) (es : List (Tn 𝕜)) : Prop :=
  (∀ i < c, LeftIso (es.getD i nil)) ∧ ∀ i, c < i → i < es.length → RightIso (es.getD i nil)

/-- the reduced density matrix of the legs with dimensions before those of `ds`, in the state `φ` -/
def reduced (ds : List ℕ) (φ : List ℕ → 𝕜) (x x' : List ℕ) : 𝕜 :=
  sumCoors ds fun y => φ (x ++ y) * (starRingEnd 𝕜) (φ (x' ++ y))

/-- the powers of a matrix with the indices `ds` -/
def power (ds : List ℕ) (ρ : List ℕ → List ℕ → 𝕜) : ℕ → List ℕ → List ℕ → 𝕜
  | 0, x, x' => if x = x' then 1 else 0
  | n + 1, x, x' => sumCoors ds fun z => power ds ρ n x z * ρ z x'

/-- the trace of a matrix -/
def trace (ds : List ℕ) (ρ : List ℕ → List ℕ → 𝕜) : 𝕜 := sumCoors ds fun x => ρ x x

/-- a spectral decomposition of a matrix: orthonormal vectors `v k` to the eigenvalues `p k` -/
def Spectrum (ds : List ℕ) (ρ : List ℕ → List ℕ → 𝕜) (D : ℕ) (p : ℕ → ℝ) : Prop :=
  ∃ v : ℕ → List ℕ → 𝕜, (∀ k < D, ∀ k' < D, overlap ds (v k) (v k') = if k = k' then 1 else 0) ∧
    ∀ x x', List.Forall₂ (· < ·) x ds → List.Forall₂ (· < ·) x' ds →
      ρ x x' = ∑ k ∈ Finset.range D, (p k : 𝕜) * v k x * (starRingEnd 𝕜) (v k x')

/-- the normalized state -/
def unit (ds : List ℕ) (φ : List ℕ → 𝕜) : List ℕ → 𝕜 := fun xs => φ xs / ((Real.sqrt (normSq ds φ) : ℝ) : 𝕜)

/-- objects as they come from the constructors and from the multiplication with a row: for the
variational schemes, all tensors but the first are isometric -/
def Fresh (ds : List ℕ) (o : Obj 𝕜) : Prop :=
  IsMps o.tens 1 ds ∧ (o = product o.tens.length ∨ o = unmarked o.tens ∨ o = finalized o.tens ∧ Canonical 0 o.tens)

/-- the arguments of a call are in range for an object of `N` tensors -/
def InRange (N : ℕ) : Call → Prop
  | .centralize c => c < N
  | .left stop => stop + 1 < N
  | .right stop => 1 ≤ stop ∧ stop < N
  | .leftTen i => i + 1 < N
  | .rightTen i => 1 ≤ i ∧ i < N
  | .truncate _ _ _ i => 1 ≤ i ∧ i < N
  | .entropy _ | .reverse => 0 < N

/-- what a call is supposed to do to the state of the outer legs with dimensions `ds`: `Reverse` reads
the legs backwards, the entropies are those of the normalized state, and all else leaves it as it is -/
def meaning : Call → List ℕ × (List ℕ → 𝕜) → List ℕ × (List ℕ → 𝕜)
  | .reverse, s => (s.1.reverse, fun xs => s.2 xs.reverse)
  | .entropy _, s => (s.1, unit s.1 s.2)
  | _, s => s

/-- no call of `Reverse` and of `RightCanonicalizeTruncate` -/
def Plain (hs : List Call) : Prop := ∀ q ∈ hs, q ≠ .reverse ∧ ∀ te dmin dmax i, q ≠ .truncate te dmin dmax i

/-- only calls of `Centralize`, `GetEntanglementEntropy` and `Reverse` -/
def Whole (hs : List Call) : Prop := ∀ q ∈ hs, (∃ c, q = .centralize c) ∨ (∃ n, q = .entropy n) ∨ q = .reverse

/-- the state of an object after a history of calls -/
def after (hs : List Call) (ds : List ℕ) (o : Obj 𝕜) : List ℕ × (List ℕ → 𝕜) :=
  hs.foldl (fun s q => meaning q s) (ds, fun xs => amp o.tens xs 0)

/-- `SVD` of a three-leg tensor keeps the largest singular values: what is orthogonal to the kept vectors `vt` is not
stretched more than any of them -/
def Largest (lib : Lib 𝕜) : Prop :=
  ∀ (t : Tn 𝕜) (v : List ℕ → 𝕜),
    (∀ m < (lib.svd t 1).s.dim, sumCoors (t.shape.drop 1) (fun y => (lib.svd t 1).vt.elem (m :: y) * v y) = 0) →
    ∀ m < (lib.svd t 1).s.dim,
      sumCoors (t.shape.take 1) (fun x => ‖sumCoors (t.shape.drop 1) fun y => t.elem (x ++ y) * v y‖ ^ 2) ≤
        (lib.svd t 1).s.val m ^ 2 * sumCoors (t.shape.drop 1) (fun y => ‖v y‖ ^ 2)

/-- the Schmidt rank of a state between the first `i` legs and the others is at most `D` -/
def Rank (ds : List ℕ) (i D : ℕ) (ψ : List ℕ → 𝕜) : Prop :=
  ∃ f g : ℕ → List ℕ → 𝕜, ∀ x y, List.Forall₂ (· < ·) x (ds.take i) → List.Forall₂ (· < ·) y (ds.drop i) →
    ψ (x ++ y) = ∑ k ∈ Finset.range D, f k x * g k y

/-- an object represents a state -/
def Represents (o : Obj 𝕜) (s : List ℕ × (List ℕ → 𝕜)) : Prop :=
  IsMps o.tens 1 s.1 ∧ ∀ xs, List.Forall₂ (· < ·) xs s.1 → amp o.tens xs 0 = s.2 xs

end

end QLPeps.BmpsCano.Spec
