import Verif.Model.BmpsVar

/-!
# Specification for the variational compressions of the boundary MPS

The amplitudes of a boundary MPS, of its product with a transfer MPO, and the distance between two
states of the outer legs.
-/

namespace QLPeps.BmpsVar.Spec

open QLPeps.Contractor
open QLPeps.Peps (Tn Lib sumCoors)

noncomputable section

variable {𝕜 : Type*} [RCLike 𝕜]

/-- a chain of tensors with the legs `left, outer, right`; `a` is the dimension of the first left leg,
`ds` those of the outer legs, the last right leg has dimension one -/
def IsMps : List (Tn 𝕜) → ℕ → List ℕ → Prop
  | [], a, ds => a = 1 ∧ ds = []
  | e :: es, a, ds => ∃ d b ds', ds = d :: ds' ∧ e.shape = [a, d, b] ∧ IsMps es b ds'

/-- the amplitude of a chain for the values `xs` of its outer legs and `a` of its first left leg -/
def amp : List (Tn 𝕜) → List ℕ → ℕ → 𝕜
  | e :: es, x :: xs, a => ∑ b ∈ Finset.range (e.shape.getD 2 0), e.elem [a, x, b] * amp es xs b
  | _, _, _ => 1

/-- The legs of a site tensor are stored west, south, east, north. A boundary MPS on side `p` meets
them in the order: leg to the previous tensor of the row, leg towards the boundary MPS, leg to the
next tensor, outer leg. -/
def order (p : Pos) {α : Type*} (before inner after outer : α) : List α :=
  match p with
  | .down => [before, inner, after, outer]
  | .left => [inner, after, outer, before]
  | .right => [outer, before, inner, after]
  | .up => [after, outer, before, inner]

/-- a row of site tensors in the order of the boundary MPS on side `p`: `ds` are the dimensions of the
legs towards the boundary MPS, `fs` those of the outer legs -/
def IsMpo (p : Pos) : List (Tn 𝕜) → ℕ → List ℕ → List ℕ → Prop
  | [], a, ds, fs => a = 1 ∧ ds = [] ∧ fs = []
  | t :: ts, a, ds, fs => ∃ x b y ds' fs', ds = x :: ds' ∧ fs = y :: fs' ∧ t.shape = order p a x b y ∧
      IsMpo p ts b ds' fs'

/-- the amplitude of a row -/
def rowAmp (p : Pos) : List (Tn 𝕜) → List ℕ → List ℕ → ℕ → 𝕜
  | t :: ts, x :: xs, y :: ys, a =>
    ∑ b ∈ Finset.range (t.shape.getD ((order p 0 1 2 3).idxOf 2) 0),
      t.elem (order p a x b y) * rowAmp p ts xs ys b
  | _, _, _, _ => 1

/-- the exact product of a boundary MPS with a row -/
def product (p : Pos) (mps mpo : List (Tn 𝕜)) (ds ys : List ℕ) : 𝕜 :=
  sumCoors ds fun xs => amp mps xs 0 * rowAmp p mpo xs ys 0

/-- the scalar product of two states of legs with dimensions `fs` -/
def overlap (fs : List ℕ) (φ ψ : List ℕ → 𝕜) : 𝕜 := sumCoors fs fun ys => (starRingEnd 𝕜) (φ ys) * ψ ys

/-- the squared norm of a state -/
def normSq (fs : List ℕ) (φ : List ℕ → 𝕜) : ℝ := sumCoors fs fun ys => ‖φ ys‖ ^ 2

/-- What is assumed of the factorizations. The shapes are as documented. `QR` reproduces its argument,
the columns of `Q` are orthonormal and not more than the columns of the argument. `SVD` returns
orthonormal singular vectors `u`, `vt` with singular values `s`, for as many as were kept. -/
structure Factorizations (lib : Lib 𝕜) : Prop where
  qr : ∀ t n, ∃ k, (lib.qr t n).1.shape = t.shape.take n ++ [k] ∧
    (lib.qr t n).2.shape = k :: t.shape.drop n ∧ k ≤ (t.shape.drop n).prod ∧
    (∀ x y, List.Forall₂ (· < ·) x (t.shape.take n) → List.Forall₂ (· < ·) y (t.shape.drop n) →
      ∑ m ∈ Finset.range k, (lib.qr t n).1.elem (x ++ [m]) * (lib.qr t n).2.elem (m :: y) =
        t.elem (x ++ y)) ∧
    ∀ m < k, ∀ m' < k, sumCoors (t.shape.take n) (fun x =>
      (starRingEnd 𝕜) ((lib.qr t n).1.elem (x ++ [m])) * (lib.qr t n).1.elem (x ++ [m'])) =
        if m = m' then 1 else 0
  shape : ∀ t n, (lib.svd t n).u.shape = t.shape.take n ++ [(lib.svd t n).s.dim] ∧
    (lib.svd t n).vt.shape = (lib.svd t n).s.dim :: t.shape.drop n
  uu : ∀ t n, ∀ m < (lib.svd t n).s.dim, ∀ m' < (lib.svd t n).s.dim, sumCoors (t.shape.take n) (fun x =>
      (starRingEnd 𝕜) ((lib.svd t n).u.elem (x ++ [m])) * (lib.svd t n).u.elem (x ++ [m'])) =
        if m = m' then 1 else 0
  vv : ∀ t n, ∀ m < (lib.svd t n).s.dim, ∀ m' < (lib.svd t n).s.dim, sumCoors (t.shape.drop n) (fun y =>
      (lib.svd t n).vt.elem (m :: y) * (starRingEnd 𝕜) ((lib.svd t n).vt.elem (m' :: y))) =
        if m = m' then 1 else 0
  ut : ∀ t n, ∀ m < (lib.svd t n).s.dim, ∀ y, List.Forall₂ (· < ·) y (t.shape.drop n) →
    sumCoors (t.shape.take n) (fun x => (starRingEnd 𝕜) ((lib.svd t n).u.elem (x ++ [m])) * t.elem (x ++ y)) =
      ((lib.svd t n).s.val m : 𝕜) * (lib.svd t n).vt.elem (m :: y)
  tv : ∀ t n, ∀ m < (lib.svd t n).s.dim, ∀ x, List.Forall₂ (· < ·) x (t.shape.take n) →
    sumCoors (t.shape.drop n) (fun y => t.elem (x ++ y) * (starRingEnd 𝕜) ((lib.svd t n).vt.elem (m :: y))) =
      (lib.svd t n).u.elem (x ++ [m]) * ((lib.svd t n).s.val m : 𝕜)

/-- `SVD` of `t`, with the first `n` legs as rows, dropped no nonzero singular value -/
def Keeps (lib : Lib 𝕜) (t : Tn 𝕜) (n : ℕ) : Prop :=
  ∀ x y, List.Forall₂ (· < ·) x (t.shape.take n) → List.Forall₂ (· < ·) y (t.shape.drop n) →
    ∑ m ∈ Finset.range (lib.svd t n).s.dim, (lib.svd t n).u.elem (x ++ [m]) *
      ((lib.svd t n).s.val m : 𝕜) * (lib.svd t n).vt.elem (m :: y) = t.elem (x ++ y)

/-- `SVD` keeps at most `D` singular values, positive and the largest ones: what is orthogonal to the kept vectors `vt`
is not stretched more than any of them, and nothing is dropped when less than `D` are kept. This is what truncation
with a vanishing truncation error and the bond dimension `D` does. -/
structure KeepsLargest (lib : Lib 𝕜) (D : ℕ) : Prop where
  dim : ∀ t n, (lib.svd t n).s.dim ≤ D
  pos : ∀ t n, ∀ m < (lib.svd t n).s.dim, 0 < (lib.svd t n).s.val m
  largest : ∀ t n (v : List ℕ → 𝕜),
    (∀ m < (lib.svd t n).s.dim, sumCoors (t.shape.drop n) (fun y => (lib.svd t n).vt.elem (m :: y) * v y) = 0) →
    ∀ m < (lib.svd t n).s.dim,
      sumCoors (t.shape.take n) (fun x => ‖sumCoors (t.shape.drop n) fun y => t.elem (x ++ y) * v y‖ ^ 2) ≤
        (lib.svd t n).s.val m ^ 2 * sumCoors (t.shape.drop n) (fun y => ‖v y‖ ^ 2)
  all : ∀ t n, (lib.svd t n).s.dim < D → Keeps lib t n

/-- the transfer MPO in the order of the boundary MPS on side `p` -/
def inOrder (p : Pos) (mpo : List (Tn 𝕜)) : List (Tn 𝕜) :=
  match p with
  | .down | .left => mpo
  | .right | .up => mpo.reverse

end

end QLPeps.BmpsVar.Spec
