import Verif.Model.Peps
import Verif.Spec.Tps

/-!
# Specification: the wave function of a weighted PEPS, and exact factorizations

The amplitude of a configuration is the sum over all values of all bonds of the product of the site
tensors and of the bond weights. Bonds and legs are those of `Spec/Tps`.
-/

namespace QLPeps.Peps.Spec

open QLPeps.State (BC)
open QLPeps.Tps.Spec (Bond Site leg external)
open QLPeps.Peps

variable {𝕜 : Type*} [RCLike 𝕜] {bc : BC} {rows cols : ℕ}

/-- the weights of a bond -/
def weight (p : Peps 𝕜) : Bond bc rows cols → Diag
  | .inl b => p.lamH b.1 b.2
  | .inr b => p.lamV b.1 b.2

/-- `p` lives on this lattice, with physical dimensions `phys` and bond dimensions `dim` -/
structure Fits (p : Peps 𝕜) (phys : Site rows cols → ℕ) (dim : Bond bc rows cols → ℕ) : Prop where
  rows_eq : p.rows = rows
  cols_eq : p.cols = cols
  bc_eq : p.bc = bc
  shape : ∀ s : Site rows cols, (p.gamma s.1 s.2).shape =
    [dim (leg bc s 0), dim (leg bc s 1), dim (leg bc s 2), dim (leg bc s 3), phys s]
  weight : ∀ b, (weight p b).dim = dim b
  external : ∀ b, external bc b → dim b = 1

/-- coordinates of a site tensor: the values of its bonds (west, south, east, north) and the physical
state -/
def coords (β : Bond bc rows cols → ℕ) (s : Site rows cols) (x : ℕ) : List ℕ :=
  [β (leg bc s 0), β (leg bc s 1), β (leg bc s 2), β (leg bc s 3), x]

/-- amplitude of a configuration -/
def amplitude (p : Peps 𝕜) (dim : Bond bc rows cols → ℕ) (σ : Site rows cols → ℕ) : 𝕜 :=
  ∑ β ∈ Fintype.piFinset fun b => Finset.range (dim b),
    (∏ s : Site rows cols, (p.gamma s.1 s.2).elem (coords β s (σ s))) *
      ∏ b, ((weight p b).val (β b) : 𝕜)

/-- `ψ` is the wave function of `p` on the configurations of `phys` -/
def IsWave (bc : BC) (p : Peps 𝕜) (phys : Site rows cols → ℕ)
    (ψ : (Site rows cols → ℕ) → 𝕜) : Prop :=
  ∃ dim : Bond bc rows cols → ℕ, Fits p phys dim ∧
    ∀ σ, (∀ s, σ s < phys s) → ψ σ = amplitude p dim σ

/-- all weights of a bond are above the tolerance -/
def Above (tol : ℝ) (d : Diag) : Prop := ∀ i < d.dim, tol < |d.val i|

/-- coordinates within a shape -/
def Valid (shape x : List ℕ) : Prop := List.Forall₂ (· < ·) x shape

/-- what is assumed of the library: `QR` reproduces its argument, `SVD` does when it reports that
nothing was truncated; shapes are as documented -/
structure Exact (lib : Lib 𝕜) : Prop where
  qr : ∀ t n, ∃ k, (lib.qr t n).1.shape = t.shape.take n ++ [k] ∧
    (lib.qr t n).2.shape = k :: t.shape.drop n ∧
    ∀ x y, Valid (t.shape.take n) x → Valid (t.shape.drop n) y →
      ∑ m ∈ Finset.range k, (lib.qr t n).1.elem (x ++ [m]) * (lib.qr t n).2.elem (m :: y) =
        t.elem (x ++ y)
  svd_shape : ∀ t n, (lib.svd t n).u.shape = t.shape.take n ++ [(lib.svd t n).s.dim] ∧
    (lib.svd t n).vt.shape = (lib.svd t n).s.dim :: t.shape.drop n
  svd_dim : ∀ t n, (lib.svd t n).dim = (lib.svd t n).s.dim
  svd_err : ∀ t n, 0 ≤ (lib.svd t n).err
  svd : ∀ t n, (lib.svd t n).err = 0 →
    ∀ x y, Valid (t.shape.take n) x → Valid (t.shape.drop n) y →
      ∑ m ∈ Finset.range (lib.svd t n).s.dim, (lib.svd t n).u.elem (x ++ [m]) *
        ((lib.svd t n).s.val m : 𝕜) * (lib.svd t n).vt.elem (m :: y) = t.elem (x ++ y)

/-- singular values are not negative -/
def SvdNonNeg (lib : Lib 𝕜) : Prop := ∀ t n, ∀ i < (lib.svd t n).s.dim, 0 ≤ (lib.svd t n).s.val i

/-- the state after a two-site gate (incoming legs first) on the sites `s` and `s'` -/
def apply2 (phys : Site rows cols → ℕ) (gate : Tn 𝕜) (s s' : Site rows cols)
    (ψ : (Site rows cols → ℕ) → 𝕜) (σ : Site rows cols → ℕ) : 𝕜 :=
  ∑ i ∈ Finset.range (phys s), ∑ j ∈ Finset.range (phys s'),
    gate.elem [i, j, σ s, σ s'] * ψ (Function.update (Function.update σ s i) s' j)

/-- the state after a three-site gate (incoming legs first) on `s`, `s'` and `s''` -/
def apply3 (phys : Site rows cols → ℕ) (gate : Tn 𝕜) (s s' s'' : Site rows cols)
    (ψ : (Site rows cols → ℕ) → 𝕜) (σ : Site rows cols → ℕ) : 𝕜 :=
  ∑ i ∈ Finset.range (phys s), ∑ j ∈ Finset.range (phys s'), ∑ k ∈ Finset.range (phys s''),
    gate.elem [i, j, k, σ s, σ s', σ s''] *
      ψ (Function.update (Function.update (Function.update σ s i) s' j) s'' k)

/-- `⟨v|H|v⟩` for a two-site Hamiltonian with legs in, out, in, out -/
def quad2 (ham : Tn 𝕜) (A B : ℕ) (v : ℕ → ℕ → 𝕜) : 𝕜 :=
  ∑ x ∈ Finset.range A, ∑ y ∈ Finset.range B, (starRingEnd 𝕜) (v x y) *
    ∑ i ∈ Finset.range A, ∑ j ∈ Finset.range B, v i j * ham.elem [i, x, j, y]

/-- `⟨v|H|v⟩` for a three-site Hamiltonian with legs in, out, in, out, in, out -/
def quad3 (ham : Tn 𝕜) (A B C : ℕ) (v : ℕ → ℕ → ℕ → 𝕜) : 𝕜 :=
  ∑ x ∈ Finset.range A, ∑ y ∈ Finset.range B, ∑ z ∈ Finset.range C, (starRingEnd 𝕜) (v x y z) *
    ∑ i ∈ Finset.range A, ∑ j ∈ Finset.range B, ∑ k ∈ Finset.range C,
      v i j k * ham.elem [i, x, j, y, k, z]

/-- the expectation values of the Hamiltonian are real and between `lo` and `hi` times the norm -/
def Between2 (ham : Tn 𝕜) (A B : ℕ) (lo hi : ℝ) : Prop :=
  ∀ v : ℕ → ℕ → 𝕜, ∃ q : ℝ, quad2 ham A B v = (q : 𝕜) ∧
    lo * ∑ x ∈ Finset.range A, ∑ y ∈ Finset.range B, ‖v x y‖ ^ 2 ≤ q ∧
    q ≤ hi * ∑ x ∈ Finset.range A, ∑ y ∈ Finset.range B, ‖v x y‖ ^ 2

def Between3 (ham : Tn 𝕜) (A B C : ℕ) (lo hi : ℝ) : Prop :=
  ∀ v : ℕ → ℕ → ℕ → 𝕜, ∃ q : ℝ, quad3 ham A B C v = (q : 𝕜) ∧
    lo * ∑ x ∈ Finset.range A, ∑ y ∈ Finset.range B, ∑ z ∈ Finset.range C, ‖v x y z‖ ^ 2 ≤ q ∧
    q ≤ hi * ∑ x ∈ Finset.range A, ∑ y ∈ Finset.range B, ∑ z ∈ Finset.range C, ‖v x y z‖ ^ 2

/-! ## Projections as steps -/

/-- the missing corner of a triangle is opposite to its middle site -/
inductive Corner
  | upperRight | upperLeft | lowerRight | lowerLeft
  deriving DecidableEq

/-- one projection: a two-site gate on a bond, or a three-site gate on a triangle (sites in the order of
the gate's legs) -/
inductive Step (𝕜 : Type*) (rows cols : ℕ)
  | bond (o : Orient) (s s' : Site rows cols) (gate : Tn 𝕜)
  | triangle (k : Corner) (s m s' : Site rows cols) (gate : Tn 𝕜)

/-- the call of the library -/
noncomputable def Step.run (lib : Lib 𝕜) (tol : ℝ) (p : Peps 𝕜) (ham : Option (Tn 𝕜)) :
    Step 𝕜 rows cols → Res 𝕜
  | .bond o s _ gate => nnProject lib tol p gate s.1 s.2 ham o
  | .triangle .upperRight _ m _ gate => upperRight lib tol p gate m.1 m.2 ham
  | .triangle .upperLeft _ m _ gate => upperLeft lib tol p gate m.1 m.2 ham
  | .triangle .lowerRight s _ _ gate => lowerRight lib tol p gate s.1 s.2 ham
  | .triangle .lowerLeft s _ _ gate => lowerLeft lib tol p gate s.1 s.2 ham

/-- what the step is meant to do to the state -/
def Step.apply (phys : Site rows cols → ℕ) :
    Step 𝕜 rows cols → ((Site rows cols → ℕ) → 𝕜) → (Site rows cols → ℕ) → 𝕜
  | .bond _ s s' gate => apply2 phys gate s s'
  | .triangle _ s m s' gate => apply3 phys gate s m s'

/-- the sites are distinct neighbours, placed as the name of the projection says, and the gate fits
them -/
def Step.WellPlaced (bc : BC) (phys : Site rows cols → ℕ) : Step 𝕜 rows cols → Prop
  | .bond .horizontal s s' gate => s ≠ s' ∧ leg bc s 2 = leg bc s' 0 ∧
    gate.shape = [phys s, phys s', phys s, phys s']
  | .bond .vertical s s' gate => s ≠ s' ∧ leg bc s 1 = leg bc s' 3 ∧
    gate.shape = [phys s, phys s', phys s, phys s']
  | .triangle k s m s' gate => s ≠ m ∧ m ≠ s' ∧
    gate.shape = [phys s, phys m, phys s', phys s, phys m, phys s'] ∧
    match k with
    | .upperRight => leg bc s 2 = leg bc m 0 ∧ leg bc m 1 = leg bc s' 3
    | .upperLeft => leg bc m 2 = leg bc s 0 ∧ leg bc m 1 = leg bc s' 3
    | .lowerRight => leg bc s 1 = leg bc m 3 ∧ leg bc s' 2 = leg bc m 0
    | .lowerLeft => leg bc s 1 = leg bc m 3 ∧ leg bc m 2 = leg bc s' 0

/-- the sites of a step -/
def Step.sites : Step 𝕜 rows cols → List (Site rows cols)
  | .bond _ s s' _ => [s, s']
  | .triangle _ s m s' _ => [s, m, s']

/-- all weights on the bonds around the sites of the step are above the tolerance -/
def Step.Clear (bc : BC) (tol : ℝ) (p : Peps 𝕜) (st : Step 𝕜 rows cols) : Prop :=
  ∀ s ∈ st.sites, ∀ k, Above tol (weight p (leg bc s k))

/-- a Hamiltonian on the sites of the step with expectation values between `lo` and `hi` -/
def Step.Between (phys : Site rows cols → ℕ) (ham : Tn 𝕜) (lo hi : ℝ) : Step 𝕜 rows cols → Prop
  | .bond _ s s' _ => ham.shape = [phys s, phys s, phys s', phys s'] ∧
    Between2 ham (phys s) (phys s') lo hi
  | .triangle _ s m s' _ => ham.shape = [phys s, phys s, phys m, phys m, phys s', phys s'] ∧
    Between3 ham (phys s) (phys m) (phys s') lo hi

/-- a list of projections; the product of the norms is collected. `ham` is the Hamiltonian term given
with each projection. -/
noncomputable def runAll (lib : Lib 𝕜) (tol : ℝ) (ham : Option (Tn 𝕜)) :
    Peps 𝕜 → List (Step 𝕜 rows cols) → Peps 𝕜 × ℝ
  | p, [] => (p, 1)
  | p, st :: rest =>
    let r := st.run lib tol p ham
    let q := runAll lib tol ham r.peps rest
    (q.1, r.norm * q.2)

/-- nothing is truncated along the way, and no weight around the sites falls below the tolerance -/
def Lossless (bc : BC) (lib : Lib 𝕜) (tol : ℝ) (ham : Option (Tn 𝕜)) :
    Peps 𝕜 → List (Step 𝕜 rows cols) → Prop
  | _, [] => True
  | p, st :: rest =>
    let r := st.run lib tol p ham
    st.Clear bc tol p ∧ r.err = 0 ∧ st.Clear bc tol r.peps ∧ Lossless bc lib tol ham r.peps rest

/-- all the gates, in order -/
def applyAll (phys : Site rows cols → ℕ) (ψ : (Site rows cols → ℕ) → 𝕜) :
    List (Step 𝕜 rows cols) → (Site rows cols → ℕ) → 𝕜
  | [] => ψ
  | st :: rest => applyAll phys (st.apply phys ψ) rest

end QLPeps.Peps.Spec
