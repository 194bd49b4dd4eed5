import Verif.Model.PepsLoop
import Verif.Spec.Peps

/-!
# Specification: a gate on the four sites of a square
-/

namespace QLPeps.Peps.Spec

open QLPeps.State (BC)
open QLPeps.Tps.Spec (Bond Site leg external)
open QLPeps.Peps

variable {𝕜 : Type*} [RCLike 𝕜] {bc : BC} {rows cols : ℕ}

/-- the matrix element of four gate tensors closed to a ring (legs: previous, incoming, outgoing, next);
`w i` is the dimension of the leg between tensor `i` and the next one -/
def loopGate (gate : Fin 4 → Tn 𝕜) (w : Fin 4 → ℕ) (x y : Fin 4 → ℕ) : 𝕜 :=
  ∑ m0 ∈ Finset.range (w 0), ∑ m1 ∈ Finset.range (w 1), ∑ m2 ∈ Finset.range (w 2),
    ∑ m3 ∈ Finset.range (w 3),
      (gate 0).elem [m3, x 0, y 0, m0] * (gate 1).elem [m0, x 1, y 1, m1] *
        (gate 2).elem [m1, x 2, y 2, m2] * (gate 3).elem [m2, x 3, y 3, m3]

/-- a configuration with the states of four sites replaced -/
def put4 (σ : Site rows cols → ℕ) (s : Fin 4 → Site rows cols) (x : Fin 4 → ℕ) : Site rows cols → ℕ :=
  Function.update (Function.update (Function.update (Function.update σ (s 0) (x 0)) (s 1) (x 1))
    (s 2) (x 2)) (s 3) (x 3)

/-- the state after a gate on the four sites `s` -/
def applyLoop (phys : Site rows cols → ℕ) (gate : Fin 4 → Tn 𝕜) (w : Fin 4 → ℕ)
    (s : Fin 4 → Site rows cols) (ψ : (Site rows cols → ℕ) → 𝕜) (σ : Site rows cols → ℕ) : 𝕜 :=
  ∑ i ∈ Finset.range (phys (s 0)), ∑ j ∈ Finset.range (phys (s 1)), ∑ k ∈ Finset.range (phys (s 2)),
    ∑ l ∈ Finset.range (phys (s 3)),
      loopGate gate w ![i, j, k, l] (fun n => σ (s n)) * ψ (put4 σ s ![i, j, k, l])

/-- the corners of a square: upper left, upper right, lower right, lower left -/
structure Square (bc : BC) (s : Fin 4 → Site rows cols) : Prop where
  top : leg bc (s 0) 2 = leg bc (s 1) 0
  right : leg bc (s 1) 1 = leg bc (s 2) 3
  bottom : leg bc (s 3) 2 = leg bc (s 2) 0
  left : leg bc (s 0) 1 = leg bc (s 3) 3
  distinct : Function.Injective s

/-- the bonds of the square: top, right, bottom, left -/
def squareBond (bc : BC) (s : Fin 4 → Site rows cols) : Fin 4 → Bond bc rows cols :=
  ![leg bc (s 0) 2, leg bc (s 1) 1, leg bc (s 3) 2, leg bc (s 0) 1]

/-! ## The square with the weights around it -/

/-- the two outer legs of each corner (0 west, 1 south, 2 east, 3 north) -/
def outLeg : Fin 4 → Fin 4 × Fin 4 := ![(0, 3), (2, 3), (1, 2), (0, 1)]

/-- coordinates of the tensor at a corner: `a` and `b` are the values of the bonds to the previous and to
the next corner, `e` those of the outer legs -/
def cornerCoords : Fin 4 → ℕ → ℕ → ℕ → ℕ × ℕ → List ℕ
  | 0, a, b, x, e => [e.1, a, b, e.2, x]
  | 1, a, b, x, e => [a, b, e.1, e.2, x]
  | 2, a, b, x, e => [b, e.1, e.2, a, x]
  | 3, a, b, x, e => [e.1, e.2, a, b, x]

/-- amplitude of the square, with the weights of all bonds that end at its corners, for physical states
`x` and values `e` of the outer legs -/
def cluster (bc : BC) (p : Peps 𝕜) (s : Fin 4 → Site rows cols) (x : Fin 4 → ℕ) (e : Fin 4 → ℕ × ℕ) : 𝕜 :=
  (∑ k0 ∈ Finset.range (weight p (squareBond bc s 0)).dim,
    ∑ k1 ∈ Finset.range (weight p (squareBond bc s 1)).dim,
    ∑ k2 ∈ Finset.range (weight p (squareBond bc s 2)).dim,
    ∑ k3 ∈ Finset.range (weight p (squareBond bc s 3)).dim,
      ∏ i, (p.gamma (s i).1 (s i).2).elem
          (cornerCoords i (![k0, k1, k2, k3] (i + 3)) (![k0, k1, k2, k3] i) (x i) (e i)) *
        ((weight p (squareBond bc s i)).val (![k0, k1, k2, k3] i) : 𝕜)) *
  ∏ i, ((weight p (leg bc (s i) (outLeg i).1)).val (e i).1 : 𝕜) *
    ((weight p (leg bc (s i) (outLeg i).2)).val (e i).2 : 𝕜)

/-- physical states of the corners -/
def states (phys : Site rows cols → ℕ) (s : Fin 4 → Site rows cols) : Finset (Fin 4 → ℕ) :=
  Fintype.piFinset fun i => Finset.range (phys (s i))

/-- values of the outer legs -/
def envs (bc : BC) (p : Peps 𝕜) (s : Fin 4 → Site rows cols) : Finset (Fin 4 → ℕ × ℕ) :=
  Fintype.piFinset fun i => Finset.range (weight p (leg bc (s i) (outLeg i).1)).dim ×ˢ
    Finset.range (weight p (leg bc (s i) (outLeg i).2)).dim

/-- squared norm of the square -/
def clusterNorm (bc : BC) (p : Peps 𝕜) (phys : Site rows cols → ℕ) (s : Fin 4 → Site rows cols) : ℝ :=
  ∑ x ∈ states phys s, ∑ e ∈ envs bc p s, ‖cluster bc p s x e‖ ^ 2

/-- `⟨square|A|square⟩` for an operator with entries `A (in) (out)` -/
def clusterMean (bc : BC) (p : Peps 𝕜) (phys : Site rows cols → ℕ) (s : Fin 4 → Site rows cols)
    (A : (Fin 4 → ℕ) → (Fin 4 → ℕ) → 𝕜) : 𝕜 :=
  ∑ x ∈ states phys s, ∑ e ∈ envs bc p s, (starRingEnd 𝕜) (cluster bc p s x e) *
    ∑ y ∈ states phys s, A y x * cluster bc p s y e

/-- the expectation values of a four-site operator are real and between `lo` and `hi` times the norm -/
def Between4 (phys : Site rows cols → ℕ) (s : Fin 4 → Site rows cols)
    (A : (Fin 4 → ℕ) → (Fin 4 → ℕ) → 𝕜) (lo hi : ℝ) : Prop :=
  ∀ v : (Fin 4 → ℕ) → 𝕜, ∃ q : ℝ, ∑ x ∈ states phys s, (starRingEnd 𝕜) (v x) *
      ∑ y ∈ states phys s, A y x * v y = (q : 𝕜) ∧
    lo * ∑ x ∈ states phys s, ‖v x‖ ^ 2 ≤ q ∧ q ≤ hi * ∑ x ∈ states phys s, ‖v x‖ ^ 2

/-! ## Sweeps -/

/-- the corners of the plaquette with the given upper left corner; the lattice continues on the other
side -/
def plaquette (r : Site rows cols) : Fin 4 → Site rows cols :=
  ![r, (r.1, ⟨(r.2 + 1) % cols, Nat.mod_lt _ r.2.pos⟩),
    (⟨(r.1 + 1) % rows, Nat.mod_lt _ r.1.pos⟩, ⟨(r.2 + 1) % cols, Nat.mod_lt _ r.2.pos⟩),
    (⟨(r.1 + 1) % rows, Nat.mod_lt _ r.1.pos⟩, r.2)]

/-- a plaquette of the lattice: it does not cross an open boundary -/
def IsPlaquette (bc : BC) (r : Site rows cols) : Prop :=
  bc = .obc → (r.1 : ℕ) + 1 < rows ∧ (r.2 : ℕ) + 1 < cols

/-- the state after the gates of the plaquettes in `l`, in order -/
def applyLoops (phys : Site rows cols → ℕ) (gates : Site rows cols → Fin 4 → Tn 𝕜)
    (w : Site rows cols → Fin 4 → ℕ) (ψ : (Site rows cols → ℕ) → 𝕜) :
    List (Site rows cols) → (Site rows cols → ℕ) → 𝕜
  | [] => ψ
  | r :: l => applyLoops phys gates w (applyLoop phys (gates r) (w r) (plaquette r) ψ) l

/-- the results of projections on the plaquettes in `l`, one after the other, starting with `p` -/
def Projections (lib : LoopLib 𝕜) (para : LoopPara) (gates : Site rows cols → Fin 4 → Tn 𝕜) :
    Peps 𝕜 → List (Site rows cols) → List (LoopRes 𝕜) → Prop
  | _, [], results => results = []
  | p, r :: l, results => ∃ res rest, results = res :: rest ∧
      loopProject lib para p (gates r) r.1 r.2 = some res ∧ Projections lib para gates res.peps l rest

/-- what is assumed of the library functions -/
structure LoopExact (lib : LoopLib 𝕜) : Prop where
  qr : ∀ t n, ∃ k, (lib.qr t n).1.shape = t.shape.take n ++ [k] ∧
    (lib.qr t n).2.shape = k :: t.shape.drop n ∧
    ∀ x y, Valid (t.shape.take n) x → Valid (t.shape.drop n) y →
      ∑ m ∈ Finset.range k, (lib.qr t n).1.elem (x ++ [m]) * (lib.qr t n).2.elem (m :: y) =
        t.elem (x ++ y)
  svd_shape : ∀ t n, (lib.svd t n).u.shape = t.shape.take n ++ [(lib.svd t n).s.dim] ∧
    (lib.svd t n).vt.shape = (lib.svd t n).s.dim :: t.shape.drop n
  svd : ∀ t n, ∀ x y, Valid (t.shape.take n) x → Valid (t.shape.drop n) y →
      ∑ m ∈ Finset.range (lib.svd t n).s.dim, (lib.svd t n).u.elem (x ++ [m]) *
        ((lib.svd t n).s.val m : 𝕜) * (lib.svd t n).vt.elem (m :: y) = t.elem (x ++ y)
  svdT_shape : ∀ t n, (lib.svdT t n).u.shape = t.shape.take n ++ [(lib.svdT t n).s.dim] ∧
    (lib.svdT t n).vt.shape = (lib.svdT t n).s.dim :: t.shape.drop n
  /-- the truncating `SVD` reproduces its argument when it reports that nothing was cut -/
  svdT : ∀ t n, (lib.svdT t n).err = 0 →
    ∀ x y, Valid (t.shape.take n) x → Valid (t.shape.drop n) y →
      ∑ m ∈ Finset.range (lib.svdT t n).s.dim, (lib.svdT t n).u.elem (x ++ [m]) *
        ((lib.svdT t n).s.val m : 𝕜) * (lib.svdT t n).vt.elem (m :: y) = t.elem (x ++ y)
  evd_shape : ∀ t n, t.shape = [n, n] → (lib.evd t).1.shape = [n, n] ∧ (lib.evd t).2.dim = n
  /-- the eigenvectors are orthonormal -/
  evd : ∀ t n, t.shape = [n, n] → ∀ i < n, ∀ j < n,
    ∑ a ∈ Finset.range n, (starRingEnd 𝕜) ((lib.evd t).1.elem [i, a]) * (lib.evd t).1.elem [j, a] =
      if i = j then 1 else 0
  left : ∀ t d v, lib.left t d = some v → v.shape = [d.dim, d.dim]
  right : ∀ t d v, lib.right t d = some v → v.shape = [d.dim, d.dim]
  /-- the linear solver returns a tensor of the shape of the initial guess, and the initial guess
  itself when that solves the equation -/
  cg : ∀ A b x0 x, lib.cg A b x0 = some x → x.shape = x0.shape ∧
    ((A x0).shape = b.shape → (∀ y, Valid b.shape y → (A x0).elem y = b.elem y) →
      ∀ y, Valid x0.shape y → x.elem y = x0.elem y)

end QLPeps.Peps.Spec
