import Verif.Model.Tps
import Mathlib.Analysis.RCLike.Basic
import Mathlib.Data.List.GetD
import Mathlib.Algebra.BigOperators.Group.Finset.Basic

/-!
# Model of the weighted PEPS and of the simple-update projections

Source: `/repo/include/qlpeps/two_dim_tn/peps/square_lattice_peps.h:220-270`,
`square_lattice_peps_basic_impl.h:507-527,625-853` and `square_lattice_peps_projection_impl.h`.

Tensors are bosonic: a shape and a value for every list of coordinates; quantum-number sectors and
fermionic signs are not modelled. Weights (`DTenT`) are real diagonal matrices. Arithmetic is exact.
The tensor library is modelled by its index conventions:

* `Contract<..>(a, b, i, j, 1, c)` sums axis `i` of `a` with axis `j` of `b`; the remaining axes of
  each tensor follow in cyclic order after the contracted one;
* `Contract(&a, {..}, &b, {..}, &c)` keeps the remaining axes in their original order;
* `Transpose({p0, p1, ..})` moves axis `pm` to position `m`;
* `QR` and `SVD` are parameters (`Lib`), what they guarantee is stated in `Spec/Peps`.

`assert`s are preconditions. The division by the norm of a zero tensor is `x / 0 = 0` here and NaN in
C++; the theorems assume that the reported norm is not zero.
-/

namespace QLPeps.Peps

open QLPeps.State (BC)

noncomputable section

/-- a tensor: shape, and value at a list of coordinates -/
structure Tn (𝕜 : Type*) where
  shape : List ℕ
  elem : List ℕ → 𝕜

/-- a diagonal matrix of real numbers (`DTenT`) -/
structure Diag where
  dim : ℕ
  val : ℕ → ℝ

variable {𝕜 : Type*} [RCLike 𝕜]

/-- a diagonal matrix as a tensor -/
def Diag.ten (d : Diag) : Tn 𝕜 where
  shape := [d.dim, d.dim]
  elem x := if x.getD 0 0 = x.getD 1 0 then (d.val (x.getD 0 0) : 𝕜) else 0

/-- sum over all coordinates of a shape -/
def sumCoors {M : Type*} [AddCommMonoid M] : List ℕ → (List ℕ → M) → M
  | [], f => f []
  | d :: ds, f => ∑ k ∈ Finset.range d, sumCoors ds fun ks => f (k :: ks)

/-- cyclic rotation: element `n` becomes the first -/
def rot {α : Type*} (n : ℕ) (l : List α) : List α := l.drop n ++ l.take n

/-- `Contract<TenElemT, QNT, ·, ·>(a, b, i, j, 1, c)`: the two flags only select a memory layout -/
def contract (a : Tn 𝕜) (i : ℕ) (b : Tn 𝕜) (j : ℕ) : Tn 𝕜 where
  shape := (rot i a.shape).tail ++ (rot j b.shape).tail
  elem x := ∑ k ∈ Finset.range (a.shape.getD i 0),
    a.elem (rot (a.shape.length - i) (k :: x.take (a.shape.length - 1))) *
    b.elem (rot (b.shape.length - j) (k :: x.drop (a.shape.length - 1)))

/-- the coordinates `0 .. n-1`: those of the axes in `axes` are taken from `k`, the others in order
from `x` -/
def place (n : ℕ) (axes k x : List ℕ) : List ℕ :=
  (List.range n).map fun m =>
    if m ∈ axes then k.getD (axes.idxOf m) 0
    else x.getD ((List.range m).filter fun q => !axes.contains q).length 0

/-- the axes that are not in `axes`, in order -/
def others (n : ℕ) (axes : List ℕ) : List ℕ := (List.range n).filter fun q => !axes.contains q

/-- `Contract(&a, as, &b, bs, &c)` -/
def contractN (a : Tn 𝕜) (as : List ℕ) (b : Tn 𝕜) (bs : List ℕ) : Tn 𝕜 where
  shape := (others a.shape.length as).map (a.shape.getD · 0) ++
    (others b.shape.length bs).map (b.shape.getD · 0)
  elem x := sumCoors (as.map (a.shape.getD · 0)) fun k =>
    a.elem (place a.shape.length as k (x.take (a.shape.length - as.length))) *
    b.elem (place b.shape.length bs k (x.drop (a.shape.length - as.length)))

/-- `t.Transpose(p)` -/
def transpose (p : List ℕ) (t : Tn 𝕜) : Tn 𝕜 where
  shape := p.map (t.shape.getD · 0)
  elem x := t.elem ((List.range p.length).map fun m => x.getD (p.idxOf m) 0)

/-- `t.Dag()` of a bosonic tensor -/
def dag (t : Tn 𝕜) : Tn 𝕜 := ⟨t.shape, fun x => (starRingEnd 𝕜) (t.elem x)⟩

/-- the 2-norm of a tensor (value of `QuasiNormalize`) -/
def norm2 (t : Tn 𝕜) : ℝ := Real.sqrt (sumCoors t.shape fun x => ‖t.elem x‖ ^ 2)

/-- `t.QuasiNormalize()`: the tensor after the call -/
def normalized (t : Tn 𝕜) : Tn 𝕜 := ⟨t.shape, fun x => t.elem x / (norm2 t : 𝕜)⟩

open Classical in
/-- `DiagMatInv(d, tol)` of the library: reciprocals of the entries above the tolerance, zero for the
others -/
def diagInv (tol : ℝ) (d : Diag) : Diag := ⟨d.dim, fun i => if tol < |d.val i| then 1 / d.val i else 0⟩

/-- result of `SVD` -/
structure Svd (𝕜 : Type*) where
  u : Tn 𝕜
  s : Diag
  vt : Tn 𝕜
  err : ℝ
  dim : ℕ

/-- the library's factorizations, `svd t n` with the truncation parameters of the call -/
structure Lib (𝕜 : Type*) where
  qr : Tn 𝕜 → ℕ → Tn 𝕜 × Tn 𝕜
  svd : Tn 𝕜 → ℕ → Svd 𝕜

/-- `SquareLatticePEPS` (square_lattice_peps.h): `Gamma`, `lambda_vert`, `lambda_horiz` -/
structure Peps (𝕜 : Type*) where
  rows : ℕ
  cols : ℕ
  bc : BC
  gamma : ℕ → ℕ → Tn 𝕜
  lamV : ℕ → ℕ → Diag
  lamH : ℕ → ℕ → Diag

/-- `lambda_vert.rows()` -/
def Peps.vRows (p : Peps 𝕜) : ℕ := if p.bc = .obc then p.rows + 1 else p.rows

/-- `lambda_horiz.cols()` -/
def Peps.hCols (p : Peps 𝕜) : ℕ := if p.bc = .obc then p.cols + 1 else p.cols

/-- `GetLambdaVertNorth` (square_lattice_peps.h:224-229) -/
def Peps.north (p : Peps 𝕜) (r c : ℕ) : Diag := p.lamV r c

/-- `GetLambdaVertSouth` (square_lattice_peps.h:232-246) -/
def Peps.south (p : Peps 𝕜) (r c : ℕ) : Diag :=
  if p.bc = .obc then p.lamV (r + 1) c else p.lamV ((r + 1) % p.rows) c

/-- `GetLambdaHorizWest` (square_lattice_peps.h:249-254) -/
def Peps.west (p : Peps 𝕜) (r c : ℕ) : Diag := p.lamH r c

/-- `GetLambdaHorizEast` (square_lattice_peps.h:257-270) -/
def Peps.east (p : Peps 𝕜) (r c : ℕ) : Diag :=
  if p.bc = .obc then p.lamH r (c + 1) else p.lamH r ((c + 1) % p.cols)

/-- `Gamma({r, c}) = t` -/
def Peps.setGamma (p : Peps 𝕜) (r c : ℕ) (t : Tn 𝕜) : Peps 𝕜 :=
  { p with gamma := fun r' c' => if r' = r ∧ c' = c then t else p.gamma r' c' }

/-- `lambda_horiz({r, c}) = d` -/
def Peps.setH (p : Peps 𝕜) (r c : ℕ) (d : Diag) : Peps 𝕜 :=
  { p with lamH := fun r' c' => if r' = r ∧ c' = c then d else p.lamH r' c' }

/-- `lambda_vert({r, c}) = d` -/
def Peps.setV (p : Peps 𝕜) (r c : ℕ) (d : Diag) : Peps 𝕜 :=
  { p with lamV := fun r' c' => if r' = r ∧ c' = c then d else p.lamV r' c' }

/-- `BTenPOSITION` -/
inductive Pos
  | left | down | right | up
  deriving DecidableEq

/-- `EatSurroundLambdas_` (square_lattice_peps_basic_impl.h:677-686) -/
def eat (p : Peps 𝕜) (r c : ℕ) : Tn 𝕜 :=
  let t0 := contract (p.gamma r c) 0 (p.west r c).ten 1
  let t1 := contract t0 0 (p.south r c).ten 0
  let t2 := contract t1 0 (p.east r c).ten 0
  contract t2 0 (p.north r c).ten 1

/-- `Eat3SurroundLambdas_` (square_lattice_peps_basic_impl.h:688-750) -/
def eat3 (p : Peps 𝕜) (r c : ℕ) : Pos → Tn 𝕜
  | .right =>
    let t0 := contract (p.gamma r c) 3 (p.north r c).ten 1
    let t1 := contract t0 1 (p.west r c).ten 1
    transpose [1, 3, 4, 2, 0] (contract t1 0 (p.south r c).ten 0)
  | .left =>
    let t0 := contract (p.gamma r c) 3 (p.north r c).ten 1
    let t1 := contract t0 3 (p.east r c).ten 0
    contract (p.south r c).ten 0 t1 3
  | .down =>
    let t0 := contract (p.west r c).ten 1 (p.gamma r c) 0
    let t1 := contract (p.north r c).ten 1 t0 3
    transpose [0, 1, 3, 2, 4] (contract (p.east r c).ten 0 t1 4)
  | .up =>
    let t0 := contract (p.west r c).ten 1 (p.gamma r c) 0
    let t1 := contract (p.south r c).ten 0 t0 1
    transpose [0, 4, 3, 2, 1] (contract (p.east r c).ten 0 t1 1)

/-- `QTenSplitOutLambdas_` (square_lattice_peps_basic_impl.h:752-853) -/
def split (tol : ℝ) (p : Peps 𝕜) (q : Tn 𝕜) (r c : ℕ) : Pos → Tn 𝕜
  | .right =>
    let t0 := contract q 0 (diagInv tol (p.north r c)).ten 1
    let t1 := contract t0 0 (diagInv tol (p.west r c)).ten 1
    contract t1 0 (diagInv tol (p.south r c)).ten 0
  | .left =>
    let t0 := contract q 0 (diagInv tol (p.south r c)).ten 0
    let t1 := contract t0 0 (diagInv tol (p.east r c)).ten 0
    contract t1 0 (diagInv tol (p.north r c)).ten 1
  | .down =>
    let t0 := contract (diagInv tol (p.north r c)).ten 1 q 1
    let t1 := contract (diagInv tol (p.west r c)).ten 1 t0 1
    contract (diagInv tol (p.east r c)).ten 0 t1 2
  | .up =>
    let t0 := contract (diagInv tol (p.east r c)).ten 0 q 0
    let t1 := contract (diagInv tol (p.south r c)).ten 0 t0 1
    contract (diagInv tol (p.west r c)).ten 1 t1 1

/-- `EvaluateTwoSiteEnergy`, bosonic case (square_lattice_peps_projection_impl.h:19-40) -/
def twoSiteEnergy (ham state : Tn 𝕜) : 𝕜 :=
  let temp := contractN state [2, 3] ham [0, 2]
  (contractN (dag temp) [0, 1, 2, 3] state [0, 1, 2, 3]).elem []

/-- `EvaluateThreeSiteEnergy`, bosonic case (square_lattice_peps_projection_impl.h:42-58) -/
def threeSiteEnergy (ham state : Tn 𝕜) : 𝕜 :=
  let temp := contractN state [4, 5, 6] ham [0, 2, 4]
  (contractN (dag temp) [0, 1, 2, 3, 4, 5, 6] state [0, 1, 2, 3, 4, 5, 6]).elem []

/-- `ProjectionRes`; the energy is `none` without a Hamiltonian -/
structure Res (𝕜 : Type*) where
  peps : Peps 𝕜
  norm : ℝ
  err : ℝ
  dim : ℕ
  energy : Option 𝕜

inductive Orient
  | horizontal | vertical
  deriving DecidableEq

/-- `NearestNeighborSiteProject` (square_lattice_peps_projection_impl.h:60-219) -/
def nnProject (lib : Lib 𝕜) (tol : ℝ) (p : Peps 𝕜) (gate : Tn 𝕜) (row col : ℕ)
    (ham : Option (Tn 𝕜)) : Orient → Res 𝕜
  | .horizontal =>
    let rcol := (col + 1) % p.hCols
    let (q0, r0) := lib.qr (eat3 p row col .right) 3
    let (q1, r1) := lib.qr (eat3 p row rcol .left) 3
    let t2 := contractN r0 [2] (p.lamH row rcol).ten [0]
    let t3 := contract t2 2 r1 2
    let t4 := contractN t3 [1, 3] gate [0, 1]
    let state := normalized t4
    let f := lib.svd (transpose [0, 2, 1, 3] state) 2
    let p1 := p.setH row rcol f.s
    let t5 := split tol p1 q0 row col .right
    let p2 := p1.setGamma row col (transpose [1, 2, 4, 0, 3] (contract t5 0 f.u 0))
    let t6 := split tol p2 q1 row rcol .left
    let p3 := p2.setGamma row rcol (transpose [4, 0, 1, 2, 3] (contract t6 0 f.vt 1))
    ⟨p3, norm2 t4, f.err, f.dim, ham.map fun h => twoSiteEnergy h state⟩
  | .vertical =>
    let nrow := if p.bc = .obc then row + 1 else (row + 1) % p.vRows
    let (q0, r0) := lib.qr (eat3 p row col .down) 3
    let (q1, r1) := lib.qr (eat3 p nrow col .up) 3
    let t2 := contract r0 2 (p.lamV nrow col).ten 0
    let t3 := contract t2 2 r1 2
    let t4 := contractN t3 [1, 3] gate [0, 1]
    let state := normalized t4
    let f := lib.svd (transpose [0, 2, 1, 3] state) 2
    let p1 := p.setV nrow col f.s
    let t5 := split tol p1 q0 row col .down
    let p2 := p1.setGamma row col (transpose [2, 4, 0, 1, 3] (contract t5 3 f.u 0))
    let t6 := split tol p2 q1 nrow col .up
    let p3 := p2.setGamma nrow col (transpose [2, 1, 0, 4, 3] (contract t6 1 f.vt 1))
    ⟨p3, norm2 t4, f.err, f.dim, ham.map fun h => twoSiteEnergy h state⟩

/-- `UpperRightTriangleProject` (square_lattice_peps_projection_impl.h:282-367); the gate's order is
left, right upper, lower -/
def upperRight (lib : Lib 𝕜) (tol : ℝ) (p : Peps 𝕜) (gate : Tn 𝕜) (row col : ℕ)
    (ham : Option (Tn 𝕜)) : Res 𝕜 :=
  let lcol := (col + p.hCols - 1) % p.hCols
  let lrow := (row + 1) % p.vRows
  let (q0, r0) := lib.qr (eat3 p lrow col .up) 3
  let (q1, r1) := lib.qr (eat3 p row lcol .right) 3
  let t3 := contract r1 2 (eat p row col) 1
  let t4 := contract t3 2 r0 2
  let t5 := contractN t4 [4, 2, 6] gate [0, 1, 2]
  let state := normalized t5
  let f1 := lib.svd (transpose [6, 3, 0, 1, 5, 4, 2] state) 5
  let p1 := p.setH row col f1.s
  let t6 := split tol p1 q1 row lcol .right
  let p2 := p1.setGamma row lcol (transpose [1, 2, 3, 0, 4] (contract t6 0 f1.vt 2))
  let t7 := contractN f1.u [5] f1.s.ten [0]
  let f2 := lib.svd t7 2
  let p3 := p2.setV lrow col f2.s
  let t8 := split tol p3 q0 lrow col .up
  let p4 := p3.setGamma lrow col (transpose [2, 1, 0, 3, 4] (contract t8 1 f2.u 1))
  let t9 := contractN f2.vt [4] (diagInv tol f1.s).ten [0]
  let t10 := contract t9 2 (diagInv tol (p4.north row col)).ten 1
  let p5 := p4.setGamma row col (transpose [2, 3, 4, 0, 1]
    (contract t10 3 (diagInv tol (p4.east row col)).ten 0))
  ⟨p5, 1 * norm2 t5, max f1.err f2.err, max f1.dim f2.dim, ham.map fun h => threeSiteEnergy h state⟩

/-- `UpperLeftTriangleProject` (square_lattice_peps_projection_impl.h:389-476); the gate's order is
upper right, upper left, lower left -/
def upperLeft (lib : Lib 𝕜) (tol : ℝ) (p : Peps 𝕜) (gate : Tn 𝕜) (row col : ℕ)
    (ham : Option (Tn 𝕜)) : Res 𝕜 :=
  let rcol := (col + 1) % p.hCols
  let lrow := (row + 1) % p.vRows
  let (q0, r0) := lib.qr (eat3 p row rcol .left) 3
  let (q1, r1) := lib.qr (eat3 p lrow col .up) 3
  let t3 := contract (eat p row col) 2 r1 2
  let t4 := contract r0 2 t3 0
  let t5 := contractN t4 [1, 3, 6] gate [0, 1, 2]
  let state := normalized t5
  let f1 := lib.svd (transpose [0, 4, 5, 1, 2, 6, 3] state) 5
  let p1 := p.setV lrow col f1.s
  let t6 := split tol p1 q1 lrow col .up
  let p2 := p1.setGamma lrow col (transpose [4, 3, 2, 0, 1] (contract f1.vt 2 t6 1))
  let t7 := contractN f1.u [5] f1.s.ten [0]
  let f2 := lib.svd t7 2
  let p3 := p2.setH row rcol f2.s
  let t8 := split tol p3 q0 row rcol .left
  let p4 := p3.setGamma row rcol (transpose [4, 0, 1, 2, 3] (contract t8 0 f2.u 0))
  let t9 := contractN f2.vt [4] (diagInv tol f1.s).ten [0]
  let t10 := contract t9 2 (diagInv tol (p4.north row col)).ten 1
  let p5 := p4.setGamma row col (transpose [4, 0, 1, 3, 2]
    (contract t10 0 (diagInv tol (p4.west row col)).ten 1))
  ⟨p5, 1 * norm2 t5, max f1.err f2.err, max f1.dim f2.dim, ham.map fun h => threeSiteEnergy h state⟩

/-- `LowerRightTriangleProject` (square_lattice_peps_projection_impl.h:496-582); the gate's order is
upper right, lower right, lower left -/
def lowerRight (lib : Lib 𝕜) (tol : ℝ) (p : Peps 𝕜) (gate : Tn 𝕜) (row col : ℕ)
    (ham : Option (Tn 𝕜)) : Res 𝕜 :=
  let lrow := (row + 1) % p.vRows
  let lcol := (col + p.hCols - 1) % p.hCols
  let (q0, r0) := lib.qr (eat3 p lrow lcol .right) 3
  let (q1, r1) := lib.qr (eat3 p row col .down) 3
  let t3 := contract r1 2 (eat p lrow col) 4
  let t4 := contract t3 3 r0 2
  let t5 := contractN t4 [3, 4, 6] gate [0, 1, 2]
  let state := normalized t5
  let f1 := lib.svd (transpose [6, 3, 0, 1, 5, 4, 2] state) 5
  let p1 := p.setV lrow col f1.s
  let t6 := split tol p1 q1 row col .down
  let p2 := p1.setGamma row col (transpose [2, 3, 0, 1, 4] (contract t6 3 f1.vt 2))
  let t7 := contractN f1.u [5] f1.s.ten [0]
  let f2 := lib.svd t7 2
  let p3 := p2.setH lrow col f2.s
  let t8 := split tol p3 q0 lrow lcol .right
  let p4 := p3.setGamma lrow lcol (transpose [1, 2, 3, 0, 4] (contract t8 0 f2.u 1))
  let t9 := contractN f2.vt [4] (diagInv tol f1.s).ten [0]
  let t10 := contract t9 1 (diagInv tol (p4.south lrow col)).ten 0
  let p5 := p4.setGamma lrow col (transpose [2, 3, 4, 1, 0]
    (contract t10 0 (diagInv tol (p4.east lrow col)).ten 0))
  ⟨p5, 1 * norm2 t5, max f1.err f2.err, max f1.dim f2.dim, ham.map fun h => threeSiteEnergy h state⟩

/-- `LowerLeftTriangleProject` (square_lattice_peps_projection_impl.h:600-715); the gate's order is
upper left, lower left, lower right -/
def lowerLeft (lib : Lib 𝕜) (tol : ℝ) (p : Peps 𝕜) (gate : Tn 𝕜) (row col : ℕ)
    (ham : Option (Tn 𝕜)) : Res 𝕜 :=
  let lrow := (row + 1) % p.vRows
  let rcol := (col + 1) % p.hCols
  let (q0, r0) := lib.qr (eat3 p row col .down) 3
  let (q1, r1) := lib.qr (eat3 p lrow rcol .left) 3
  let t3 := contract r0 2 (eat p lrow col) 4
  let t4 := contract t3 5 r1 2
  let t5 := contractN t4 [1, 2, 6] gate [0, 1, 2]
  let state := normalized t5
  let f1 := lib.svd (transpose [0, 4, 5, 1, 2, 6, 3] state) 5
  let p1 := p.setH lrow rcol f1.s
  let t6 := split tol p1 q1 lrow rcol .left
  let p2 := p1.setGamma lrow rcol (transpose [0, 2, 3, 4, 1] (contract f1.vt 2 t6 0))
  let t7 := contractN f1.u [5] f1.s.ten [0]
  let f2 := lib.svd t7 2
  let p3 := p2.setV lrow col f2.s
  let t8 := split tol p3 q0 row col .down
  let p4 := p3.setGamma row col (transpose [2, 4, 0, 1, 3] (contract t8 3 f2.u 0))
  let t9 := contractN f2.vt [4] (diagInv tol f1.s).ten [0]
  let t10 := contract t9 3 (diagInv tol (p4.south lrow col)).ten 0
  let p5 := p4.setGamma lrow col (transpose [4, 0, 1, 2, 3]
    (contract t10 3 (diagInv tol (p4.west lrow col)).ten 1))
  ⟨p5, 1 * norm2 t5, max f1.err f2.err, max f1.dim f2.dim, ham.map fun h => threeSiteEnergy h state⟩

open Classical in
/-- `SquareRootDiagMat`, bosonic case (square_lattice_peps_basic_impl.h:507-527); `none` is the
`exit(1)` for a negative entry -/
def sqrtDiag (d : Diag) : Option Diag :=
  if ∃ i < d.dim, d.val i < 0 then none
  else some ⟨d.dim, fun i => if 0 < d.val i then Real.sqrt (d.val i) else d.val i⟩

/-- a rank-five tensor as a site tensor of `Model/Tps` -/
def Tn.site (t : Tn 𝕜) : Tps.Ten 𝕜 :=
  ⟨fun i => t.shape.getD i 0, fun x => t.elem [x 0, x 1, x 2, x 3, x 4]⟩

/-- the tensor of one site in `ToTPS` (square_lattice_peps_basic_impl.h:633-646) -/
def toTpsSite (p : Peps 𝕜) (r c : ℕ) : Option (Tn 𝕜) :=
  (sqrtDiag (p.west r c)).bind fun left =>
  (sqrtDiag (p.east r c)).bind fun right =>
  (sqrtDiag (p.north r c)).bind fun up =>
  (sqrtDiag (p.south r c)).bind fun down =>
  let t0 := contract up.ten 1 (p.gamma r c) 3
  let t1 := contract right.ten 0 t0 4
  let t2 := contract down.ten 0 t1 4
  some (contract left.ten 1 t2 4)

/-- `ToTPS` (square_lattice_peps_basic_impl.h:625-654); `none` if the program exits. The order of the
sites does not matter: each is computed from the PEPS alone. -/
def toTps (p : Peps 𝕜) : Option (Tps.Tps 𝕜) :=
  if ∀ r < p.rows, ∀ c < p.cols, (toTpsSite p r c).isSome then
    some ⟨p.rows, p.cols, p.bc, fun r c => ((toTpsSite p r c).getD ⟨[], fun _ => 0⟩).site⟩
  else none

end

end QLPeps.Peps
