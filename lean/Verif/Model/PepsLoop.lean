import Verif.Model.Peps
import Verif.Model.SimpleUpdate

/-!
# Model of the loop projection

Source: `/repo/include/qlpeps/two_dim_tn/peps/square_lattice_peps_projection4_impl.h` (bosonic
branches). Tensors, weights and contractions are those of `Model/Peps`; exchanging the two legs of a
diagonal matrix does nothing and is left out. Parameters (`LoopLib`): `QR`, `SVD` with and without
truncation, `SymMatEVD`, the direction of the first leg of a matrix, the conjugate-gradient solver, and
the search for the dominant eigenvectors, that is `ArnoldiSolver`, `SymmetrizeMat` and `PowerMethod`
in this order. `none` stands for an exception or for a call of `exit`. A division by a norm that
is zero is NaN in C++; a comparison with NaN is false, and is modelled as false. The spectra found by
`SymMatEVD` and the errors of the truncating `SVD`s are collected: the code does not report them.
-/

namespace QLPeps.Peps

open QLPeps.State (BC)

noncomputable section

variable {𝕜 : Type*} [RCLike 𝕜]

/-- the library functions used by the loop projection, with the parameters of the call -/
structure LoopLib (𝕜 : Type*) where
  qr : Tn 𝕜 → ℕ → Tn 𝕜 × Tn 𝕜
  /-- `SVD` without truncation -/
  svd : Tn 𝕜 → ℕ → Svd 𝕜
  /-- `SVD` with the truncation parameters of the full environment truncation -/
  svdT : Tn 𝕜 → ℕ → Svd 𝕜
  /-- `SymMatEVD`: eigenvectors (second leg numbers them) and eigenvalues -/
  evd : Tn 𝕜 → Tn 𝕜 × Diag
  /-- whether the first leg of a matrix points in -/
  dirIn : Tn 𝕜 → Bool
  /-- dominant left eigenvector of a transfer tensor with weights, `none` when `ArnoldiSolver` exits -/
  left : Tn 𝕜 → Diag → Option (Tn 𝕜)
  right : Tn 𝕜 → Diag → Option (Tn 𝕜)
  /-- `ConjugateGradientSolver`: matrix, right-hand side, initial guess; `none` when not converged -/
  cg : (Tn 𝕜 → Tn 𝕜) → Tn 𝕜 → Tn 𝕜 → Option (Tn 𝕜)

/-- the members of `LoopUpdateTruncatePara` read here (square_lattice_peps.h:63-85) -/
structure LoopPara where
  invTol : ℝ
  envInvTol : ℝ
  correctionTol : ℝ
  warningTol : ℝ
  fetMaxIter : ℕ
  fetTol : ℝ

/-- four tensors in MPS order (leg 0, physical, two outer legs, leg 4) and the weights that follow each -/
structure Loop (𝕜 : Type*) where
  g : Fin 4 → Tn 𝕜
  lam : Fin 4 → Diag

/-- both versions of `MatSVD` (:29-78) -/
def matSvd (svd : Tn 𝕜 → ℕ → Svd 𝕜) (dirIn : Tn 𝕜 → Bool) (t : Tn 𝕜) : Svd 𝕜 :=
  if dirIn t then svd t 1
  else
    let f := svd (transpose [1, 0] t) 1
    { f with u := transpose [1, 0] f.vt, vt := transpose [1, 0] f.u }

/-- `TransposeGammaTensorIndicesIntoMPSOrder` (:90-96) -/
def toMps : Fin 4 → Tn 𝕜 → Tn 𝕜
  | 0 => transpose [1, 4, 0, 3, 2]
  | 1 => transpose [0, 4, 2, 3, 1]
  | 2 => transpose [3, 4, 1, 2, 0]
  | 3 => transpose [2, 4, 0, 1, 3]

/-- `TransposeBackGammaTensorIndicesFromMPSOrder` (:110-116) -/
def fromMps : Fin 4 → Tn 𝕜 → Tn 𝕜
  | 0 => transpose [2, 0, 4, 3, 1]
  | 1 => transpose [0, 4, 2, 3, 1]
  | 2 => transpose [4, 2, 3, 0, 1]
  | 3 => transpose [2, 3, 0, 4, 1]

/-- `Eat2EnvLambdasInMPSOrderGamma` (:99-108) -/
def eat2 (g : Tn 𝕜) (l r : Diag) : Tn 𝕜 :=
  transpose [0, 1, 3, 4, 2] (contractN (contractN g [2] l.ten [1]) [2] r.ten [1])

/-- `SplitOut2EnvLambdasInMPSOrderGammas` (:118-132) -/
def split2 (tol : ℝ) (g : Tn 𝕜) (l r : Diag) : Tn 𝕜 :=
  transpose [0, 1, 3, 4, 2]
    (contractN (contractN g [2] (diagInv tol l).ten [1]) [2] (diagInv tol r).ten [1])

/-- `GetLoopGammas_` (:148-161) -/
def loopGammas (p : Peps 𝕜) (row col : ℕ) : Fin 4 → Tn 𝕜
  | 0 => p.gamma row col
  | 1 => p.gamma row ((col + 1) % p.cols)
  | 2 => p.gamma ((row + 1) % p.rows) ((col + 1) % p.cols)
  | 3 => p.gamma ((row + 1) % p.rows) col

/-- `GetLoopInternalLambdas_` (:163-180) -/
def loopLambdas (p : Peps 𝕜) (row col : ℕ) : Fin 4 → Diag
  | 0 => p.lamH row ((col + 1) % p.cols)
  | 1 => p.lamV ((row + 1) % p.rows) ((col + 1) % p.cols)
  | 2 => p.lamH ((row + 1) % p.rows) ((col + 1) % p.cols)
  | 3 => p.lamV ((row + 1) % p.rows) col

/-- `GetLoopEnvLambdas_` (:182-209), first array -/
def loopEnvL (p : Peps 𝕜) (row col : ℕ) : Fin 4 → Diag
  | 0 => p.west row col
  | 1 => p.east row ((col + 1) % p.cols)
  | 2 => p.south ((row + 1) % p.rows) ((col + 1) % p.cols)
  | 3 => p.west ((row + 1) % p.rows) col

/-- `GetLoopEnvLambdas_` (:182-209), second array -/
def loopEnvR (p : Peps 𝕜) (row col : ℕ) : Fin 4 → Diag
  | 0 => p.north row col
  | 1 => p.north row ((col + 1) % p.cols)
  | 2 => p.east ((row + 1) % p.rows) ((col + 1) % p.cols)
  | 3 => p.south ((row + 1) % p.rows) col

/-- `LoopTrace` (:211-221) -/
def loopTrace (ups : Tn 𝕜) (lam : Diag) : 𝕜 :=
  (contractN (contractN ups [2, 0] lam.ten [0, 1]) [1, 0] (dag lam.ten) [0, 1]).elem []

/-- `CalTransferMatOfGamma` (:231-252) -/
def transferOf (g : Tn 𝕜) : Tn 𝕜 :=
  transpose [0, 2, 1, 3] (contractN g [1, 2, 3] (dag g) [1, 2, 3])

/-- one round of the inner loop of `ConstructUpsilons` (:269-280) -/
def upsilonStep (l : Loop 𝕜) (i : Fin 4) (tmp : Tn 𝕜) (j : Fin 4) : Tn 𝕜 :=
  contractN (contractN (contractN tmp [2] (l.lam (i + j - 1)).ten [0]) [2]
    (dag (l.lam (i + j - 1)).ten) [0]) [2, 3] (transferOf (l.g (i + j))) [0, 1]

/-- `ConstructUpsilons` (:254-284) -/
def upsilons (l : Loop 𝕜) (i : Fin 4) : Tn 𝕜 :=
  upsilonStep l i (upsilonStep l i (upsilonStep l i (transferOf (l.g i)) 1) 2) 3

/-- a site of `GammaLambdaMPSLoopOverlap` (:294-318) -/
def overlapSite (a b : Loop 𝕜) (i : Fin 4) : Tn 𝕜 :=
  transpose [0, 2, 1, 3] (contractN (contractN (a.g i) [4] (a.lam i).ten [0]) [1, 2, 3]
    (dag (contractN (b.g i) [4] (b.lam i).ten [0])) [1, 2, 3])

/-- `GammaLambdaMPSLoopOverlap` (:286-325) -/
def loopOverlap (a b : Loop 𝕜) : 𝕜 :=
  let t0 := contractN (overlapSite a b 0) [2, 3] (overlapSite a b 1) [0, 1]
  let t1 := contractN t0 [2, 3] (overlapSite a b 2) [0, 1]
  (contractN t1 [2, 3, 0, 1] (overlapSite a b 3) [0, 1, 2, 3]).elem []

/-- `PatSquareLocalLoopProjector_` (:451-535) on the four tensors, in their PEPS order, and the four
weights -/
def patch (lib : LoopLib 𝕜) (gate : Fin 4 → Tn 𝕜) (l : Loop 𝕜) : Loop 𝕜 :=
  let t0 := transpose [1, 4, 0, 3, 5, 2, 6] (contractN (l.g 0) [4] (gate 0) [1])
  let f0 := lib.qr t0 5
  let s0 := lib.svd (contractN f0.2 [1] (l.lam 0).ten [0]) 1
  let t2 := contractN f0.1 [5] s0.u [0]
  let t4 := transpose [0, 2, 3, 4, 1, 5]
    (contractN s0.vt [1, 2] (contractN (l.g 1) [4] (gate 1) [1]) [4, 0])
  let f1 := lib.qr t4 4
  let s1 := lib.svd (contractN f1.2 [1] (l.lam 1).ten [0]) 1
  let g1 := transpose [0, 4, 1, 2, 3] (contractN f1.1 [4] s1.u [0])
  let t7 := transpose [0, 2, 3, 4, 1, 5]
    (contractN s1.vt [1, 2] (contractN (l.g 2) [4] (gate 2) [1]) [4, 3])
  let f2 := lib.qr t7 4
  let s2 := lib.svd (contractN f2.2 [1] (l.lam 2).ten [0]) 1
  let g2 := transpose [4, 1, 2, 0, 3] (contractN f2.1 [4] s2.u [0])
  let t10 := transpose [0, 1, 2, 4, 3, 5]
    (contractN s2.vt [1, 2] (contractN (l.g 3) [4] (gate 3) [1]) [4, 2])
  let f3 := lib.qr t10 4
  let s3 := lib.svd (contractN f3.2 [1] (l.lam 3).ten [0]) 1
  let g3 := transpose [1, 2, 0, 4, 3] (contractN f3.1 [4] s3.u [0])
  let g0 := transpose [1, 0, 4, 2, 3] (contractN s3.vt [2, 1] t2 [0, 1])
  ⟨![g0, g1, g2, g3], ![s0.s, s1.s, s2.s, s3.s]⟩

open Classical in
/-- `QuasiSquareRootDiagMat` (:537-558) -/
def quasiSqrt (d : Diag) : Diag := ⟨d.dim, fun i => if 0 ≤ d.val i then Real.sqrt (d.val i) else 0⟩

open Classical in
/-- `FixSignForDiagMat` (:560-580), bosonic -/
def fixSign (d : Diag) : Diag :=
  if ∑ i ∈ Finset.range d.dim, d.val i < 0 then ⟨d.dim, fun i => d.val i * -1⟩ else d

/-- value of `QuasiNormalize` of a diagonal matrix -/
def diagNorm (d : Diag) : ℝ := Real.sqrt (∑ i ∈ Finset.range d.dim, d.val i ^ 2)

/-- a diagonal matrix after `QuasiNormalize` -/
def diagNormalized (d : Diag) : Diag := ⟨d.dim, fun i => d.val i / diagNorm d⟩

/-- difference between a tensor and its conjugate with exchanged legs (:588-590) -/
def hermDiff (t : Tn 𝕜) (axes : List ℕ) : Tn 𝕜 :=
  ⟨t.shape, fun x => (transpose axes (dag t)).elem x + -t.elem x⟩

/-- `EvaluateHermiticity(t, axes) < tol` (:582-593), false when the norm of the tensor is zero -/
def hermBelow (t : Tn 𝕜) (axes : List ℕ) (tol : ℝ) : Prop :=
  norm2 t ≠ 0 ∧ norm2 (hermDiff t axes) / norm2 t < tol

/-- `EvaluateHermiticity(t, axes) > tol` (:582-593), false when the norm of the tensor is zero -/
def hermAbove (t : Tn 𝕜) (axes : List ℕ) (tol : ℝ) : Prop :=
  norm2 t ≠ 0 ∧ tol < norm2 (hermDiff t axes) / norm2 t

/-- `SymmetrizeMat` (:609-617) -/
def symmetrize (t : Tn 𝕜) (axes : List ℕ) : Tn 𝕜 :=
  ⟨t.shape, fun x => ((transpose axes (dag t)).elem x + t.elem x) * ((1 / 2 : ℝ) : 𝕜)⟩

/-- result of fixing the gauge of one bond -/
structure Gauge (𝕜 : Type*) where
  ups : Tn 𝕜
  sigma : Diag
  head : Tn 𝕜
  tail : Tn 𝕜
  /-- the two spectra that are inverted -/
  spectra : List Diag

open Classical in
/-- `WeightedTraceGaugeFixing` (:684-842) -/
def gaugeFix (lib : LoopLib 𝕜) (para : LoopPara) (ups : Tn 𝕜) (sigma : Diag) (head tail : Tn 𝕜) :
    Option (Gauge 𝕜) :=
  (lib.left ups sigma).bind fun lv =>
  (lib.right ups sigma).bind fun rv =>
  let el := lib.evd lv
  let er := lib.evd rv
  let dl := quasiSqrt (diagNormalized (fixSign el.2))
  let dr := quasiSqrt (diagNormalized (fixSign er.2))
  let t0 := contract dl.ten 0 el.1 1
  let t1 := contractN t0 [1] sigma.ten [0]
  let t2 := contractN t1 [1] er.1 [0]
  let t3 := contractN t2 [1] dr.ten [0]
  let f := matSvd lib.svd lib.dirIn t3
  let xinv := contractN (contract (dag el.1) 1 (diagInv para.invTol dl).ten 1) [1] f.u [0]
  let t5 := contractN ups [3] (dag xinv) [0]
  let t6 := contract t5 2 xinv 0
  if hermBelow t6 [3, 2, 1, 0] para.correctionTol then
    let yinv := contractN (contractN f.vt [1] (diagInv para.invTol dr).ten [0]) [1] (dag er.1) [1]
    let t8 := contractN yinv [] (dag yinv) []
    let ups' := transpose [0, 1, 3, 2]
      (contractN t8 [1, 3] (symmetrize t6 [3, 2, 1, 0]) [1, 2])
    let out := fun u => some (⟨u, f.s, contractN yinv [1] head [0], contractN tail [4] xinv [0],
      [dl, dr]⟩ : Gauge 𝕜)
    if hermAbove ups' [1, 0, 3, 2] para.warningTol then
      if hermBelow ups' [1, 0, 3, 2] para.correctionTol then out (symmetrize ups' [1, 0, 3, 2])
      else none
    else out ups'
  else none

/-- the loop, the transfer tensors seen by each bond, the inverted spectra and the errors of the
truncations so far -/
structure LoopSt (𝕜 : Type*) where
  loop : Loop 𝕜
  ups : Fin 4 → Tn 𝕜
  spectra : List Diag
  errs : List ℝ

/-- one round of the loop of `WeightedTraceGaugeFixingInSquareLocalLoop` (:864-869) -/
def gaugeRound (lib : LoopLib 𝕜) (para : LoopPara) (st : LoopSt 𝕜) (i : Fin 4) :
    Option (LoopSt 𝕜) :=
  (gaugeFix lib para (st.ups i) (st.loop.lam (i + 3)) (st.loop.g i) (st.loop.g (i + 3))).map fun r =>
    { st with
      loop := ⟨Function.update (Function.update st.loop.g (i + 3) r.tail) i r.head,
        Function.update st.loop.lam (i + 3) r.sigma⟩
      ups := Function.update st.ups i r.ups
      spectra := st.spectra ++ r.spectra }

/-- `diag_mat_diff(a, b) < tol` (:938-957) -/
def diagDiffBelow (a b : Diag) (tol : ℝ) : Prop :=
  if a.dim ≠ b.dim then False
  else
    let diff := diagNorm ⟨a.dim, fun i => a.val i + -b.val i⟩
    if 0 < diagNorm a then diff / diagNorm a < tol
    else if 0 < diagNorm b then diff / diagNorm b < tol
    else 0 < tol

/-- state of `FullEnvironmentTruncate`: `vdag`, `sigma`, `u` and the errors of the truncations -/
structure Fet (𝕜 : Type*) where
  vdag : Tn 𝕜
  sigma : Diag
  u : Tn 𝕜
  errs : List ℝ

/-- `MatSVD` with truncation, as called by `FullEnvironmentTruncate` -/
def fetSvd (lib : LoopLib 𝕜) (t : Tn 𝕜) (errs : List ℝ) : Fet 𝕜 :=
  let f := matSvd lib.svdT lib.dirIn t
  ⟨f.u, f.s, f.vt, errs ++ [f.err]⟩

/-- `BtenMat::operator*` (:924-936) -/
def btenMul (b x : Tn 𝕜) : Tn 𝕜 := contractN x [0, 1] b [0, 1]

/-- first half of a round of `FullEnvironmentTruncate`: `u` fixed (:1001-1035) -/
def fetRight (lib : LoopLib 𝕜) (ups su : Tn 𝕜) (s : Fet 𝕜) : Option (Fet 𝕜) :=
  let p := contractN (dag s.u) [1] su [0]
  let r0 := transpose [1, 0] (contractN s.vdag [1] s.sigma.ten [0])
  let b := transpose [0, 1, 3, 2] (contractN (contractN s.u [1] ups [0]) [1] (dag s.u) [1])
  (lib.cg (btenMul b) p r0).map fun x => fetSvd lib (contractN x [0] s.u [0]) s.errs

/-- second half: `v` fixed (:1036-1082) -/
def fetLeft (lib : LoopLib 𝕜) (ups su : Tn 𝕜) (s : Fet 𝕜) : Option (Fet 𝕜) :=
  let v := dag s.vdag
  let p := contractN su [1] v [0]
  let b := transpose [0, 2, 1, 3] (contractN (contractN ups [2] s.vdag [0]) [2] v [0])
  let l0 := transpose [1, 0] (contractN s.sigma.ten [1] s.u [0])
  (lib.cg (btenMul b) p l0).map fun x => fetSvd lib (contractN s.vdag [1] x [1]) s.errs

open Classical in
/-- the loop of `FullEnvironmentTruncate` (:1000-1088), `n` rounds left -/
def fetLoop (lib : LoopLib 𝕜) (tol : ℝ) (ups su : Tn 𝕜) : ℕ → Diag → Fet 𝕜 → Option (Fet 𝕜)
  | 0, _, s => some s
  | n + 1, old, s =>
    (fetRight lib ups su s).bind fun s1 => (fetLeft lib ups su s1).bind fun s2 =>
      if diagDiffBelow s2.sigma old tol then some s2 else fetLoop lib tol ups su n s2.sigma s2

/-- `FullEnvironmentTruncate` (:970-1090) -/
def fet (lib : LoopLib 𝕜) (para : LoopPara) (ups : Tn 𝕜) (sigma : Diag) : Option (Fet 𝕜) :=
  let su := contractN ups [0, 2] sigma.ten [1, 0]
  let s0 := fetSvd lib sigma.ten []
  fetLoop lib para.fetTol ups su para.fetMaxIter s0.sigma s0

/-- one round of the loop of `FullEnvironmentTruncateInSquareLocalLoop` (:1100-1110) -/
def fetRound (lib : LoopLib 𝕜) (para : LoopPara) (st : LoopSt 𝕜) (i : Fin 4) : Option (LoopSt 𝕜) :=
  (fet lib para (st.ups i) (st.loop.lam (i + 3))).map fun r =>
    { st with
      loop := ⟨Function.update (Function.update st.loop.g (i + 3)
          (contractN (st.loop.g (i + 3)) [4] r.vdag [0])) i (contractN r.u [1] (st.loop.g i) [0]),
        Function.update st.loop.lam (i + 3) r.sigma⟩
      errs := st.errs ++ r.errs }

/-- the four rounds of a loop over the bonds -/
def fourRounds {α : Type*} (f : α → Fin 4 → Option α) (a : α) : Option α :=
  (f a 0).bind fun a => (f a 1).bind fun a => (f a 2).bind fun a => f a 3

/-- result of `LocalSquareLoopProject`; `spectra`, `errs` and `env` (the weights around the square, which
are divided out at the end) are not reported by the code -/
structure LoopRes (𝕜 : Type*) where
  peps : Peps 𝕜
  norm : ℝ
  ratio : ℝ
  spectra : List Diag
  errs : List ℝ
  env : List Diag

/-- the loop at a corner, in MPS order and with the weights around it (:342-349, :357-378) -/
def dressed (p : Peps 𝕜) (row col : ℕ) (l : Loop 𝕜) : Loop 𝕜 :=
  ⟨fun i => eat2 (toMps i (l.g i)) (loopEnvL p row col i) (loopEnvR p row col i), l.lam⟩

/-- assignment of the four tensors and the four weights (:404-413, and inside
`PatSquareLocalLoopProjector_`) -/
def putLoop (p : Peps 𝕜) (row col : ℕ) (l : Loop 𝕜) : Peps 𝕜 :=
  let row1 := (row + 1) % p.rows
  let col1 := (col + 1) % p.cols
  ((((((((p.setGamma row col (l.g 0)).setGamma row col1 (l.g 1)).setGamma row1 col1 (l.g 2)).setGamma
    row1 col (l.g 3)).setH row col1 (l.lam 0)).setV row1 col1 (l.lam 1)).setH row1 col1
    (l.lam 2)).setV row1 col (l.lam 3))

/-- the end of `LocalSquareLoopProject` (:389-413): weights around the loop split out, tensors and
weights normalized and assigned. `p0` gives the weights around the loop, `p` is the state. -/
def finish (para : LoopPara) (p0 p : Peps 𝕜) (row col : ℕ) (l : Loop 𝕜) : Peps 𝕜 × ℝ :=
  let g := fun i => fromMps i
    (split2 para.envInvTol (l.g i) (loopEnvL p0 row col i) (loopEnvR p0 row col i))
  let norm := 1 * diagNorm (l.lam 0) * diagNorm (l.lam 1) * diagNorm (l.lam 2) * diagNorm (l.lam 3) *
    norm2 (g 0) * norm2 (g 1) * norm2 (g 2) * norm2 (g 3)
  (putLoop p row col ⟨fun i => normalized (g i), fun i => diagNormalized (l.lam i)⟩, norm)

/-- `LocalSquareLoopProject` (:327-426) -/
def loopProject (lib : LoopLib 𝕜) (para : LoopPara) (p : Peps 𝕜) (gate : Fin 4 → Tn 𝕜)
    (row col : ℕ) : Option (LoopRes 𝕜) :=
  if p.bc = .obc ∧ (p.rows ≤ row + 1 ∨ p.cols ≤ col + 1) then none
  else
    let orig := dressed p row col ⟨loopGammas p row col, loopLambdas p row col⟩
    let wnorm := loopTrace (upsilons orig 0) (orig.lam 3)
    let p1 := putLoop p row col (patch lib gate ⟨loopGammas p row col, loopLambdas p row col⟩)
    let new := dressed p row col ⟨loopGammas p1 row col, loopLambdas p1 row col⟩
    let overlap := loopOverlap new orig
    (fourRounds (gaugeRound lib para) ⟨new, upsilons new, [], []⟩).bind fun st =>
    (fourRounds (fetRound lib para) st).map fun st =>
      let r := finish para p p1 row col st.loop
      ⟨r.1, r.2, RCLike.re (overlap / wnorm), st.spectra, st.errs,
        (List.finRange 4).flatMap fun i => [loopEnvL p row col i, loopEnvR p row col i]⟩

/-! ## Sweeps -/

/-- `LoopGateType` (loop_update.h:35-38) -/
inductive LoopGateType
  | firstOrder | exponential
  deriving DecidableEq

/-- the contribution of one projection to the energy (loop_update_impl.h:357-361). The logarithm of a
number that is not positive is NaN or infinite in C++. -/
def localEnergy (ty : LoopGateType) (tau ratio : ℝ) : ℝ :=
  match ty with
  | .firstOrder => (1 - ratio) / tau
  | .exponential => -Real.log ratio / tau

/-- state of a sweep: the last three are not kept by the code -/
structure LoopSweep (𝕜 : Type*) where
  peps : Peps 𝕜
  e0 : ℝ
  norm : ℝ
  spectra : List Diag
  errs : List ℝ
  env : List Diag

/-- the body of the loops of `LoopUpdateSweep_` (loop_update_impl.h:354-361) -/
def loopVisit (lib : LoopLib 𝕜) (para : LoopPara) (ty : LoopGateType) (tau : ℝ)
    (gates : ℕ → ℕ → Fin 4 → Tn 𝕜) (s : LoopSweep 𝕜) (x : ℕ × ℕ) : Option (LoopSweep 𝕜) :=
  (loopProject lib para s.peps (gates x.1 x.2) x.1 x.2).map fun r =>
    ⟨r.peps, s.e0 + localEnergy ty tau r.ratio, s.norm * r.norm, s.spectra ++ r.spectra,
      s.errs ++ r.errs, s.env ++ r.env⟩

/-- visiting a list of plaquettes -/
def loopVisits (lib : LoopLib 𝕜) (para : LoopPara) (ty : LoopGateType) (tau : ℝ)
    (gates : ℕ → ℕ → Fin 4 → Tn 𝕜) : LoopSweep 𝕜 → List (ℕ × ℕ) → Option (LoopSweep 𝕜)
  | s, [] => some s
  | s, x :: rest => (loopVisit lib para ty tau gates s x).bind fun s =>
    loopVisits lib para ty tau gates s rest

open Classical in
/-- `LoopUpdateSweep_` (loop_update_impl.h:336-385): the state, and the energy estimated from the norm.
Printing and timing are left out; the limits of the loops are those of `SimpleUpdate.loopPasses`. -/
def loopSweep (lib : LoopLib 𝕜) (para : LoopPara) (ty : LoopGateType) (tau : ℝ)
    (gates : ℕ → ℕ → Fin 4 → Tn 𝕜) (p : Peps 𝕜) : Option (LoopSweep 𝕜 × ℝ) :=
  (loopVisits lib para ty tau gates ⟨p, 0, 1, [], [], []⟩
    (SimpleUpdate.loopPasses p.bc p.rows p.cols).flatten).bind fun s =>
    if s.norm ≤ 0 then none else some (s, -Real.log s.norm / tau)

end

end QLPeps.Peps
