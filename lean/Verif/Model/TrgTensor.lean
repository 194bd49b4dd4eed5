import Verif.Model.Trg
import Verif.Model.Peps

/-!
# Model of the tensor operations of the TRG contractor

Source: `trg_contractor_impl.h` (`I:`). Tensors, `Contract`, `Transpose` and `SVD` are those of `Model/Peps` (bosonic,
exact arithmetic). Legs of a site tensor: left, down, right, up.
-/

namespace QLPeps.Trg

open QLPeps.Peps (Tn Diag Lib Svd contractN transpose diagInv)

noncomputable section

variable {𝕜 : Type} [RCLike 𝕜]

/-- `ElementWiseSqrt` of the singular values (I:398) -/
def rootDiag (d : Diag) : Diag := ⟨d.dim, fun i => Real.sqrt (d.val i)⟩

/-- the tensor given to `SVD` (I:385-388) -/
def oriented (type1 : Bool) (t : Tn 𝕜) : Tn 𝕜 := if type1 then t else transpose [0, 3, 1, 2] t

/-- the factorization of a node (I:390-396) -/
def factors (lib : Lib 𝕜) (type1 : Bool) (t : Tn 𝕜) : Svd 𝕜 := lib.svd (oriented type1 t) 2

/-- `U * sqrt(S)` (I:406) -/
def leftPiece (d : Svd 𝕜) : Tn 𝕜 := contractN d.u [2] (rootDiag d.s).ten [0]

/-- `sqrt(S) * Vt` (I:407) -/
def rightPiece (d : Svd 𝕜) : Tn 𝕜 := contractN (rootDiag d.s).ten [1] d.vt [0]

/-- the pieces `P` and `Q` (I:409-415) -/
def splitPieces (lib : Lib 𝕜) (type1 : Bool) (t : Tn 𝕜) : Tn 𝕜 × Tn 𝕜 :=
  if type1 then (rightPiece (factors lib type1 t), leftPiece (factors lib type1 t))
  else (leftPiece (factors lib type1 t), rightPiece (factors lib type1 t))

/-- `split_U`, `split_Vt`, `split_S_inv_sqrt` (H:550-552) -/
structure Iso (𝕜 : Type) where
  u : Tn 𝕜
  vt : Tn 𝕜
  inv : Diag

open Classical in
/-- the largest modulus of a diagonal (`GetMaxAbs`) -/
def maxAbs (d : Diag) : ℝ := (List.range d.dim).foldl (fun a i => max a |d.val i|) 0

/-- I:417-425, H:131-133: the factors kept for the holes. `relEps` is `inv_relative_eps`, `tiny` the smallest
positive normalized number. -/
def isoPieces (lib : Lib 𝕜) (relEps tiny : ℝ) (type1 : Bool) (t : Tn 𝕜) : Iso 𝕜 :=
  let d := factors lib type1 t
  ⟨d.u, d.vt, diagInv (max (relEps * maxAbs (rootDiag d.s)) tiny) (rootDiag d.s)⟩

/-- I:448-456 `ContractPlaquetteCore_(Q0, Q1, P1, P0)` -/
def plaqCore (q0 q1 p1 p0 : Tn 𝕜) : Tn 𝕜 :=
  let tmp0 := contractN p1 [1] p0 [0]
  let tmp1 := contractN q1 [0] q0 [2]
  transpose [3, 2, 1, 0] (contractN tmp0 [1, 2] tmp1 [3, 0])

/-- I:460-468 `ContractDiamondCore_(Np, Ep, Sq, Wq)` -/
def diamCore (np ep sq wq : Tn 𝕜) : Tn 𝕜 :=
  let sw := contractN sq [0] wq [2]
  let ne := contractN np [1] ep [0]
  transpose [1, 0, 3, 2] (contractN sw [0, 3] ne [2, 1])

/-- `Eye(idx)` -/
def eyeTen (n : ℕ) : Tn 𝕜 := ⟨[n, n], fun x => if x.getD 0 0 = x.getD 1 0 then 1 else 0⟩

/-- I:833-861 `ContractFinal1x1_` -/
def final1 (t : Tn 𝕜) : 𝕜 :=
  let tmp := contractN t [0, 2] (eyeTen (t.shape.getD 2 0)) [0, 1]
  (contractN tmp [0, 1] (eyeTen (t.shape.getD 1 0)) [1, 0]).elem []

/-- I:864-882 `ContractFinal2x2_` -/
def final2 (t0 t1 t2 t3 : Tn 𝕜) : 𝕜 :=
  let top := contractN t0 [0, 2] t1 [2, 0]
  let bot := contractN t2 [0, 2] t3 [2, 0]
  (contractN top [0, 1, 2, 3] bot [1, 0, 3, 2]).elem []

/-- I:897-909 `row_ring` -/
def rowRing (a0 a1 a2 : Tn 𝕜) : Tn 𝕜 :=
  let t01 := contractN a0 [2] a1 [0]
  contractN t01 [0, 4] a2 [2, 0]

/-- I:885-931 `ContractFinal3x3_` -/
def final3 (t0 t1 t2 t3 t4 t5 t6 t7 t8 : Tn 𝕜) : 𝕜 :=
  let r0 := rowRing t0 t1 t2
  let r1 := rowRing t3 t4 t5
  let r2 := rowRing t6 t7 t8
  let m01 := contractN r0 [0, 2, 4] r1 [1, 3, 5]
  (contractN m01 [0, 1, 2, 3, 4, 5] r2 [0, 2, 4, 1, 3, 5]).elem []

/-- the operations of the contractor on tensors -/
def tensorOps (lib : Lib 𝕜) (relEps tiny : ℝ) : Ops (Tn 𝕜) (Tn 𝕜) (Iso 𝕜) 𝕜 where
  split := splitPieces lib
  iso := isoPieces lib relEps tiny
  plaq := plaqCore
  diam := diamCore
  zero := 0
  fin1 := final1
  fin2 := final2
  fin3 := final3

end

end QLPeps.Trg
