import Verif.Model.Contractor
import Verif.Model.Peps

/-!
# Model of the boundary MPS and of the contractor's tensor operations

Sources: `/repo/include/qlpeps/one_dim_tn/boundary_mps/bmps_impl.h` and
`/repo/include/qlpeps/two_dim_tn/tensor_network_2d/bmps/impl/bmps_contractor_{init,grow,trace}.h`.

This instantiates the abstract tensor operations `Contractor.Ops` with the contractions the library
performs: bosonic tensors (`Peps.Tn`), the compression scheme `SVD_COMPRESS`, which is also the one
used by every scheme for boundary MPS of two tensors (bmps_impl.h:415-420). The variational
compressions are in `Model/BmpsVar`; fermionic branches are not modelled. The site tensors have the legs west, south, east,
north; outer legs have dimension one (asserted in bmps_impl.h:92), the boundary MPS and boundary
tensors at the edge are written for that case. Quantum-number sectors are not modelled, so the
"empty tensor" exception (bmps_impl.h:839-843) does not occur. QR and SVD are the parameters
`Peps.Lib`, with the truncation parameters of the contractor.
-/

namespace QLPeps.Bmps

open QLPeps.Contractor QLPeps.Sweep
open QLPeps.Peps (Tn Diag Lib rot contract contractN transpose)

noncomputable section

variable {𝕜 : Type*} [RCLike 𝕜]

/-- `Contract<TenElemT, QNT, ·, ·>(a, b, i, j, 2, c)`: axes `i`, `i + 1` (cyclically) of `a` are
summed with axes `j`, `j + 1` of `b`; the remaining axes follow in cyclic order -/
def contract2 (a : Tn 𝕜) (i : ℕ) (b : Tn 𝕜) (j : ℕ) : Tn 𝕜 where
  shape := (rot i a.shape).drop 2 ++ (rot j b.shape).drop 2
  elem x := ∑ k ∈ Finset.range ((rot i a.shape).getD 0 0),
    ∑ l ∈ Finset.range ((rot i a.shape).getD 1 0),
      a.elem (rot (a.shape.length - i) (k :: l :: x.take (a.shape.length - 2))) *
      b.elem (rot (b.shape.length - j) (k :: l :: x.drop (a.shape.length - 2)))

/-- `IndexCombine(idx1, idx2, ·)`: the isomorphism between a pair of indices and one index -/
def indexCombine (d1 d2 : ℕ) : Tn 𝕜 where
  shape := [d1, d2, d1 * d2]
  elem x := if x.getD 2 0 = x.getD 0 0 * d2 + x.getD 1 0 then 1 else 0

/-- a tensor whose only nonzero element, the one at the origin, is set to one -/
def corner (shape : List ℕ) : Tn 𝕜 := ⟨shape, fun x => if x = List.replicate shape.length 0 then 1 else 0⟩

/-- a zero tensor, for accesses out of range -/
def nil : Tn 𝕜 := ⟨[], fun _ => 0⟩

/-- the numbers of the enumeration `BMPSPOSITION` (basic.h:59-64), `MPOIndex` (basic.h:76-78) -/
def num : Pos → ℕ
  | .left => 0
  | .down => 1
  | .right => 2
  | .up => 3

/-- `PrePostLegIndex_` (bmps.h:283) -/
def prePost (p : Pos) : ℕ := (num p + 3) % 4

/-- the first loop of `MultiplyMPOSVDCompress_` (bmps_impl.h:778-850, bosonic branches): `r` is the
tensor carried from the left, the lists are the remaining tensors of the boundary MPS and of the
transfer MPO -/
def mulLoop (lib : Lib 𝕜) (p : Pos) : Tn 𝕜 → List (Tn 𝕜) → List (Tn 𝕜) → List (Tn 𝕜)
  | r, [e], t :: _ =>
    let tmp1 := contract e 0 r 2
    let tmp2 := contract2 tmp1 3 t (prePost p)
    let right := indexCombine (tmp2.shape.getD 0 0) (tmp2.shape.getD 2 0)
    [contractN tmp2 [0, 2] right [0, 1]]
  | r, e :: e' :: es, t :: ts =>
    let tmp1 := contract e 0 r 2
    let tmp2 := contract2 tmp1 3 t (prePost p)
    let qr := lib.qr (transpose [1, 3, 2, 0] tmp2) 2
    qr.1 :: mulLoop lib p qr.2 (e' :: es) ts
  | _, _, _ => []

/-- `RightCanonicalizeTruncate(site)` (bmps_impl.h:225-263): new tensors at `site - 1` and `site` -/
def canoStep (lib : Lib 𝕜) (prev ten : Tn 𝕜) : Tn 𝕜 × Tn 𝕜 :=
  let d := lib.svd ten 1
  let temp := contractN d.u [1] d.s.ten [0]
  (contractN prev [2] temp [0], d.vt)

/-- the second loop of `MultiplyMPOSVDCompress_` (bmps_impl.h:853-857), from the last tensor down to
the second -/
def canoLoop (lib : Lib 𝕜) : List (Tn 𝕜) → List (Tn 𝕜)
  | e :: e' :: es =>
    match canoLoop lib (e' :: es) with
    | [] => [e]
    | f :: fs =>
      let r := canoStep lib e f
      r.1 :: r.2 :: fs
  | es => es

/-- `ReverseTransferMPOIfNeeded_` (bmps_impl.h:694-699) -/
def reverseIfNeeded (p : Pos) (mpo : List (Tn 𝕜)) : List (Tn 𝕜) :=
  if 1 < num p then mpo.reverse else mpo

/-- `MultiplyMPO` with `SVD_COMPRESS` (bmps_impl.h:404-436, 756-862) -/
def multiplyMPO (lib : Lib 𝕜) (p : Pos) (mps mpo : List (Tn 𝕜)) : List (Tn 𝕜) :=
  let mpo := reverseIfNeeded p mpo
  let r := transpose [2, 0, 1] (indexCombine ((mpo.headD nil).shape.getD (prePost p) 0)
    ((mps.headD nil).shape.getD 0 0))
  canoLoop lib (mulLoop lib p r mps mpo)

/-- one step of `GrowBTenStep` / `GrowFullBTen` (bmps_contractor_grow.h:276-278, 305-307, 335-337,
364-366, 577-579): the boundary tensor, the tensors of the two boundary MPS and the site tensor -/
def growBTen (p : Pos) (bten mps1 site mps2 : Tn 𝕜) : Tn 𝕜 :=
  let tmp1 := contract mps1 2 bten 0
  let tmp2 := contract2 tmp1 1 site ((num p + 3) % 4)
  contractN tmp2 [0, 2] mps2 [0, 1]

/-- one step of `GrowBTen2Step` / `GrowFullBTen2` (bmps_contractor_grow.h:463-466, 473-515) -/
def growBTen2 (p : Pos) (bten2 mps1 site1 site2 mps2 : Tn 𝕜) : Tn 𝕜 :=
  let site1 := transpose [(num p + 3) % 4, num p, (num p + 2) % 4, (num p + 1) % 4] site1
  let tmp1 := contract mps1 2 bten2 0
  let tmp2 := contract2 tmp1 1 site1 0
  let tmp3 := contract2 tmp2 4 site2 ((num p + 3) % 4)
  contractN tmp3 [0, 3] mps2 [0, 1]

/-- `ReplaceNNSiteTrace` (bmps_contractor_trace.h:92-205) -/
def nnOp : Orient → Tn 𝕜 → Tn 𝕜 → Tn 𝕜 → Tn 𝕜 → Tn 𝕜 → Tn 𝕜 → Tn 𝕜 → Tn 𝕜 → 𝕜
  | .horizontal, left, upA, downA, tenA, upB, downB, tenB, right =>
    let tmp0 := contract upA 2 left 0
    let tmp1 := contract2 tmp0 1 tenA 3
    let tmp2 := contractN tmp1 [0, 2] downA [0, 1]
    let tmp3 := contract downB 2 right 0
    let tmp4 := contract2 tmp3 1 tenB 1
    let tmp5 := contractN tmp4 [0, 2] upB [0, 1]
    (contractN tmp2 [0, 1, 2] tmp5 [2, 1, 0]).elem []
  | .vertical, up, leftA, rightA, tenA, leftB, rightB, tenB, down =>
    let tmp0 := contract rightA 2 up 0
    let tmp1 := contract2 tmp0 1 tenA 2
    let tmp2 := contractN tmp1 [0, 2] leftA [0, 1]
    let tmp3 := contract leftB 2 down 0
    let tmp4 := contract2 tmp3 1 tenB 0
    let tmp5 := contractN tmp4 [0, 2] rightB [0, 1]
    (contractN tmp2 [0, 1, 2] tmp5 [2, 1, 0]).elem []

/-- `ReplaceTNNSiteTrace` (bmps_contractor_trace.h:327-423) -/
def tnnOp : Orient → Tn 𝕜 → Tn 𝕜 → Tn 𝕜 → Tn 𝕜 → Tn 𝕜 → Tn 𝕜 → Tn 𝕜 → Tn 𝕜 → Tn 𝕜 → Tn 𝕜 →
    Tn 𝕜 → 𝕜
  | .horizontal, left, up0, down0, ten0, up1, down1, ten1, up2, down2, ten2, right =>
    let tmp0 := contract up0 2 left 0
    let tmp1 := contract2 tmp0 1 ten0 3
    let tmp2 := contractN tmp1 [0, 2] down0 [0, 1]
    let tmp3 := contract up1 2 tmp2 0
    let tmp4 := contract2 tmp3 1 ten1 3
    let tmp5 := contractN tmp4 [0, 2] down1 [0, 1]
    let tmp6 := contract up2 2 tmp5 0
    let tmp7 := contract2 tmp6 1 ten2 3
    let tmp8 := contractN tmp7 [0, 2] down2 [0, 1]
    (contractN tmp8 [0, 1, 2] right [2, 1, 0]).elem []
  | .vertical, top, left0, right0, ten0, left1, right1, ten1, left2, right2, ten2, bottom =>
    let tmp0 := contract right0 2 top 0
    let tmp1 := contract2 tmp0 1 ten0 2
    let tmp2 := contractN tmp1 [0, 2] left0 [0, 1]
    let tmp3 := contract right1 2 tmp2 0
    let tmp4 := contract2 tmp3 1 ten1 2
    let tmp5 := contractN tmp4 [0, 2] left1 [0, 1]
    let tmp6 := contract right2 2 tmp5 0
    let tmp7 := contract2 tmp6 1 ten2 2
    let tmp8 := contractN tmp7 [0, 2] left2 [0, 1]
    (contractN tmp8 [0, 1, 2] bottom [2, 1, 0]).elem []

/-- the contractions of `ReplaceOneSiteTrace` (bmps_contractor_trace.h:81-85) -/
def oneRing (up left down right ten : Tn 𝕜) : 𝕜 :=
  let tmp0 := contract up 2 left 0
  let tmp1 := contract2 tmp0 1 ten 3
  let tmp2 := contractN tmp1 [0, 2] down [0, 1]
  (contractN tmp2 [0, 1, 2] right [2, 1, 0]).elem []

/-- `ReplaceOneSiteTrace` (bmps_contractor_trace.h:31-88) -/
def oneOp : Orient → Tn 𝕜 → Tn 𝕜 → Tn 𝕜 → Tn 𝕜 → Tn 𝕜 → 𝕜
  | .horizontal, left, up, down, ten, right => oneRing up left down right ten
  | .vertical, up, left, right, ten, down => oneRing up left down right ten

/-- the contractions of `PunchHole` (bmps_contractor_grow.h:178-180) -/
def holeRing (up left down right : Tn 𝕜) : Tn 𝕜 :=
  let tmp1 := contractN left [2] down [0]
  let tmp2 := contractN right [2] up [0]
  contractN tmp1 [0, 3] tmp2 [3, 0]

/-- `PunchHole` (bmps_contractor_grow.h:150-183) -/
def holeOp : Orient → Tn 𝕜 → Tn 𝕜 → Tn 𝕜 → Tn 𝕜 → Tn 𝕜
  | .horizontal, left, up, down, right => holeRing up left down right
  | .vertical, up, left, right, down => holeRing up left down right

/-- `ReplaceNNNSiteTrace` (bmps_contractor_trace.h:208-324): near two-layer boundary tensor, the
tensors of the two boundary MPS (first side at the first and second position, second side at the
first and second position), the plaquette tensors left-up, left-down, right-up, right-down, far
boundary tensor. -/
def nnnOp : Orient → Tn 𝕜 → Tn 𝕜 → Tn 𝕜 → Tn 𝕜 → Tn 𝕜 → Tn 𝕜 → Tn 𝕜 → Tn 𝕜 → Tn 𝕜 → Tn 𝕜 → 𝕜
  | .horizontal, left, up1, up2, down1, down2, lu, ld, ru, rd, right =>
    let mpo0 := transpose [3, 0, 2, 1] lu
    let mpo2 := transpose [1, 2, 0, 3] rd
    let tmp0 := contract up1 2 left 0
    let tmp1 := contract2 tmp0 1 mpo0 0
    let tmp2 := contract2 tmp1 4 ld 3
    let tmp3 := contractN tmp2 [0, 3] down1 [0, 1]
    let tmp4 := contract down2 2 right 0
    let tmp5 := contract2 tmp4 1 mpo2 0
    let tmp6 := contract2 tmp5 4 ru 1
    let tmp7 := contractN tmp6 [0, 3] up2 [0, 1]
    (contractN tmp3 [0, 1, 2, 3] tmp7 [3, 2, 1, 0]).elem []
  | .vertical, top, left1, left2, right1, right2, lu, ld, ru, rd, bottom =>
    let mpo0 := transpose [0, 1, 3, 2] ld
    let mpo3 := transpose [2, 3, 1, 0] ru
    let tmp0 := contract left2 2 bottom 0
    let tmp1 := contract2 tmp0 1 mpo0 0
    let tmp2 := contract2 tmp1 4 rd 0
    let tmp3 := contractN tmp2 [0, 3] right2 [0, 1]
    let tmp4 := contract right1 2 top 0
    let tmp5 := contract2 tmp4 1 mpo3 0
    let tmp6 := contract2 tmp5 4 lu 2
    let tmp7 := contractN tmp6 [0, 3] left1 [0, 1]
    (contractN tmp3 [0, 1, 2, 3] tmp7 [3, 2, 1, 0]).elem []

/-- the tensor operations of the contractor -/
def tensorOps (lib : Lib 𝕜) (rows cols : ℕ) :
    Ops (Tn 𝕜) (Tn 𝕜) (List (Tn 𝕜)) (Tn 𝕜) (Tn 𝕜) 𝕜 (Tn 𝕜) where
  -- bmps_impl.h:88-94
  boundary p := List.replicate (width rows cols p) (corner [1, 1, 1])
  absorb p mps mpo := multiplyMPO lib p mps mpo
  get mps i := mps.getD i nil
  -- bmps_contractor_init.h:106-119
  bten0 _ e1 e2 := corner [e1.shape.getD 2 0, 1, e2.shape.getD 0 0]
  bgrow p c e1 x e2 := growBTen p c e1 x e2
  -- bmps_contractor_init.h:170-183
  bten20 _ e1 e2 := corner [e1.shape.getD 2 0, 1, 1, e2.shape.getD 0 0]
  bgrow2 p c e1 x1 x2 e2 := growBTen2 p c e1 x1 x2 e2
  nn := nnOp
  tnn := tnnOp
  one := oneOp
  hole := holeOp
  nnn := nnnOp

end

end QLPeps.Bmps
