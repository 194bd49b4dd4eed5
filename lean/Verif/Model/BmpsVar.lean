import Verif.Model.Bmps

/-!
# Model of the variational compressions of the boundary MPS

Source: `/repo/include/qlpeps/one_dim_tn/boundary_mps/bmps_impl.h`.

`MultiplyMPO` with the schemes `VARIATION2Site` and `VARIATION1Site`, bosonic tensors (both functions
assert that the tensors are not fermionic, lines 873 and 1007). The conventions are those of
`Model/Bmps`. The vectors `lenvs` and `renvs` are lists whose first element is `back()`; `back()` and
`pop_back()` of an empty vector are undefined behaviour, the outcome `none`. The factorizations depend
on the truncation parameters of the call: `lib trunc_err Dmin Dmax`. Quantum-number sectors are not
modelled, so two indices are equal when their dimensions are.
-/

namespace QLPeps.BmpsVar

open QLPeps.Contractor QLPeps.Sweep QLPeps.Bmps
open QLPeps.Peps (Tn Lib contract contractN transpose dag norm2)

noncomputable section

variable {𝕜 : Type*} [RCLike 𝕜]

/-- the factorizations for the truncation parameters `trunc_err`, `Dmin`, `Dmax` -/
abbrev Libs (𝕜 : Type*) := ℝ → ℕ → ℕ → Lib 𝕜

/-- `tmp[1]` (bmps_impl.h:894-895, 923-924, 966-967 and so on): left environment, tensor of the
boundary MPS, tensor of the transfer MPO -/
def leftHalf (p : Pos) (lenv e t : Tn 𝕜) : Tn 𝕜 := contract2 (contract lenv 2 e 0) 1 t (prePost p)

/-- `tmp[3]` (bmps_impl.h:897-898, 926-927, 969-970), `temp_ten2` (bmps_impl.h:737-738): tensor of the
boundary MPS, tensor of the transfer MPO, right environment -/
def rightHalf (p : Pos) (e t renv : Tn 𝕜) : Tn 𝕜 := contract2 (contract e 2 renv 0) 1 t (num p)

/-- the tensor which is factorized in a two-site step (bmps_impl.h:899-900) -/
def twoSite (tmp1 tmp3 : Tn 𝕜) : Tn 𝕜 := dag (contractN tmp1 [2, 0] tmp3 [3, 1])

/-- growth of the left environment (bmps_impl.h:914-915) -/
def growLeft (tmp1 a : Tn 𝕜) : Tn 𝕜 := transpose [2, 1, 0] (contractN tmp1 [1, 3] a [0, 1])

/-- growth of the right environment (bmps_impl.h:739, 943) -/
def growRight (tmp3 a : Tn 𝕜) : Tn 𝕜 := contractN tmp3 [2, 0] a [1, 2]

/-- the tensor which is factorized in a one-site step to the right (bmps_impl.h:1117-1118) -/
def oneSiteRight (tmp1 renv : Tn 𝕜) : Tn 𝕜 := dag (contractN tmp1 [0, 2] renv [0, 1])

/-- the tensor which is factorized in a one-site step to the left (bmps_impl.h:1135-1136) -/
def oneSiteLeft (tmp1 lenv : Tn 𝕜) : Tn 𝕜 := dag (contractN tmp1 [3, 1] lenv [1, 2])

/-- the variables of the two functions: `res_dag`, `lenvs`, `renvs`, the singular values `s` of the
last two-site step and the norm `r_norm` of the last one-site step -/
structure State (𝕜 : Type*) where
  res : List (Tn 𝕜)
  lenvs : List (Tn 𝕜)
  renvs : List (Tn 𝕜)
  s : Peps.Diag
  rNorm : ℝ

/-- `MakeEnvironmentBoundaries_` (bmps_impl.h:702-729) -/
def boundaries (p : Pos) (mps mpo res : List (Tn 𝕜)) : Tn 𝕜 × Tn 𝕜 :=
  let n := mps.length
  (corner [(res.getD 0 nil).shape.getD 0 0, (mpo.getD 0 nil).shape.getD (prePost p) 0,
      (mps.getD 0 nil).shape.getD 0 0],
    corner [(mps.getD (n - 1) nil).shape.getD 2 0, (mpo.getD (n - 1) nil).shape.getD ((num p + 1) % 4) 0,
      (res.getD (n - 1) nil).shape.getD 2 0])

/-- `GrowRightEnvironments_` (bmps_impl.h:731-743): the iterations `i = k + 1, …, 2` on `renvs` -/
def growEnvs (p : Pos) (mps mpo res : List (Tn 𝕜)) : ℕ → List (Tn 𝕜) → Option (List (Tn 𝕜))
  | _, [] => none
  | 0, r :: rs => some (r :: rs)
  | k + 1, r :: rs =>
    growEnvs p mps mpo res k
      (growRight (rightHalf p (mps.getD (k + 2) nil) (mpo.getD (k + 2) nil) r) (res.getD (k + 2) nil) ::
        r :: rs)

/-- a two-site step of the sweep which grows the left environments (bmps_impl.h:892-919, 1027-1054) -/
def pushLeft (lib : Lib 𝕜) (p : Pos) (mps mpo : List (Tn 𝕜)) (i : ℕ) (st : State 𝕜) : Option (State 𝕜) :=
  match st.lenvs, st.renvs with
  | l :: ls, r :: rs =>
    let tmp1 := leftHalf p l (mps.getD i nil) (mpo.getD i nil)
    let tmp3 := rightHalf p (mps.getD (i + 1) nil) (mpo.getD (i + 1) nil) r
    let d := lib.svd (twoSite tmp1 tmp3) 2
    some { st with res := st.res.set i d.u, lenvs := growLeft tmp1 d.u :: l :: ls, renvs := rs, s := d.s }
  | _, _ => none

/-- a two-site step of the sweep which grows the right environments (bmps_impl.h:921-947, 1056-1083) -/
def pushRight (lib : Lib 𝕜) (p : Pos) (mps mpo : List (Tn 𝕜)) (i : ℕ) (st : State 𝕜) :
    Option (State 𝕜) :=
  match st.lenvs, st.renvs with
  | l :: ls, r :: rs =>
    let tmp1 := leftHalf p l (mps.getD i nil) (mpo.getD i nil)
    let tmp3 := rightHalf p (mps.getD (i + 1) nil) (mpo.getD (i + 1) nil) r
    let d := lib.svd (twoSite tmp1 tmp3) 2
    let vt := transpose [0, 2, 1] d.vt
    some { st with res := st.res.set (i + 1) vt, lenvs := ls, renvs := growRight tmp3 vt :: r :: rs, s := d.s }
  | _, _ => none

/-- `for (i = 0; i < k; i++)`: the steps with `f` -/
def upTo (f : ℕ → State 𝕜 → Option (State 𝕜)) : ℕ → State 𝕜 → Option (State 𝕜)
  | 0, st => some st
  | k + 1, st => (upTo f k st).bind (f k)

/-- `for (i = k; i > 0; i--)`: the steps with `f` -/
def downFrom (f : ℕ → State 𝕜 → Option (State 𝕜)) : ℕ → State 𝕜 → Option (State 𝕜)
  | 0, st => some st
  | k + 1, st => (f (k + 1) st).bind (downFrom f k)

/-- the two sweeps of one iteration of the two-site scheme (bmps_impl.h:892-947, 1025-1084) -/
def sweep2 (lib : Lib 𝕜) (p : Pos) (mps mpo : List (Tn 𝕜)) (st : State 𝕜) : Option (State 𝕜) :=
  (upTo (pushLeft lib p mps mpo) (mps.length - 2) st).bind
    (downFrom (pushRight lib p mps mpo) (mps.length - 2))

open Classical in
/-- the test at the end of an iteration of the two-site scheme (bmps_impl.h:948-960), `last` is
`s12bond_last`, absent in the first iteration: whether the loop ends -/
def converged2 (tol : ℝ) (last : Option Peps.Diag) (s : Peps.Diag) : Bool :=
  match last with
  | none => false
  | some last =>
    if s.dim ≠ last.dim then false
    else decide ((∑ k ∈ Finset.range s.dim, |s.val k - last.val k|) / s.val 0 < tol)

/-- the iterations of the two-site scheme (bmps_impl.h:888-963); the first argument is the number of
iterations that are left -/
def iterate2 (lib : Lib 𝕜) (p : Pos) (mps mpo : List (Tn 𝕜)) (tol : ℝ) :
    ℕ → Option Peps.Diag → State 𝕜 → Option (State 𝕜)
  | 0, _, st => some st
  | n + 1, last, st =>
    (sweep2 lib p mps mpo st).bind fun st =>
      if converged2 tol last st.s then some st else iterate2 lib p mps mpo tol n (some st.s) st

/-- the last step of the two-site scheme (bmps_impl.h:964-990, 1085-1109); also returns `tmp[3]` -/
def final2 (lib : Lib 𝕜) (p : Pos) (mps mpo : List (Tn 𝕜)) (st : State 𝕜) : Option (State 𝕜 × Tn 𝕜) :=
  match st.lenvs, st.renvs with
  | l :: _, r :: _ =>
    let tmp1 := leftHalf p l (mps.getD 0 nil) (mpo.getD 0 nil)
    let tmp3 := rightHalf p (mps.getD 1 nil) (mpo.getD 1 nil) r
    let d := lib.svd (twoSite tmp1 tmp3) 2
    some ({ st with res := (st.res.set 0 (contractN d.u [2] d.s.ten [0])).set 1 (transpose [0, 2, 1] d.vt) },
      tmp3)
  | _, _ => none

/-- `FinalizeCompressedBMPS_` (bmps_impl.h:745-755) -/
def finalize (res : List (Tn 𝕜)) : List (Tn 𝕜) := res.map dag

/-- `LeftCanonicalizeTen(i)` for `i = 0, 1, …` (bmps_impl.h:130-138, 153-174): `Centralize(N - 1)`
(bmps_impl.h:119-127). No tensor is marked as left canonical before the call: boundary MPS come from
the constructors (bmps_impl.h:20-96), from the multiplications or from `RightCanonicalizeTruncate`,
none of which sets that mark, so the loop starts at the first tensor. -/
def centralize (lib : Lib 𝕜) : List (Tn 𝕜) → List (Tn 𝕜)
  | e :: e' :: es =>
    let d := lib.qr e 2
    d.1 :: centralize lib (contractN d.2 [1] e' [0] :: es)
  | es => es
termination_by es => es.length

/-- `MakeVariationalInitGuess_` (bmps_impl.h:1175-1212) for the transfer MPO in storage order -/
def initGuess (lib : Libs 𝕜) (te : ℝ) (dmin dmax : ℕ) (p : Pos) (mps mpo : List (Tn 𝕜)) : List (Tn 𝕜) :=
  let copy := canoLoop (lib 0 1 2) (centralize (lib 0 1 2) mps)
  let r := transpose [2, 0, 1] (indexCombine ((mpo.headD nil).shape.getD (prePost p) 0)
    ((copy.headD nil).shape.getD 0 0))
  canoLoop (lib te dmin dmax) (mulLoop (lib te dmin dmax) p r copy mpo)

/-- the state before the first sweep (bmps_impl.h:878-886, 1012-1020) -/
def start (p : Pos) (mps mpo guess : List (Tn 𝕜)) : Option (State 𝕜) :=
  let res := guess.map dag
  let b := boundaries p mps mpo res
  (growEnvs p mps mpo res (mps.length - 2) [b.2]).map fun renvs =>
    ⟨res, [b.1], renvs, ⟨0, fun _ => 0⟩, 0⟩

/-- `MultiplyMPO2SiteVariationalCompress_` (bmps_impl.h:862-997) -/
def variational2 (lib : Libs 𝕜) (te : ℝ) (dmin dmax : ℕ) (tol : ℝ) (maxIter : ℕ) (p : Pos)
    (mps mpo : List (Tn 𝕜)) : Option (List (Tn 𝕜)) := do
  let st ← start p mps mpo (initGuess lib te dmin dmax p mps mpo)
  let st ← iterate2 (lib te dmin dmax) p mps mpo tol maxIter none st
  let st ← final2 (lib te dmin dmax) p mps mpo st
  pure (finalize st.1.res)

/-- a one-site step to the right (bmps_impl.h:1113-1129) -/
def oneRight (lib : Lib 𝕜) (p : Pos) (mps mpo : List (Tn 𝕜)) (i : ℕ) (st : State 𝕜) : Option (State 𝕜) :=
  match st.lenvs, st.renvs with
  | l :: ls, r :: rs =>
    let tmp1 := leftHalf p l (mps.getD i nil) (mpo.getD i nil)
    let q := (lib.qr (oneSiteRight tmp1 r) 2).1
    some { st with res := st.res.set i q, lenvs := growLeft tmp1 q :: l :: ls, renvs := rs }
  | _, _ => none

/-- a one-site step to the left (bmps_impl.h:1131-1151) -/
def oneLeft (lib : Lib 𝕜) (p : Pos) (mps mpo : List (Tn 𝕜)) (i : ℕ) (st : State 𝕜) : Option (State 𝕜) :=
  match st.lenvs, st.renvs with
  | l :: ls, r :: rs =>
    let tmp1 := rightHalf p (mps.getD i nil) (mpo.getD i nil) r
    let d := lib.qr (oneSiteLeft tmp1 l) 2
    let q := transpose [2, 1, 0] d.1
    some { st with res := st.res.set i q, lenvs := ls, renvs := growRight tmp1 q :: r :: rs,
                   rNorm := norm2 d.2 }
  | _, _ => none

/-- the two sweeps of one iteration of the one-site scheme (bmps_impl.h:1112-1151) -/
def sweep1 (lib : Lib 𝕜) (p : Pos) (mps mpo : List (Tn 𝕜)) (st : State 𝕜) : Option (State 𝕜) :=
  (upTo (oneRight lib p mps mpo) (mps.length - 1) st).bind
    (downFrom (oneLeft lib p mps mpo) (mps.length - 1))

open Classical in
/-- the test at the end of an iteration of the one-site scheme (bmps_impl.h:1152-1157), `last` is
`last_r_norm`, absent in the first iteration: whether the loop ends. A division by a vanishing norm
gives `0` here and not a number in C++: the comparison is false and the loop ends, as here for a
tolerance that is not negative. -/
def converged1 (tol : ℝ) (last : Option ℝ) (r : ℝ) : Bool :=
  match last with
  | none => false
  | some last => !decide (|r - last| / |r| > tol)

/-- the iterations of the one-site scheme (bmps_impl.h:1110-1158) -/
def iterate1 (lib : Lib 𝕜) (p : Pos) (mps mpo : List (Tn 𝕜)) (tol : ℝ) :
    ℕ → Option ℝ → State 𝕜 → Option (State 𝕜)
  | 0, _, st => some st
  | n + 1, last, st =>
    (sweep1 lib p mps mpo st).bind fun st =>
      if converged1 tol last st.rNorm then some st
      else iterate1 lib p mps mpo tol n (some st.rNorm) st

/-- the last step of the one-site scheme (bmps_impl.h:1160-1166) -/
def final1 (p : Pos) (mps mpo : List (Tn 𝕜)) (st : State 𝕜) : Option (State 𝕜) :=
  match st.lenvs, st.renvs with
  | l :: _, r :: _ =>
    let tmp1 := leftHalf p l (mps.getD 0 nil) (mpo.getD 0 nil)
    some { st with res := st.res.set 0 (oneSiteRight tmp1 r) }
  | _, _ => none

/-- `MultiplyMPO1SiteVariationalCompress_` (bmps_impl.h:999-1173) -/
def variational1 (lib : Libs 𝕜) (te : ℝ) (dmin dmax : ℕ) (tol : ℝ) (maxIter : ℕ) (p : Pos)
    (mps mpo : List (Tn 𝕜)) : Option (List (Tn 𝕜)) := do
  let st ← start p mps mpo (initGuess lib 0 dmax dmax p mps mpo)
  let st ← sweep2 (lib te dmax dmax) p mps mpo st
  let st ← final2 (lib te dmin dmax) p mps mpo st
  let st := { st.1 with renvs := growRight st.2 (st.1.res.getD 1 nil) :: st.1.renvs }
  let st ← iterate1 (lib te dmin dmax) p mps mpo tol maxIter none st
  let st ← final1 p mps mpo st
  pure (finalize st.res)

/-- `CompressMPSScheme` (bmps.h:30-34) -/
inductive Scheme
  | svd
  | two
  | one
deriving DecidableEq

/-- outcome of a call -/
inductive Out (α : Type*)
  | ok (a : α)
  | badOptional  -- `std::bad_optional_access`
  | undefined

/-- `MultiplyMPO` (bmps_impl.h:404-436): the scheme and the parameters of `BMPSTruncateParams`. With a
single tensor, the variational schemes access a second one (bmps_impl.h:892-897 as `N - 2` wraps
around, 969; 1027-1032). -/
def multiply (lib : Libs 𝕜) (scheme : Scheme) (te : ℝ) (dmin dmax : ℕ) (tol : Option ℝ)
    (maxIter : Option ℕ) (p : Pos) (mps mpo : List (Tn 𝕜)) : Out (List (Tn 𝕜)) :=
  if mps.length = 2 ∨ scheme = .svd then .ok (multiplyMPO (lib te dmin dmax) p mps mpo)
  else
    match tol, maxIter with
    | some tol, some maxIter =>
      if mps.length < 2 then .undefined
      else
        let f := if scheme = .two then variational2 else variational1
        match f lib te dmin dmax tol maxIter p mps (reverseIfNeeded p mpo) with
        | some r => .ok r
        | none => .undefined
    | _, _ => .badOptional

end

end QLPeps.BmpsVar
