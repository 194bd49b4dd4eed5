import Verif.Model.BmpsVar

/-!
# Model of the canonical forms of a boundary MPS and of its entanglement entropies

Source: `/repo/include/qlpeps/one_dim_tn/boundary_mps/bmps.h`, `bmps_impl.h`.

The object with its tensors, the mark of every tensor (`tens_cano_type_`) and the recorded center
(`center_`), bosonic tensors. The factorizations are parameters. An access to a tensor outside the
object, and the use of the uninitialized `start_idx`, are undefined behaviour: the outcome `none`.
Arithmetic is exact; what the code computes as NaN is marked where it occurs.
-/

namespace QLPeps.BmpsCano

open QLPeps.Bmps QLPeps.BmpsVar
open QLPeps.Peps (Tn Lib contractN transpose norm2)

noncomputable section

variable {𝕜 : Type*} [RCLike 𝕜]

/-- `MPSTenCanoType` -/
inductive Mark
  | none
  | left
  | right
deriving DecidableEq

/-- the object (bmps.h:361-366) -/
structure Obj (𝕜 : Type*) where
  tens : List (Tn 𝕜)
  cano : List Mark
  center : ℤ

/-- the factorizations: `lib trunc_err Dmin Dmax` with `QR` and the truncating `SVD`, `LQ` of a tensor
with one left leg, and `mock_qlten::SVD` which does not truncate -/
structure Facs (𝕜 : Type*) where
  lib : Libs 𝕜
  lq : Tn 𝕜 → Tn 𝕜 × Tn 𝕜
  full : Lib 𝕜

/-- the constructor for the boundary of an open network (bmps_impl.h:20-57): tensors with the element
one and legs of dimension one -/
def product (n : ℕ) : Obj 𝕜 := ⟨List.replicate n ⟨[1, 1, 1], fun _ => 1⟩, List.replicate n .right, 0⟩

/-- an object from `BMPS(position, size)` (bmps.h:166-168) whose tensors have been set; what
`MultiplyMPO` returns for `SVD_COMPRESS` (bmps_impl.h:768, 854-861) -/
def unmarked (es : List (Tn 𝕜)) : Obj 𝕜 := ⟨es, List.replicate es.length .none, -1⟩

/-- what `MultiplyMPO` returns for the variational schemes (bmps_impl.h:745-755) -/
def finalized (es : List (Tn 𝕜)) : Obj 𝕜 := ⟨es, List.replicate es.length .right, 0⟩

variable (fac : Facs 𝕜)

/-- `LeftCanonicalizeTen` (bmps_impl.h:153-174); `QR` does not depend on truncation parameters -/
def leftTen (i : ℕ) (o : Obj 𝕜) : Option (Obj 𝕜) :=
  match o.tens[i]?, o.tens[i + 1]? with
  | some a, some b =>
    let d := (fac.lib 0 0 0).qr a 2
    some { o with
      tens := (o.tens.set i d.1).set (i + 1) (contractN d.2 [1] b [0])
      cano := (o.cano.set i .left).set (i + 1) .none }
  | _, _ => none

/-- `RightCanonicalizeTen` (bmps_impl.h:176-195) -/
def rightTen (i : ℕ) (o : Obj 𝕜) : Option (Obj 𝕜) :=
  match i with
  | 0 => none
  | j + 1 =>
    match o.tens[j]?, o.tens[j + 1]? with
    | some a, some b =>
      let d := fac.lq b
      some { o with
        tens := (o.tens.set j (contractN a [2] d.1 [0])).set (j + 1) d.2
        cano := (o.cano.set j .none).set (j + 1) .right }
    | _, _ => none

/-- a loop over the indices `is` -/
def steps (f : ℕ → Obj 𝕜 → Option (Obj 𝕜)) : List ℕ → Obj 𝕜 → Option (Obj 𝕜)
  | [], o => some o
  | i :: is, o => (f i o).bind (steps f is)

/-- `LeftCanonicalize` (bmps_impl.h:129-138): the tensors which are marked at the start are left out -/
def leftCano (stop : ℕ) (o : Obj 𝕜) : Option (Obj 𝕜) :=
  steps (leftTen fac) ((List.range (stop + 1)).dropWhile fun i => o.cano.getD i .none = .left) o

/-- `RightCanonicalize` (bmps_impl.h:140-150): from the last tensor down to `stop`, without those which
are marked at the end. Beyond the last tensor, `start_idx` is not initialized. -/
def rightCano (stop : ℕ) (o : Obj 𝕜) : Option (Obj 𝕜) :=
  if stop < o.tens.length then
    steps (rightTen fac)
      (((List.range (o.tens.length - stop)).map fun k => o.tens.length - 1 - k).dropWhile
        fun i => o.cano.getD i .none = .right) o
  else none

/-- `Centralize` (bmps_impl.h:118-127) -/
def centralize (c : ℕ) (o : Obj 𝕜) : Option (Obj 𝕜) :=
  (if c ≠ 0 then leftCano fac (c - 1) o else some o).bind fun o =>
    (if c ≠ o.tens.length - 1 then rightCano fac (c + 1) o else some o).map fun o =>
      { o with center := c }

/-- `RightCanonicalizeTruncate` (bmps_impl.h:225-263): the marks stay as they are -/
def truncate (te : ℝ) (dmin dmax i : ℕ) (o : Obj 𝕜) : Option (Obj 𝕜) :=
  match i with
  | 0 => none
  | j + 1 =>
    match o.tens[j]?, o.tens[j + 1]? with
    | some a, some b =>
      let r := canoStep (fac.lib te dmin dmax) a b
      some { o with tens := (o.tens.set j r.1).set (j + 1) r.2 }
    | _, _ => none

/-- `RightCanonicalizeTenSVD_` (bmps_impl.h:197-222), with the singular values -/
def svdTen (i : ℕ) (o : Obj 𝕜) : Option (Obj 𝕜 × Peps.Diag) :=
  match i with
  | 0 => none
  | j + 1 =>
    match o.tens[j]?, o.tens[j + 1]? with
    | some a, some b =>
      let r := canoStep fac.full a b
      some ({ o with
        tens := (o.tens.set j r.1).set (j + 1) r.2
        cano := (o.cano.set j .none).set (j + 1) .right }, (fac.full.svd b 1).s)
    | _, _ => none

/-- a number, or NaN -/
abbrev Num := Option ℝ

open Classical in
/-- the entropy of one bond from the singular values (bmps_impl.h:276-297). For `n = 1`, a vanishing
singular value contributes `0 * log 0`, which is NaN. For `n = 0` the loop over the powers is empty and
`n - 1` wraps around to the largest `size_t`, `2 ^ 64 - 1`. -/
def entropyOf (n : ℕ) (s : Peps.Diag) : Num :=
  let p := fun k => s.val k * s.val k
  if n = 1 then
    if ∃ k < s.dim, p k = 0 then none else some (∑ k ∈ Finset.range s.dim, -p k * Real.log (p k))
  else
    some (-Real.log (∑ k ∈ Finset.range s.dim, p k * ∏ _j ∈ Finset.range (n - 1), p k) /
      (if n = 0 then 2 ^ 64 - 1 else (n : ℝ) - 1))

/-- the loop of `GetEntanglementEntropy` for `i = k, …, 1`; entropies in the order of the bonds -/
def entropies (n : ℕ) : ℕ → Obj 𝕜 → Option (Obj 𝕜 × List Num)
  | 0, o => some (o, [])
  | k + 1, o => (svdTen fac (k + 1) o).bind fun r =>
      (entropies n k r.1).map fun q => (q.1, q.2 ++ [entropyOf n r.2])

/-- `Normalize` of the last tensor (bmps_impl.h:271); see `entropy` for a vanishing norm -/
def normalizeLast (o : Obj 𝕜) : Obj 𝕜 :=
  { o with tens := o.tens.modify (o.tens.length - 1) fun t =>
      ⟨t.shape, fun x => t.elem x / ((norm2 t : ℝ) : 𝕜)⟩ }

/-- `GetEntanglementEntropy` (bmps_impl.h:265-298): the object afterwards and the entropies of its
bonds. An empty object is out of range (`N - 1` wraps around). If the last tensor vanishes, normalizing
it divides zero by zero and the tensors become NaN: left out, the outcome is `none`. -/
def entropy (n : ℕ) (o : Obj 𝕜) : Option (Obj 𝕜 × List Num) :=
  if o.tens = [] then none
  else (centralize fac (o.tens.length - 1) o).bind fun o =>
    if norm2 (o.tens.getD (o.tens.length - 1) nil) = 0 then none
    else entropies fac n (o.tens.length - 1) (normalizeLast o)

/-- the exchange of the two marks in `Reverse` -/
def Mark.flip : Mark → Mark
  | .none => .none
  | .left => .right
  | .right => .left

/-- `Reverse` (bmps_impl.h:300-329): the marks are exchanged, but stay at their places; an object
without a center (`kUncentralizedCenterIdx`, -1) keeps them -/
def reverse (o : Obj 𝕜) : Obj 𝕜 :=
  { tens := o.tens.reverse.map (transpose [2, 1, 0])
    cano := if o.center ≠ -1 then o.cano.map Mark.flip else o.cano
    center := if o.center ≠ -1 then o.tens.length - 1 - o.center else o.center }

/-- a call of a public member function (bmps.h:231-258) -/
inductive Call
  | centralize (c : ℕ)
  | left (stop : ℕ)
  | right (stop : ℕ)
  | leftTen (i : ℕ)
  | rightTen (i : ℕ)
  | entropy (n : ℕ)
  | reverse
  | truncate (te : ℝ) (dmin dmax i : ℕ)

/-- the object after a call -/
def call : Call → Obj 𝕜 → Option (Obj 𝕜)
  | .centralize c, o => centralize fac c o
  | .left stop, o => leftCano fac stop o
  | .right stop, o => rightCano fac stop o
  | .leftTen i, o => leftTen fac i o
  | .rightTen i, o => rightTen fac i o
  | .entropy n, o => (entropy fac n o).map Prod.fst
  | .reverse, o => some (reverse o)
  | .truncate te dmin dmax i, o => truncate fac te dmin dmax i o

/-- the object after a sequence of calls -/
def calls : List Call → Obj 𝕜 → Option (Obj 𝕜)
  | [], o => some o
  | h :: hs, o => (call fac h o).bind (calls hs)

end

end QLPeps.BmpsCano
