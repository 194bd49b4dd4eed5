import Verif.Model.Contractor
import Verif.Model.Peps
import Verif.Model.Tps

/-!
# Model of splitting and grouping the physical index

Sources: `/repo/include/qlpeps/two_dim_tn/tps/split_index_tps_impl.h:736-763` (`FromTPS`) and
`/repo/include/qlpeps/two_dim_tn/tps/split_index_tps.h:182-215` (`GroupIndices`), bosonic branches;
the queries for bond dimensions of a TPS (`tps_impl.h:69-100`), a split-index TPS
(`split_index_tps_impl.h:78-142`) and a PEPS (`square_lattice_peps_basic_impl.h:262-345`).

Tensors have the legs west, south, east, north and, in a TPS, physical. Quantum-number sectors are
not modelled.
-/

namespace QLPeps.SplitIndex

open QLPeps.Peps (Tn contract contractN)
open QLPeps.State (BC)

noncomputable section

variable {𝕜 : Type*} [RCLike 𝕜]

/-- a vector with one nonzero element (`project_ten({i}) = 1`, `leg_ten({i}) = 1`) -/
def unitVec (n i : ℕ) : Tn 𝕜 := ⟨[n], fun x => if x.getD 0 0 = i then 1 else 0⟩

/-- the components of one site (split_index_tps_impl.h:743-758) -/
def splitSite (t : Tn 𝕜) : List (Tn 𝕜) :=
  (List.range (t.shape.getD 4 0)).map fun i => contractN t [4] (unitVec (t.shape.getD 4 0) i) [0]

/-- `SplitIndexTPS::FromTPS` -/
def fromTPS (t : Site → Tn 𝕜) (s : Site) : List (Tn 𝕜) := splitSite (t s)

/-- addition of tensors of the same shape -/
def addTn (a b : Tn 𝕜) : Tn 𝕜 := ⟨a.shape, fun x => a.elem x + b.elem x⟩

/-- the loop over components at one site (split_index_tps.h:197-209): component, its number, and the
sum so far -/
def groupLoop (n : ℕ) : List (Tn 𝕜) → ℕ → Tn 𝕜 → Tn 𝕜
  | [], _, acc => acc
  | a :: as, i, acc => groupLoop n as (i + 1) (addTn acc (contractN a [] (unitVec n i) []))

/-- the combined tensor of one site: `none` if there is no component (the tensor stays default) or
if there are more components than states of the physical index (element out of range) -/
def groupSite (n : ℕ) : List (Tn 𝕜) → Option (Tn 𝕜)
  | [] => none
  | a :: as =>
    if n < as.length + 1 then none
    else some (groupLoop n as 1 (contractN a [] (unitVec n 0) []))

/-- `SplitIndexTPS::GroupIndices(phy_idx)` -/
def groupIndices (n : ℕ) (comps : Site → List (Tn 𝕜)) (s : Site) : Option (Tn 𝕜) :=
  groupSite n (comps s)

/-- the components as used by the projection of a configuration: `nil` beyond the last (an access
out of range in the code) -/
def component (comps : Site → List (Tn 𝕜)) (s : Site) (v : ℕ) : Tn 𝕜 := (comps s).getD v ⟨[], fun _ => 0⟩

/-- a site tensor of `Model/Tps` with its coordinates in a list -/
def toTn (t : QLPeps.Tps.Ten 𝕜) : Tn 𝕜 :=
  ⟨[t.shape 0, t.shape 1, t.shape 2, t.shape 3, t.shape 4], fun x => t.elem fun i => x.getD i 0⟩

end

/-! ## Bond dimensions

`sh r c k` is the dimension of leg `k` of the tensor (or of component 0) at `(r, c)`. -/

/-- `GetMaxBondDimension` of a TPS (tps_impl.h:69-80) and of a split-index TPS
(split_index_tps_impl.h:78-89) -/
def maxBond (rows cols : ℕ) (sh : ℕ → ℕ → ℕ → ℕ) : ℕ :=
  (List.range rows).foldl (fun m r => (List.range cols).foldl (fun m c =>
    max (max m (sh r c 0)) (sh r c 1)) m) 0

/-- the loop of `GetAllInnerBondDimensions` (split_index_tps_impl.h:108-120) -/
def innerBonds (rows cols : ℕ) (bc : BC) (sh : ℕ → ℕ → ℕ → ℕ) : List ℕ :=
  (List.range rows).flatMap fun r => (List.range cols).flatMap fun c =>
    (if r < rows - 1 ∨ bc = .pbc then [sh r c 1] else []) ++
    (if c < cols - 1 ∨ bc = .pbc then [sh r c 2] else [])

/-- `GetAllInnerBondDimensions` (split_index_tps_impl.h:104-122). The number reserved is
`rows * cols - rows - cols` in unsigned arithmetic: if it is negative it wraps around to more than
`max_size()` and `reserve` throws `std::length_error` (`none`). -/
def allInnerBonds (rows cols : ℕ) (bc : BC) (sh : ℕ → ℕ → ℕ → ℕ) : Option (List ℕ) :=
  if rows * cols < rows + cols then none else some (innerBonds rows cols bc sh)

/-- `GetMinMaxBondDimension` (split_index_tps_impl.h:97-102); `none` is the exception of
`GetAllInnerBondDimensions`, or the access to the element at `end()` of an empty range -/
def minMaxBond (rows cols : ℕ) (bc : BC) (sh : ℕ → ℕ → ℕ → ℕ) : Option (ℕ × ℕ) :=
  match allInnerBonds rows cols bc sh with
  | none => none
  | some [] => none
  | some (d :: ds) => some (ds.foldl min d, ds.foldl max d)

/-- `SplitIndexTPS::IsBondDimensionEven` (split_index_tps_impl.h:124-142) -/
def isEven (rows cols : ℕ) (bc : BC) (sh : ℕ → ℕ → ℕ → ℕ) : Bool :=
  (List.range rows).all fun r => (List.range cols).all fun c =>
    (!decide (r < rows - 1 ∨ bc = .pbc) || sh 0 0 1 == sh r c 1) &&
    (!decide (c < cols - 1 ∨ bc = .pbc) || sh 0 0 1 == sh r c 2)

/-- `TPS::IsBondDimensionUniform` (tps_impl.h:83-100) -/
def isUniform (rows cols : ℕ) (bc : BC) (sh : ℕ → ℕ → ℕ → ℕ) : Bool :=
  (List.range rows).all fun r => (List.range cols).all fun c =>
    (!decide (r ≠ 0 ∨ bc = .pbc) || sh 0 0 1 == sh r c 3) &&
    (!decide (c ≠ 0 ∨ bc = .pbc) || sh 0 0 1 == sh r c 0)

/-- the dimensions of the weights of a PEPS in storage order: vertical ones, horizontal ones; there
is one more row (column) of them on an open lattice (square_lattice_peps_basic_impl.h:17-35) -/
def lambdaDims (rows cols : ℕ) (bc : BC) (dv dh : ℕ → ℕ → ℕ) : List ℕ :=
  ((List.range (if bc = .obc then rows + 1 else rows)).flatMap fun r =>
    (List.range cols).map fun c => dv r c) ++
  (List.range rows).flatMap fun r =>
    (List.range (if bc = .obc then cols + 1 else cols)).map fun c => dh r c

/-- `SquareLatticePEPS::GetMinMaxBondDim` (square_lattice_peps_basic_impl.h:262-286) -/
def pepsMinMax (rows cols : ℕ) (bc : BC) (dv dh : ℕ → ℕ → ℕ) : ℕ × ℕ :=
  match lambdaDims rows cols bc dv dh with
  | [] => (0, 0)
  | d :: ds => (d :: ds).foldl (fun m x => (min m.1 x, max m.2 x)) (d, 0)

/-- `SquareLatticePEPS::GetMaxBondDim` (square_lattice_peps_basic_impl.h:288-300) -/
def pepsMax (rows cols : ℕ) (bc : BC) (dv dh : ℕ → ℕ → ℕ) : ℕ :=
  (lambdaDims rows cols bc dv dh).foldl max 0

/-- `SquareLatticePEPS::IsBondDimensionUniform` (square_lattice_peps_basic_impl.h:302-341) -/
def pepsUniform (rows cols : ℕ) (bc : BC) (dv dh : ℕ → ℕ → ℕ) : Bool :=
  if rows ≤ 1 ∨ cols ≤ 1 then true
  else if bc = .obc then
    ((List.range rows).all fun r => decide (r = 0) || (List.range cols).all fun c => dv 1 0 == dv r c) &&
    (List.range rows).all fun r => (List.range cols).all fun c => decide (c = 0) || dv 1 0 == dh r c
  else (lambdaDims rows cols bc dv dh).all fun d => dv 1 0 == d

end QLPeps.SplitIndex
