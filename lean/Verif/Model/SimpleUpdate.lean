import Verif.Model.State
import Mathlib.Algebra.Field.Basic

/-!
# Model of the simple-update executors: local Hamiltonians, gates and sweeps

Sources (under `/repo/include/qlpeps/`): `algorithm/simple_update/square_lattice_nn_simple_update.h`,
`square_lattice_nnn_simple_update.h`, `triangle_nn_on_sqr_peps_simple_update.h`; the sites a
projection acts on from `two_dim_tn/peps/square_lattice_peps_projection_impl.h`.

Operators are tensors of entries over an exact field `𝕜`. The fermionic sign operator
(`ActFermionPOps`) is not modelled: the model is that of bosonic tensors. Contracting a
default-constructed tensor is undefined and gives `none`.
-/

namespace QLPeps.SimpleUpdate

open QLPeps.State (BC)

/-- (row, column) -/
abbrev Site := ℕ × ℕ

/-- one-site operator: entry (in, out) -/
abbrev Op1 (𝕜 : Type*) := ℕ → ℕ → 𝕜

/-- two-site operator: entry (in₁, out₁, in₂, out₂), the index order of
`simple_update_impl.h:140-153` -/
abbrev Op2 (𝕜 : Type*) := ℕ → ℕ → ℕ → ℕ → 𝕜

/-- three-site operator: entry (in₁, out₁, in₂, out₂, in₃, out₃) -/
abbrev Op3 (𝕜 : Type*) := ℕ → ℕ → ℕ → ℕ → ℕ → ℕ → 𝕜

variable {𝕜 : Type*} [Field 𝕜]

/-- the identity built in lines 210-216 of `square_lattice_nn_simple_update.h` and by `Eye` in line
164 of `square_lattice_nnn_simple_update.h` -/
def ident : Op1 𝕜 := fun i j => if i = j then 1 else 0

/-- `is_pbc ? n : n - 1`: number of bonds along a line of `n` sites
(square_lattice_nn_simple_update.h:188-189) -/
def bondLimit (bc : BC) (n : ℕ) : ℕ := if bc = .pbc then n else n - 1

/-- `lambda_horiz.cols()` / `lambda_vert.rows()` (square_lattice_peps_basic_impl.h:27-28) -/
def lamLen (bc : BC) (n : ℕ) : ℕ := if bc = .obc then n + 1 else n

/-! ## Nearest-neighbour executor -/

/-- members of `SquareLatticeNNSimpleUpdateExecutor`
(square_lattice_nn_simple_update.h:149-155): uniform or per-bond two-site terms, on-site terms
(`none` is a default-constructed tensor). -/
structure NN (𝕜 : Type*) where
  bc : BC
  ly : ℕ
  lx : ℕ
  nonUniform : Bool
  uniform : Op2 𝕜
  horIn : ℕ → ℕ → Op2 𝕜
  verIn : ℕ → ℕ → Op2 𝕜
  onsite : ℕ → ℕ → Option (Op1 𝕜)

/-- `ConstructBondHamiltonian` (square_lattice_nn_simple_update.h:120-130) -/
def bondHam (base : Op2 𝕜) (h1 : 𝕜) (o1 : Op1 𝕜) (h2 : 𝕜) (o2 : Op1 𝕜) : Op2 𝕜 :=
  fun i1 j1 i2 j2 =>
    base i1 j1 i2 j2 + h1 * (o1 i1 j1 * ident i2 j2) + h2 * (ident i1 j1 * o2 i2 j2)

/-- coordination numbers of the two sites of a horizontal bond
(square_lattice_nn_simple_update.h:223-232) -/
def coordH (bc : BC) (ly lx row col : ℕ) : ℕ × ℕ :=
  if bc = .pbc then (4, 4)
  else
    let e := if row = 0 ∨ row = ly - 1 then 1 else 0
    (4 - e - (if col = 0 then 1 else 0), 4 - e - (if col = lx - 2 then 1 else 0))

/-- coordination numbers of the two sites of a vertical bond
(square_lattice_nn_simple_update.h:254-263) -/
def coordV (bc : BC) (ly lx row col : ℕ) : ℕ × ℕ :=
  if bc = .pbc then (4, 4)
  else
    let e := if col = 0 ∨ col = lx - 1 then 1 else 0
    (4 - e - (if row = 0 then 1 else 0), 4 - e - (if row = ly - 2 then 1 else 0))

/-- `SetEvolveGate_` (square_lattice_nn_simple_update.h:165-283), entry of `horizontal_nn_ham_set_`;
whether there are on-site terms at all is decided by site (0, 0) (line 166). -/
def NN.hamH (m : NN 𝕜) (row col : ℕ) : Option (Op2 𝕜) :=
  let base := if m.nonUniform then m.horIn row col else m.uniform
  if (m.onsite 0 0).isNone then some base
  else
    match m.onsite row col, m.onsite row ((col + 1) % m.lx) with
    | some o1, some o2 =>
      let k := coordH m.bc m.ly m.lx row col
      some (bondHam base (1 / (k.1 : 𝕜)) o1 (1 / (k.2 : 𝕜)) o2)
    | _, _ => none

/-- `SetEvolveGate_`, entry of `vertical_nn_ham_set_` -/
def NN.hamV (m : NN 𝕜) (row col : ℕ) : Option (Op2 𝕜) :=
  let base := if m.nonUniform then m.verIn row col else m.uniform
  if (m.onsite 0 0).isNone then some base
  else
    match m.onsite row col, m.onsite ((row + 1) % m.ly) col with
    | some o1, some o2 =>
      let k := coordV m.bc m.ly m.lx row col
      some (bondHam base (1 / (k.1 : 𝕜)) o1 (1 / (k.2 : 𝕜)) o2)
    | _, _ => none

/-- second site of `NearestNeighborSiteProject(…, HORIZONTAL)`
(square_lattice_peps_projection_impl.h:96-101) -/
def rightSite (bc : BC) (lx : ℕ) (s : Site) : Site := (s.1, (s.2 + 1) % lamLen bc lx)

/-- second site of `NearestNeighborSiteProject(…, VERTICAL)`
(square_lattice_peps_projection_impl.h:167-171) -/
def lowerSite (bc : BC) (ly : ℕ) (s : Site) : Site :=
  (if bc = .obc then s.1 + 1 else (s.1 + 1) % lamLen bc ly, s.2)

/-- `SimpleUpdateSweep_` (square_lattice_nn_simple_update.h:286-353): the projections of one sweep
in order, each with its two sites and its Hamiltonian; the gate of a projection is the exponential
of that Hamiltonian (`TaylorExpMatrix`, modelled in `Model/Taylor`). -/
def NN.sweep (m : NN 𝕜) : Option (List (Site × Site × Op2 𝕜)) := do
  let v ← ((List.range m.lx).flatMap fun col => (List.range (bondLimit m.bc m.ly)).map fun row =>
      (row, col)).mapM fun s => (m.hamV s.1 s.2).map fun h => (s, lowerSite m.bc m.ly s, h)
  let h ← ((List.range (bondLimit m.bc m.lx)).flatMap fun col => (List.range m.ly).map fun row =>
      (row, col)).mapM fun s => (m.hamH s.1 s.2).map fun h => (s, rightSite m.bc m.lx s, h)
  pure (v ++ h)

/-! ## Next-nearest-neighbour executor -/

/-- members of `SquareLatticeNNNSimpleUpdateExecutor`
(square_lattice_nnn_simple_update.h:288-290) -/
structure NNN (𝕜 : Type*) where
  bc : BC
  ly : ℕ
  lx : ℕ
  nn : Op2 𝕜
  nnn : Op2 𝕜
  onsite : ℕ → ℕ → Option (Op1 𝕜)

/-- `TriProjPOSITION` (square_lattice_nnn_simple_update.h:100-105) -/
inductive Tri | upperRight | upperLeft | lowerRight | lowerLeft
  deriving DecidableEq

/-- `tri_site` of `ConstructTriHamiltonian` (square_lattice_nnn_simple_update.h:137-162): the sites
A, B, C, from site B. `x - 1 + n` on `size_t`, wrapping for `x = 0`, is `x + n - 1`. -/
def triSite (bc : BC) (ly lx : ℕ) (b : Site) : Tri → Site × Site × Site
  | .upperLeft =>
    ((b.1, (b.2 + 1) % lamLen bc lx), b, ((b.1 + 1) % lamLen bc ly, b.2))
  | .upperRight =>
    ((b.1, (b.2 + lamLen bc lx - 1) % lamLen bc lx), b, ((b.1 + 1) % lamLen bc ly, b.2))
  | .lowerLeft =>
    (((b.1 + lamLen bc ly - 1) % lamLen bc ly, b.2), b,
      ((b.1 + lamLen bc ly - 1) % lamLen bc ly, (b.2 + 1) % lamLen bc lx))
  | .lowerRight =>
    (((b.1 + lamLen bc ly - 1) % lamLen bc ly, b.2), b,
      (b.1, (b.2 + lamLen bc lx - 1) % lamLen bc lx))

/-- `hor_bond_tri_num` and `ver_bond_tri_num` (square_lattice_nnn_simple_update.h:192-232) -/
def bondTri (bc : BC) (ly lx : ℕ) (b : Site) (t : Tri) : ℕ × ℕ :=
  if bc = .pbc then (4, 4)
  else match t with
    | .upperLeft => (if b.1 = 0 then 2 else 4, if b.2 = 0 then 2 else 4)
    | .upperRight => (if b.1 = 0 then 2 else 4, if b.2 = lx - 1 then 2 else 4)
    | .lowerLeft => (if b.1 = ly - 1 then 2 else 4, if b.2 = 0 then 2 else 4)
    | .lowerRight => (if b.1 = ly - 1 then 2 else 4, if b.2 = lx - 1 then 2 else 4)

/-- `site_tri_num` (square_lattice_nnn_simple_update.h:242-259) -/
def siteTri (bc : BC) (ly lx : ℕ) (s : Site) : ℕ :=
  if bc = .pbc then 12
  else if s.1 = 0 ∧ 0 < s.2 ∧ s.2 < lx - 1 then 6
  else if s.1 = ly - 1 ∧ 0 < s.2 ∧ s.2 < lx - 1 then 6
  else if s.2 = 0 ∧ 0 < s.1 ∧ s.1 < ly - 1 then 6
  else if s.2 = lx - 1 ∧ 0 < s.1 ∧ s.1 < ly - 1 then 6
  else if s.1 = 0 ∧ (s.2 = 0 ∨ s.2 = lx - 1) then 3
  else if s.1 = ly - 1 ∧ (s.2 = 0 ∨ s.2 = lx - 1) then 3
  else 12

/-- the two- and three-site part of `ConstructTriHamiltonian`
(square_lattice_nnn_simple_update.h:183-237): index order A, B, C; AB is the horizontal bond for
the upper triangles and the vertical one for the lower triangles. -/
def triBonds (nn nnn : Op2 𝕜) (k : ℕ × ℕ) (t : Tri) : Op3 𝕜 := fun iA jA iB jB iC jC =>
  let tri := nnn iA jA iC jC * ident iB jB * (1 / 2)
  let nn1 := ident iA jA * nn iB jB iC jC
  let nn2 := nn iA jA iB jB * ident iC jC
  match t with
  | .upperLeft | .upperRight => tri + nn2 * (1 / (k.1 : 𝕜)) + nn1 * (1 / (k.2 : 𝕜))
  | .lowerLeft | .lowerRight => tri + nn1 * (1 / (k.1 : 𝕜)) + nn2 * (1 / (k.2 : 𝕜))

/-- `ConstructTriHamiltonian` (square_lattice_nnn_simple_update.h:135-280) -/
def NNN.triHam (m : NNN 𝕜) (b : Site) (t : Tri) : Option (Op3 𝕜) :=
  let bonds := triBonds m.nn m.nnn (bondTri m.bc m.ly m.lx b t) t
  if (m.onsite 0 0).isNone then some bonds
  else
    let s := triSite m.bc m.ly m.lx b t
    match m.onsite s.1.1 s.1.2, m.onsite s.2.1.1 s.2.1.2, m.onsite s.2.2.1 s.2.2.2 with
    | some oA, some oB, some oC => some fun iA jA iB jB iC jC =>
        bonds iA jA iB jB iC jC
        + oA iA jA * ident iB jB * ident iC jC * (1 / (siteTri m.bc m.ly m.lx s.1 : 𝕜))
        + ident iA jA * oB iB jB * ident iC jC * (1 / (siteTri m.bc m.ly m.lx s.2.1 : 𝕜))
        + ident iA jA * ident iB jB * oC iC jC * (1 / (siteTri m.bc m.ly m.lx s.2.2 : 𝕜))
    | _, _, _ => none

/-- site B of the triangle stored at (row, col) (square_lattice_nnn_simple_update.h:316-326) -/
def cornerB (bc : BC) (ly lx row col : ℕ) : Tri → Site
  | .upperLeft => (row, col)
  | .upperRight => (row, (col + 1) % lamLen bc lx)
  | .lowerLeft => ((row + 1) % lamLen bc ly, col)
  | .lowerRight => ((row + 1) % lamLen bc ly, (col + 1) % lamLen bc lx)

/-- the three sites, in gate order, that the triangle projections act on, from the site they are
called with (square_lattice_peps_projection_impl.h:293-297, 400-404, 507-511, 607-611 and the gate
contractions in lines 306, 413, 532, 633) -/
def projSites (bc : BC) (ly lx : ℕ) (s : Site) : Tri → Site × Site × Site
  | .upperRight =>
    ((s.1, (s.2 + lamLen bc lx - 1) % lamLen bc lx), s, ((s.1 + 1) % lamLen bc ly, s.2))
  | .upperLeft =>
    ((s.1, (s.2 + 1) % lamLen bc lx), s, ((s.1 + 1) % lamLen bc ly, s.2))
  | .lowerRight =>
    (s, ((s.1 + 1) % lamLen bc ly, s.2),
      ((s.1 + 1) % lamLen bc ly, (s.2 + lamLen bc lx - 1) % lamLen bc lx))
  | .lowerLeft =>
    (s, ((s.1 + 1) % lamLen bc ly, s.2), ((s.1 + 1) % lamLen bc ly, (s.2 + 1) % lamLen bc lx))

/-- the site a projection of the sweep is called with
(square_lattice_nnn_simple_update.h:347-389) -/
def callSite (bc : BC) (lx row col : ℕ) : Tri → Site
  | .upperRight | .lowerRight => (row, (col + 1) % lamLen bc lx)
  | .lowerLeft | .upperLeft => (row, col)

/-- the projections of one loop over plaquettes -/
def NNN.part (m : NNN 𝕜) (t : Tri) : Option (List ((Site × Site × Site) × Op3 𝕜)) :=
  ((List.range (bondLimit m.bc m.lx)).flatMap fun col =>
    (List.range (bondLimit m.bc m.ly)).map fun row => (row, col)).mapM fun s =>
      (m.triHam (cornerB m.bc m.ly m.lx s.1 s.2 t) t).map fun h =>
        (projSites m.bc m.ly m.lx (callSite m.bc m.lx s.1 s.2 t) t, h)

/-- `SimpleUpdateSweep_` (square_lattice_nnn_simple_update.h:333-409) -/
def NNN.sweep (m : NNN 𝕜) : Option (List ((Site × Site × Site) × Op3 𝕜)) := do
  let a ← m.part .upperRight
  let b ← m.part .lowerRight
  let c ← m.part .lowerLeft
  let d ← m.part .upperLeft
  pure (a ++ b ++ c ++ d)

/-! ## Triangular-lattice executor -/

/-- a projection of `TriangleNNModelSquarePEPSSimpleUpdateExecutor`: a two-site gate or a
three-site gate -/
inductive TriAct
  | nn (a b : Site)
  | tri (a b c : Site)
  deriving DecidableEq

/-- the first half of `SimpleUpdateSweep_` (triangle_nn_on_sqr_peps_simple_update.h:58-69) -/
def triHalfA (bc : BC) (ly lx : ℕ) : List TriAct :=
  ((List.range (ly - 1)).map fun row => .nn (row, 0) (lowerSite bc ly (row, 0))) ++
  (List.range (lx - 1)).flatMap fun c =>
    .nn (0, c) (rightSite bc lx (0, c)) :: (List.range (ly - 1)).map fun row =>
      let s := projSites bc ly lx (row, c + 1) .lowerRight
      .tri s.1 s.2.1 s.2.2

/-- the second half of `SimpleUpdateSweep_` (triangle_nn_on_sqr_peps_simple_update.h:72-83) -/
def triHalfB (bc : BC) (ly lx : ℕ) : List TriAct :=
  ((List.range (lx - 1)).flatMap fun col =>
    ((List.range (ly - 1)).map fun row =>
      let s := projSites bc ly lx (row, col) .upperLeft
      .tri s.1 s.2.1 s.2.2) ++ [.nn (ly - 1, col) (rightSite bc lx (ly - 1, col))]) ++
  (List.range (ly - 1)).map fun row => .nn (row, lx - 1) (lowerSite bc ly (row, lx - 1))

/-! ## Loop update -/

/-- `LoopUpdateSweep_` (algorithm/loop_update/loop_update_impl.h:344-365): upper-left corners of
the plaquettes in the order of their projection; the four passes are listed separately. -/
def loopPasses (bc : BC) (ly lx : ℕ) : List (List Site) :=
  [0, 1].flatMap fun startCol => [0, 1].map fun startRow =>
    ((List.range (bondLimit bc lx)).filter fun c => startCol ≤ c ∧ (c - startCol) % 2 = 0).flatMap
      fun col =>
        ((List.range (bondLimit bc ly)).filter fun r => startRow ≤ r ∧ (r - startRow) % 2 = 0).map
          fun row => (row, col)

/-- constructor check (loop_update_impl.h:165-187): `none` is the exception -/
def loopAccepts (bc : BC) (ly lx gateRows gateCols : ℕ) : Bool :=
  !(bc = .pbc ∧ (lx % 2 ≠ 0 ∨ ly % 2 ≠ 0)) &&
    (gateRows = bondLimit bc ly ∧ gateCols = bondLimit bc lx)

end QLPeps.SimpleUpdate
