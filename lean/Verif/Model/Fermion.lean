import Verif.Model.Energy

/-!
# Model of the local-energy solvers of the fermionic models

Sources (under `/repo/include/qlpeps/algorithm/vmc_update/model_solvers/`):
`square_hubbard_model.h`, `square_tJ_model.h`, `square_spinless_fermion.h` and the fermionic
branches of `base/square_nnn_energy_solver.h`, `base/bond_traversal_mixin.h` and
`base/square_nnn_model_measurement_solver.h`.

As in `Model.Energy`, scalars live in a field `K` with involution, arithmetic is exact and the
contractor is an oracle.  The sign of a fermionic amplitude depends on the contraction path, so the
oracle is indexed by the bond whose environments are used.  `psi_list` (only used to report the
accuracy of the contraction), the hole tensors and the Jastrow-dressed overloads are not modelled
here (the Jastrow ratio is modelled in `Model.Jastrow`).
-/

namespace QLPeps.Fermion

open Energy (Kind Bond allSites)

variable {K : Type*}

/-- How an evaluation can fail: `std::runtime_error` because an amplitude is zero,
`exit(EXIT_FAILURE)` (square_tJ_model.h:322-325), `std::runtime_error` because the pinned bond is
outside the lattice (square_tJ_model.h:239-249), or undefined behaviour (a `size_t` wrap-around). -/
inductive Err | zeroPsi | exit | pinOutside | ub
  deriving DecidableEq, Repr

/-- The contractor oracle.  `trace b` is `Trace(tn, site1, site2, orient)` for the nearest-neighbour
bond `b`; `replace b x y` is `ReplaceNNSiteTrace` (kinds `h`, `v`) or `ReplaceNNNSiteTrace` with
`mps_orient = HORIZONTAL` (kinds `dr`, `ur`) with the tensors of `site1`, `site2` replaced by those
of the local states `x`, `y`. -/
structure Contr (K : Type*) where
  trace : Bond → K
  replace : Bond → ℕ → ℕ → K

/-- `for` loop collecting values; the first failing iteration ends it -/
def collect {ι α : Type*} (step : ι → Except Err (List α)) : List ι → Except Err (List α)
  | [] => .ok []
  | i :: is =>
    match step i with
    | .error e => .error e
    | .ok l =>
      match collect step is with
      | .error e => .error e
      | .ok ls => .ok (l ++ ls)

/-- the value of one bond, as a contribution to the list of values -/
def one : Except Err K → Except Err (List K)
  | .error e => .error e
  | .ok v => .ok [v]

/-- What an explicit fermionic model supplies to the base solvers: `bond rows cols` is
`EvaluateBondEnergy`, `diag` is `EvaluateNNNEnergy` with the in/out parameter `psi`, `onsite` is
`EvaluateTotalOnsiteEnergy`, `nnn` is `has_nnn_interaction`. -/
structure Model (K : Type*) where
  nnn : Bool
  bond : ℕ → ℕ → Contr K → Config → Bond → Except Err K
  diag : Contr K → Config → Bond → Option K → K × Option K
  onsite : ℕ → ℕ → Config → Except Err K

section solver
variable [Field K] [DecidableEq K]

/-- base/square_nnn_energy_solver.h:220-262 and base/bond_traversal_mixin.h:78-90: the two diagonals
of the plaquette with upper left corner `(row, col)`; `psi` is shared by the two calls. -/
def plaquette (m : Model K) (C : Contr K) (cfg : Config) (row col : ℕ) : K × K :=
  let r1 := m.diag C cfg ⟨(row, col), (row + 1, col + 1), .dr⟩ none
  let r2 := m.diag C cfg ⟨(row + 1, col), (row, col + 1), .ur⟩ r1.2
  (r1.1, r2.1)

/-- base/square_nnn_energy_solver.h:138-267, fermionic branch, one row.  There is no
`Trace(tn, {row, 0}, HORIZONTAL)` in this branch.  `GrowFullBTen2(tn, RIGHT, row, 2, true)` runs
`i < cols - 2` in `size_t`, hence `ub` for `cols = 1`. -/
def energyRow (m : Model K) (C : Contr K) (cfg : Config) (rows cols row : ℕ) :
    Except Err (List K) :=
  match collect (fun col =>
      if col < cols - 1 then
        one (m.bond rows cols C cfg ⟨(row, col), (row, col + 1), .h⟩)
      else .ok []) (List.range cols) with
  | .error e => .error e
  | .ok nn =>
    if m.nnn = true ∧ row < rows - 1 then
      if cols < 2 then .error .ub
      else .ok (nn ++ (List.range (cols - 1)).map (fun col =>
        (plaquette m C cfg row col).1 + (plaquette m C cfg row col).2))
    else .ok nn

/-- base/bond_traversal_mixin.h:112-143 `TraverseVerticalBonds` for one column.
`Trace(tn, {0, col}, VERTICAL)` is the trace on the first vertical bond
(bmps_contractor_trace.h:12-28); `GrowFullBTen(tn, DOWN, col, 2, true)` wraps around for
`rows = 1`. -/
def verticalCol (m : Model K) (C : Contr K) (cfg : Config) (rows cols col : ℕ) :
    Except Err (List K) :=
  if rows < 2 then .error .ub
  else if C.trace ⟨(0, col), (1, col), .v⟩ = 0 then .error .zeroPsi
  else collect (fun row =>
    one (m.bond rows cols C cfg ⟨(row, col), (row + 1, col), .v⟩)) (List.range (rows - 1))

/-- base/square_nnn_energy_solver.h:82-136, 270-315 `CalEnergyAndHolesImpl` -/
def calEnergy (m : Model K) (C : Contr K) (cfg : Config) (rows cols : ℕ) : Except Err K :=
  match collect (energyRow m C cfg rows cols) (List.range rows) with
  | .error e => .error e
  | .ok hs =>
    match collect (verticalCol m C cfg rows cols) (List.range cols) with
    | .error e => .error e
    | .ok vs =>
      match m.onsite rows cols cfg with
      | .error e => .error e
      | .ok o => .ok ((hs ++ vs).sum + o)

/-- base/bond_traversal_mixin.h:55-105 `TraverseHorizontalBonds` for one row (measurement): the
values of the bonds in the order reported.  Unlike the energy solver it takes a trace first. -/
def measRow (m : Model K) (C : Contr K) (cfg : Config) (rows cols row : ℕ) :
    Except Err (List K) :=
  if cols < 2 then .error .ub
  else if C.trace ⟨(row, 0), (row, 1), .h⟩ = 0 then .error .zeroPsi
  else
    match collect (fun col =>
        one (m.bond rows cols C cfg ⟨(row, col), (row, col + 1), .h⟩)) (List.range (cols - 1)) with
    | .error e => .error e
    | .ok nn =>
      if m.nnn = true ∧ row < rows - 1 then
        .ok (nn ++ (List.range (cols - 1)).flatMap (fun col =>
          [(plaquette m C cfg row col).1, (plaquette m C cfg row col).2]))
      else .ok nn

/-- base/square_nnn_model_measurement_solver.h:93-199: `out["energy"]` -/
def measEnergy (m : Model K) (C : Contr K) (cfg : Config) (rows cols : ℕ) : Except Err K :=
  match collect (measRow m C cfg rows cols) (List.range rows) with
  | .error e => .error e
  | .ok hs =>
    match collect (verticalCol m C cfg rows cols) (List.range cols) with
    | .error e => .error e
    | .ok vs =>
      match m.onsite rows cols cfg with
      | .error e => .error e
      | .ok o => .ok ((hs ++ vs).foldl (fun e v => e + v) 0 + o)

end solver

section models
variable [Field K] [StarRing K]

/-- `ComplexConjugate(contractor.Replace…SiteTrace(…, x, y) / psi)` -/
def ratio (C : Contr K) (b : Bond) (psi : K) (x y : ℕ) : K := star (C.replace b x y / psi)

/-- square_hubbard_model.h:189-263 `EvaluateBondEnergy`.  Local states: 0 double occupancy, 1 up,
2 down, 3 empty. -/
def hubbardBond (t : K) (C : Contr K) (cfg : Config) (b : Bond) : K :=
  let c1 := cfg b.a
  let c2 := cfg b.b
  if c1 = c2 then 0
  else if (c1 = 3 ∧ (c2 = 1 ∨ c2 = 2)) ∨ (c2 = 3 ∧ (c1 = 1 ∨ c1 = 2)) then
    -t * ratio C b (C.trace b) c2 c1
  else if (c1 = 0 ∧ (c2 = 1 ∨ c2 = 2)) ∨ (c2 = 0 ∧ (c1 = 1 ∨ c1 = 2)) then
    t * ratio C b (C.trace b) c2 c1
  else if c1 = 1 ∧ c2 = 2 then
    -t * (ratio C b (C.trace b) 3 0 + ratio C b (C.trace b) 0 3)
  else if c1 = 2 ∧ c2 = 1 then
    t * (ratio C b (C.trace b) 3 0 + ratio C b (C.trace b) 0 3)
  else
    -t * ratio C b (C.trace b) 1 2 + t * ratio C b (C.trace b) 2 1

/-- square_hubbard_model.h:101-117 `EvaluateTotalOnsiteEnergy` -/
def hubbardOnsite (U mu : K) (rows cols : ℕ) (cfg : Config) : K :=
  let dbl := (allSites rows cols).countP (fun s => cfg s = 0)
  let sgl := (allSites rows cols).countP (fun s => cfg s = 1 ∨ cfg s = 2)
  U * (dbl : K) + -mu * ((dbl * 2 + sgl : ℕ) : K)

/-- `SquareHubbardModel` (nearest neighbours only) -/
def hubbard (t U mu : K) : Model K where
  nnn := false
  bond _ _ C cfg b := .ok (hubbardBond t C cfg b)
  diag _ _ _ p := (0, p)
  onsite rows cols cfg := .ok (hubbardOnsite U mu rows cols cfg)

/-- square_hubbard_model.h:25-34 `HubbardConfig2Density`: the reported charge of a site -/
def hubbardDensity (c : ℕ) : K := if c = 0 then 2 else if c = 1 ∨ c = 2 then 1 else if c = 3 then 0 else -1

/-- square_hubbard_model.h:36-45 `HubbardConfig2Spinz` -/
def hubbardSpinZ (c : ℕ) : K :=
  if c = 0 ∨ c = 3 then 0 else if c = 1 then 1 / 2 else if c = 2 then -(1 / 2) else -1

/-- `SingletPairPinningField` (square_tJ_model.h:86-91) -/
structure Pin (K : Type*) where
  a : Site
  b : Site
  kind : Kind
  delta : K
  deriving DecidableEq

/-- square_tJ_model.h:107-134 `SetSingletPairPinningField`; `none` is `std::invalid_argument`.
(`std::isfinite(delta)` always holds for exact scalars.) -/
def setPin (s1 s2 : Site) (delta : K) : Option (Pin K) :=
  let dist := fun a b : ℕ => if a > b then a - b else b - a
  if dist s1.1 s2.1 + dist s1.2 s2.2 ≠ 1 then none
  else if dist s1.1 s2.1 = 0 then
    if s2.2 < s1.2 then some ⟨s2, s1, .h, delta⟩ else some ⟨s1, s2, .h, delta⟩
  else
    if s2.1 < s1.1 then some ⟨s2, s1, .v, delta⟩ else some ⟨s1, s2, .v, delta⟩

/-- square_tJ_model.h:239-249 `ValidateSingletPairPinningBondInLattice_` -/
def pinInside (pin : Option (Pin K)) (rows cols : ℕ) : Bool :=
  match pin with
  | none => true
  | some p => decide (p.a.1 < rows ∧ p.a.2 < cols) && decide (p.b.1 < rows ∧ p.b.2 < cols)

/-- square_tJ_model.h:251-256 `IsPinnedSingletPairBond_`: the strength if `b` is the pinned bond -/
def pinnedAt (pin : Option (Pin K)) (b : Bond) : Option K :=
  match pin with
  | none => none
  | some p => if p.kind = b.kind ∧ p.a = b.a ∧ p.b = b.b then some p.delta else none

/-- square_tJ_model.h:547-606 `EvaluateBondSingletPairFortJModelWithPsi`: `(Δ†, Δ)`; `r2` is
`std::sqrt(2)`.  Local states: 0 up, 1 down, 2 empty.  `psi?` is the in/out parameter. -/
def singletPair [DecidableEq K] (r2 : K) (C : Contr K) (cfg : Config) (b : Bond)
    (psi? : Option K) : Except Err (K × K) :=
  let c1 := cfg b.a
  let c2 := cfg b.b
  let psi := psi?.getD (C.trace b)
  if c1 = 2 ∧ c2 = 2 then
    if psi = 0 then .error .zeroPsi
    else .ok ((ratio C b psi 0 1 - ratio C b psi 1 0) / r2, 0)
  else if c1 = 0 ∧ c2 = 1 then
    if psi = 0 then .error .zeroPsi else .ok (0, ratio C b psi 2 2 / r2)
  else if c1 = 1 ∧ c2 = 0 then
    if psi = 0 then .error .zeroPsi else .ok (0, -ratio C b psi 2 2 / r2)
  else .ok (0, 0)

/-- the parameters of `SquaretJModelMixIn` -/
structure TJ (K : Type*) where
  t : K
  t2 : K
  J : K
  V : K
  mu : K
  pin : Option (Pin K)

/-- square_tJ_model.h:299-351 `EvaluateBondEnergy` (with square_tJ_model.h:258-286
`EvaluateSingletPairPinningEnergy_`) -/
def tJBond [DecidableEq K] (p : TJ K) (r2 : K) (rows cols : ℕ) (C : Contr K) (cfg : Config)
    (b : Bond) : Except Err K :=
  let c1 := cfg b.a
  let c2 := cfg b.b
  if c1 ≠ c2 ∧ C.trace b = 0 then .error .exit
  else
    let energy : K :=
      if c1 = c2 then (if c1 = 2 then 0 else p.V)
      else if c1 = 2 ∨ c2 = 2 then -p.t * ratio C b (C.trace b) c2 c1
      else (-(1 / 2) + ratio C b (C.trace b) c2 c1 * (1 / 2)) * p.J + p.V
    if pinInside p.pin rows cols = false then .error .pinOutside
    else
      match pinnedAt p.pin b with
      | none => .ok (energy + 0)
      | some delta =>
        match singletPair r2 C cfg b (if c1 = c2 then none else some (C.trace b)) with
        | .error e => .error e
        | .ok d => .ok (energy + delta * (d.1 + d.2))

/-- square_tJ_model.h:424-461 `EvaluateNNNEnergy` -/
def tJDiag [DecidableEq K] (p : TJ K) (C : Contr K) (cfg : Config) (b : Bond) (psi? : Option K) :
    K × Option K :=
  let c1 := cfg b.a
  let c2 := cfg b.b
  if p.t2 = 0 then (0, psi?)
  else if c1 = c2 ∨ (c1 ≠ 2 ∧ c2 ≠ 2) then (0, psi?)
  else
    let psi := psi?.getD (C.replace b c1 c2)
    (-p.t2 * ratio C b psi c2 c1, some psi)

/-- square_tJ_model.h:216-229 `EvaluateTotalOnsiteEnergy` -/
def tJOnsite [DecidableEq K] (p : TJ K) (rows cols : ℕ) (cfg : Config) : Except Err K :=
  if pinInside p.pin rows cols = false then .error .pinOutside
  else .ok (0 + if p.mu ≠ 0 then
    -p.mu * (((allSites rows cols).countP (fun s => cfg s ≠ 2) : ℕ) : K) else 0)

/-- the t-J models: `SquaretJNNModel` (`nnn = false`) and `SquaretJNNNModel`, `SquaretJVModel`
(`nnn = true`) -/
def tJ [DecidableEq K] (nnn : Bool) (p : TJ K) (r2 : K) : Model K where
  nnn := nnn
  bond := tJBond p r2
  diag := tJDiag p
  onsite := tJOnsite p

/-- square_spinless_fermion.h:87-89 `CalDensityImpl`: `double(1 - config)` (0 occupied, 1 empty) -/
def spinlessDensity (c : ℕ) : K := ((1 - c : ℕ) : K)

/-- square_spinless_fermion.h:134-159 `EvaluateBondEnergy` -/
def spinlessBond (t V : K) (C : Contr K) (cfg : Config) (b : Bond) : K :=
  let c1 := cfg b.a
  let c2 := cfg b.b
  let inter := V * spinlessDensity c1 * spinlessDensity c2
  if c1 = c2 then inter else -t * ratio C b (C.trace b) c2 c1 + inter

/-- square_spinless_fermion.h:177-213 `EvaluateNNNEnergy` -/
def spinlessDiag (t2 : K) (C : Contr K) (cfg : Config) (b : Bond) (psi? : Option K) :
    K × Option K :=
  let c1 := cfg b.a
  let c2 := cfg b.b
  if c1 = c2 then (0, psi?)
  else
    let psi := psi?.getD (C.replace b c1 c2)
    (-t2 * ratio C b psi c2 c1, some psi)

/-- `SquareSpinlessFermion` -/
def spinless (t t2 V : K) : Model K where
  nnn := true
  bond _ _ C cfg b := .ok (spinlessBond t V C cfg b)
  diag := spinlessDiag t2
  onsite _ _ _ := .ok 0

end models

end QLPeps.Fermion
