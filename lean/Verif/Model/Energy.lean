import Verif.Model.Sweep
import Mathlib.Algebra.Star.Basic
import Mathlib.Algebra.Field.Defs
import Mathlib.Algebra.BigOperators.Group.List.Basic

/-!
# Model of the local-energy solvers of the spin models

Sources (under `/repo/include/qlpeps/algorithm/vmc_update/model_solvers/`):
`base/square_nnn_energy_solver.h`, `base/bond_traversal_mixin.h`,
`base/square_nnn_model_measurement_solver.h`, `square_spin_onehalf_xxz_obc.h`,
`square_spin_onehalf_j1j2_xxz_{obc,pbc}.h`, `heisenberg_square_pbc.h`,
`transverse_field_ising_square_{obc,pbc}.h`,
`spin_onehalf_triangle_heisenberg{,J1J2}_sqrpeps.h`.

Scalars live in an arbitrary field `K` with an involution `star` (`ComplexConjugate`);
arithmetic is exact.  The tensor-network contractor is an oracle: `trRow r`, `trCol c` are
the amplitudes `contractor.Trace` returns when standing in row `r` / column `c`, and
`ex a b` is what `Replace…SiteTrace` returns when the states of the sites `a` and `b` are
exchanged, `flip a` when site `a` is flipped.  They need not agree with one another unless
a theorem says so (`Spec.Exact`).
-/

namespace QLPeps.Energy

variable {K : Type*}

/-- What a solver call can do: return, throw `std::runtime_error` because an amplitude is
zero, throw `std::out_of_range` from a checked `.at`, or run past the end of an array
(`size_t` wrap-around in `GrowFullBTen`/`GrowFullBTen2`, undefined behaviour). -/
inductive Out (α : Type*) where
  | ok (a : α)
  | zeroPsi
  | outOfRange
  | ub
  deriving DecidableEq, Repr

namespace Out

def bind {α β : Type*} : Out α → (α → Out β) → Out β
  | .ok a, f => f a
  | .zeroPsi, _ => .zeroPsi
  | .outOfRange, _ => .outOfRange
  | .ub, _ => .ub

def map {α β : Type*} (f : α → β) (x : Out α) : Out β := x.bind (fun a => .ok (f a))

/-- a `for` loop appending the values produced by each iteration; the first failing
iteration ends it -/
def collect {ι α : Type*} (step : ι → Out (List α)) : List ι → Out (List α)
  | [] => .ok []
  | i :: is => (step i).bind (fun l => (collect step is).bind (fun ls => .ok (l ++ ls)))

end Out

/-- basic.h:19-22, 90-93: `HORIZONTAL`, `VERTICAL`, `LEFTUP_TO_RIGHTDOWN`,
`LEFTDOWN_TO_RIGHTUP` -/
inductive Kind | h | v | dr | ur
  deriving DecidableEq, Repr

/-- a call of `bond_measure_func(site1, site2, …)` -/
structure Bond where
  a : Site
  b : Site
  kind : Kind
  deriving DecidableEq, Repr

/-- the contractor oracle (see the header) -/
structure Contr (K : Type*) where
  trRow : ℕ → K
  trCol : ℕ → K
  ex : Site → Site → K
  flip : Site → K

/-- The three functions an explicit model supplies to `SquareNNNModelEnergySolver`:
`bond cfg b inv_psi psi_ex` is `EvaluateBondEnergy` (kinds `h`, `v`) and
`EvaluateNNNEnergy` (kinds `dr`, `ur`) for a bosonic model; `onsite` is
`EvaluateTotalOnsiteEnergy`; `nnn` is the template flag `has_nnn_interaction`. -/
structure PairModel (K : Type*) where
  nnn : Bool
  bond : Config → Bond → K → K → K
  onsite : Config → K

section solver
variable [Field K] [DecidableEq K]

/-- the value of one bond, with the contractor's exchanged amplitude -/
def PairModel.at' (m : PairModel K) (C : Contr K) (cfg : Config) (inv : K) (b : Bond) : K :=
  m.bond cfg b inv (C.ex b.a b.b)

/-- base/square_nnn_energy_solver.h:131-266
`CalHorizontalBondEnergyAndHolesSweepRowImpl`, bosonic branch: the values pushed to
`bond_energy_set` for one row.  `Trace(tn, {row, 0}, HORIZONTAL)` reads the site
`{row, 1}` (bmps_contractor_trace.h:12-28), hence `ub` for `cols = 1`. -/
def energyRow (m : PairModel K) (C : Contr K) (cfg : Config) (rows cols row : ℕ) :
    Out (List K) :=
  if cols < 2 then .ub
  else if C.trRow row = 0 then .zeroPsi
  else
    let inv := 1 / C.trRow row
    let nn := (List.range cols).flatMap (fun col =>
      if col < cols - 1 then [m.at' C cfg inv ⟨(row, col), (row, col + 1), .h⟩] else [])
    if m.nnn = true ∧ row < rows - 1 then
      .ok (nn ++ (List.range (cols - 1)).map (fun col =>
        m.at' C cfg inv ⟨(row, col), (row + 1, col + 1), .dr⟩ +
          m.at' C cfg inv ⟨(row + 1, col), (row, col + 1), .ur⟩))
    else .ok nn

/-- base/bond_traversal_mixin.h:112-143 `TraverseVerticalBonds` for one column: the bonds
reported with their values.  `GrowFullBTen(tn, DOWN, col, 2, true)` runs `i < rows - 2` in
`size_t`, hence `ub` for `rows = 1`. -/
def verticalCol (m : PairModel K) (C : Contr K) (cfg : Config) (rows col : ℕ) :
    Out (List (Bond × K)) :=
  if rows < 2 then .ub
  else if C.trCol col = 0 then .zeroPsi
  else
    let inv := 1 / C.trCol col
    .ok ((List.range (rows - 1)).map (fun row =>
      let b : Bond := ⟨(row, col), (row + 1, col), .v⟩
      (b, m.at' C cfg inv b)))

/-- base/square_nnn_energy_solver.h:79-129, 268-315 `CalEnergyAndHolesImpl`: the local
energy used by the optimizer (holes omitted). `std::reduce` is the sum. -/
def calEnergy (m : PairModel K) (C : Contr K) (cfg : Config) (rows cols : ℕ) : Out K :=
  (Out.collect (energyRow m C cfg rows cols) (List.range rows)).bind (fun hs =>
    (Out.collect (verticalCol m C cfg rows) (List.range cols)).bind (fun vs =>
      .ok ((hs ++ vs.map Prod.snd).sum + m.onsite cfg)))

/-- base/bond_traversal_mixin.h:54-105 `TraverseHorizontalBonds` for one row: the bonds
reported to the measurement functors with their values, in order. -/
def traverseRow (m : PairModel K) (C : Contr K) (cfg : Config) (rows cols row : ℕ) :
    Out (List (Bond × K)) :=
  if cols < 2 then .ub
  else if C.trRow row = 0 then .zeroPsi
  else
    let inv := 1 / C.trRow row
    let val := fun b : Bond => (b, m.at' C cfg inv b)
    let nn := (List.range (cols - 1)).map (fun col => val ⟨(row, col), (row, col + 1), .h⟩)
    if m.nnn = true ∧ row < rows - 1 then
      .ok (nn ++ (List.range (cols - 1)).flatMap (fun col =>
        [val ⟨(row, col), (row + 1, col + 1), .dr⟩,
         val ⟨(row + 1, col), (row, col + 1), .ur⟩]))
    else .ok nn

/-- base/bond_traversal_mixin.h:32-46 `TraverseAllBonds`: the log of all bonds measured -/
def traverseAll (m : PairModel K) (C : Contr K) (cfg : Config) (rows cols : ℕ) :
    Out (List (Bond × K)) :=
  (Out.collect (traverseRow m C cfg rows cols) (List.range rows)).bind (fun hs =>
    (Out.collect (verticalCol m C cfg rows) (List.range cols)).bind (fun vs =>
      .ok (hs ++ vs)))

/-- base/square_nnn_model_measurement_solver.h:93-195: `energy_bond_total += eb` for every
reported bond, then the onsite energy: `out["energy"]` -/
def measEnergy (m : PairModel K) (C : Contr K) (cfg : Config) (rows cols : ℕ) : Out K :=
  (traverseAll m C cfg rows cols).bind (fun log =>
    .ok (log.foldl (fun e p => e + p.2) 0 + m.onsite cfg))

/-- base/square_nnn_model_measurement_solver.h:105-113, 149-158: the cell of
`e_h(row, col)`, `e_v`, `e_dr`, `e_ur` a reported bond is written to (`ur` bonds are keyed
by the row above: `mapped_row = site1.row() - 1`). -/
def cell (b : Bond) : Kind × Site :=
  match b.kind with
  | .ur => (.ur, (b.a.1 - 1, b.a.2))
  | k => (k, b.a)

/-- the content of the four bond-energy matrices after the traversal: the last value
written to a cell, `0` if none (`ObservableMatrix::Resize` value-initialises) -/
def bondMatrix (log : List (Bond × K)) (k : Kind) (s : Site) : K :=
  log.foldl (fun acc p => if cell p.1 = (k, s) then p.2 else acc) 0

end solver

section models
variable [Field K] [StarRing K]

/-- square_spin_onehalf_xxz_obc.h:72-104 `EvaluateBondEnergy`, 106-134 `EvaluateNNNEnergy`
(same expression with `jz2`, `jxy2`): the value for couplings `jz`, `jxy`. -/
def xxzValue (jz jxy : K) (cfg : Config) (a b : Site) (inv psiEx : K) : K :=
  if cfg a = cfg b then 1 / 4 * jz
  else -(1 / 4) * jz + star (psiEx * inv) * (1 / 2) * jxy

/-- `CalSpinSzImpl`: `double(config) - 0.5` -/
def spinZ (c : ℕ) : K := (c : K) - 1 / 2

/-- square_spin_onehalf_xxz_obc.h:62-150 `SquareSpinOneHalfXXZModelMixIn` in the solver
`SquareSpinOneHalfXXZModelOBC` (`nnn = false`) or `SquareSpinOneHalfJ1J2XXZModelOBC`
(`nnn = true`). -/
def xxz (nnn : Bool) (jz jxy jz2 jxy2 pin : K) : PairModel K where
  nnn := nnn
  bond cfg b inv ex :=
    match b.kind with
    | .h | .v => xxzValue jz jxy cfg b.a b.b inv ex
    | .dr | .ur => xxzValue jz2 jxy2 cfg b.a b.b inv ex
  onsite cfg := -pin * spinZ (cfg (0, 0))

/-- spin_onehalf_triangle_heisenberg_sqrpeps.h:58-106: unit couplings, and
`EvaluateNNNEnergy` returns 0 unless the direction is `LEFTDOWN_TO_RIGHTUP`. -/
def triangle : PairModel K where
  nnn := true
  bond cfg b inv ex :=
    match b.kind with
    | .dr => 0
    | _ => xxzValue 1 1 cfg b.a b.b inv ex
  onsite _ := 0

/-- square_spin_onehalf_j1j2_xxz_pbc.h:263-294 `EvaluateCouplingEnergy_` -/
def pbcValue (jz jxy : K) (cfg : Config) (a b : Site) (inv psiEx : K) : K :=
  jz * spinZ (cfg a) * spinZ (cfg b) +
    if cfg a ≠ cfg b then 1 / 2 * jxy * star (psiEx * inv) else 0

/-- square_spin_onehalf_j1j2_xxz_pbc.h:92-113: neighbours to the right, below, down-right
and down-left on the torus -/
def pbcRight (cols : ℕ) (s : Site) : Site := (s.1, (s.2 + 1) % cols)
/-- see `pbcRight` -/
def pbcDown (rows : ℕ) (s : Site) : Site := ((s.1 + 1) % rows, s.2)
/-- see `pbcRight` -/
def pbcDR (rows cols : ℕ) (s : Site) : Site := ((s.1 + 1) % rows, (s.2 + 1) % cols)
/-- see `pbcRight` -/
def pbcDL (rows cols : ℕ) (s : Site) : Site := ((s.1 + 1) % rows, (s.2 + cols - 1) % cols)

/-- the double loop `for row < ly, for col < lx` -/
def allSites (rows cols : ℕ) : List Site :=
  (List.range rows).flatMap (fun r => (List.range cols).map (fun c => (r, c)))

/-- square_spin_onehalf_j1j2_xxz_pbc.h:90-114: the bonds of one site, in order -/
def pbcBondsAt (rows cols : ℕ) (nnn : Bool) (s : Site) : List Bond :=
  [⟨s, pbcRight cols s, .h⟩, ⟨s, pbcDown rows s, .v⟩] ++
    if nnn then [⟨s, pbcDR rows cols s, .dr⟩, ⟨s, pbcDL rows cols s, .ur⟩] else []

/-- all bonds evaluated by the periodic solver -/
def pbcBonds (rows cols : ℕ) (nnn : Bool) : List Bond :=
  (allSites rows cols).flatMap (pbcBondsAt rows cols nnn)

/-- square_spin_onehalf_j1j2_xxz_pbc.h:92-113: the energy of one bond -/
def pbcBondValue (jz jxy jz2 jxy2 : K) (C : Contr K) (cfg : Config) (inv : K) (b : Bond) : K :=
  match b.kind with
  | .h | .v => pbcValue jz jxy cfg b.a b.b inv (C.ex b.a b.b)
  | .dr | .ur => pbcValue jz2 jxy2 cfg b.a b.b inv (C.ex b.a b.b)

/-- square_spin_onehalf_j1j2_xxz_pbc.h:55-115 `CalEnergyAndHolesImpl`
(and 249-251 `HasNNNInteraction_`, 253-261 `EvaluateTotalOnsiteEnergy_`; there the onsite
term is skipped for `pinning00 == 0`, where it is 0 anyway).
`heisenberg_square_pbc.h:65-135` is the case `jz2 = jxy2 = pin = 0`. -/
def pbcEnergy [DecidableEq K] (jz jxy jz2 jxy2 pin : K) (C : Contr K) (cfg : Config)
    (rows cols : ℕ) : K :=
  let inv := 1 / C.trRow 0
  let e := (pbcBonds rows cols (jz2 ≠ 0 || jxy2 ≠ 0)).foldl (fun e b =>
    e + pbcBondValue jz jxy jz2 jxy2 C cfg inv b) 0
  e + if pin = 0 then 0 else -pin * spinZ (cfg (0, 0))

/-- transverse_field_ising_square_obc.h:160-182 `CalDiagTermEnergy` -/
def tfimDiagOBC (cfg : Config) (rows cols : ℕ) : K :=
  let h := (List.range rows).foldl (fun e row => (List.range (cols - 1)).foldl (fun e col =>
    e + if cfg (row, col) = cfg (row, col + 1) then (-1 : K) else 1) e) (0 : K)
  (List.range cols).foldl (fun e col => (List.range (rows - 1)).foldl (fun e row =>
    e + if cfg (row, col) = cfg (row + 1, col) then (-1 : K) else 1) e) h

/-- transverse_field_ising_square_obc.h:191-204 `EvaluateOnSiteOffDiagEnergy` -/
def tfimFlip (h inv psiEx : K) : K := -h * star (psiEx * inv)

/-- transverse_field_ising_square_obc.h:211-247 `CalEnergyAndHolesImplParsed`
(`Trace(tn, {row, 0}, HORIZONTAL)` reads the site `{row, 1}`: `ub` for one column) -/
def tfimOBC (h : K) (C : Contr K) (cfg : Config) (rows cols : ℕ) : Out K :=
  if cols < 2 then .ub else
  let e := (List.range rows).foldl (fun e row =>
    let inv := 1 / C.trRow row
    (List.range cols).foldl (fun e col => e + tfimFlip h inv (C.flip (row, col))) e) (0 : K)
  .ok (e + tfimDiagOBC cfg rows cols)

/-- transverse_field_ising_square_pbc.h:52-123 `CalEnergyAndHolesImpl` -/
def tfimPBC (h : K) (C : Contr K) (cfg : Config) (rows cols : ℕ) : K :=
  let inv := 1 / C.trRow 0
  let diag := (allSites rows cols).foldl (fun e s =>
    (e + if cfg s = cfg (pbcRight cols s) then (-1 : K) else 1) +
      if cfg s = cfg (pbcDown rows s) then (-1 : K) else 1) (0 : K)
  let ex := (allSites rows cols).foldl (fun e s => e + tfimFlip h inv (C.flip s)) (0 : K)
  diag + ex

/-! ### Triangular J1-J2 -/

/-- `BTen2AtSlice_` (bmps_contractor.h:1013-1019): `.at(idx)` into a stack of height
`height` throws when the slice has been popped -/
def atSlice (height idx : ℕ) (v : K) : Out K := if idx < height then .ok v else .outOfRange

/-- `if (config(s1) == config(s2)) 0.25 else -0.25 + conj(psi_ex * inv_psi) * 0.5`, the
exchanged amplitude being read through a two-layer environment of height `height` -/
def triPair (C : Contr K) (cfg : Config) (inv : K) (a b : Site) (height idx : ℕ) : Out K :=
  if cfg a = cfg b then .ok (1 / 4)
  else (atSlice height idx (C.ex a b)).bind (fun p =>
    .ok (-(1 / 4) + star (p * inv) * (1 / 2)))

/-- the running sums `e1`, `e2` -/
abbrev Acc (K : Type*) := K × K

/-- spin_onehalf_triangle_heisenbergJ1J2_sqrpeps.h:352-394: one column of the two-layer loop
of `CalEnergyAndHolesImpl`; the state carries the height of `bten_set2_[RIGHT]`. -/
def triPlaquette (C : Contr K) (cfg : Config) (inv : K) (cols row : ℕ)
    (st : ℕ × Acc K) (col : ℕ) : Out (ℕ × Acc K) :=
  let r2 := st.1
  (triPair C cfg inv (row + 1, col) (row, col + 1) r2 (cols - 1 - (col + 1))).bind fun x =>
  (triPair C cfg inv (row, col) (row + 1, col + 1) r2 (cols - 1 - (col + 1))).bind fun y =>
  (if col < cols - 2 then
      triPair C cfg inv (row + 1, col) (row, col + 2) r2 (cols - 1 - (col + 2))
    else .ok 0).bind fun z =>
  if r2 = 0 then .ub else .ok (r2 - 1, st.2.1 + x, st.2.2 + y + z)

/-- a `for` loop over a state with failure -/
def loop {σ : Type*} (step : σ → ℕ → Out σ) : List ℕ → σ → Out σ
  | [], s => .ok s
  | i :: is, s => (step s i).bind (loop step is)

/-- spin_onehalf_triangle_heisenbergJ1J2_sqrpeps.h:322-398: one row -/
def triRow (C : Contr K) (cfg : Config) (rows cols : ℕ) (acc : Acc K) (row : ℕ) : Out (Acc K) :=
  if cols < 2 then .ub else
  let inv := 1 / C.trRow row
  let e1 := (List.range cols).foldl (fun e col =>
    if col < cols - 1 then e + xxzValue 1 1 cfg (row, col) (row, col + 1) inv
      (C.ex (row, col) (row, col + 1)) else e) acc.1
  if row < rows - 1 then
    (loop (triPlaquette C cfg inv cols row) (List.range (cols - 1))
      (cols - 1, (e1, acc.2))).map Prod.snd
  else .ok (e1, acc.2)

/-- spin_onehalf_triangle_heisenbergJ1J2_sqrpeps.h:427-443 (and, identically, 241-254 of the
measurement): the two-column loop; the state carries the height of `bten_set2_[DOWN]`. -/
def triSqrt5Col (C : Contr K) (cfg : Config) (inv : K) (rows col : ℕ)
    (st : ℕ × K) (row : ℕ) : Out (ℕ × K) :=
  (triPair C cfg inv (row + 2, col) (row, col + 1) st.1 (rows - 1 - (row + 2))).bind fun x =>
  if row + 3 < rows then (if st.1 = 0 then .ub else .ok (st.1 - 1, st.2 + x))
  else .ok (st.1, st.2 + x)

/-- spin_onehalf_triangle_heisenbergJ1J2_sqrpeps.h:401-446 (and 212-256 of the measurement):
one column -/
def triCol (C : Contr K) (cfg : Config) (rows cols : ℕ) (acc : Acc K) (col : ℕ) : Out (Acc K) :=
  if rows < 2 then .ub
  else
    let inv := 1 / C.trCol col
    let e1 := (List.range (rows - 1)).foldl (fun e row =>
      e + xxzValue 1 1 cfg (row, col) (row + 1, col) inv (C.ex (row, col) (row + 1, col))) acc.1
    if col < cols - 1 then
      if rows < 3 then .ub
      else (loop (triSqrt5Col C cfg inv rows col) (List.range (rows - 2)) (rows - 2, acc.2)).map
        (fun st => (e1, st.2))
    else .ok (e1, acc.2)

/-- spin_onehalf_triangle_heisenbergJ1J2_sqrpeps.h:306-448 `CalEnergyAndHolesImpl` -/
def triEnergy (j2 : K) (C : Contr K) (cfg : Config) (rows cols : ℕ) : Out K :=
  (loop (triRow C cfg rows cols) (List.range rows) ((0 : K), (0 : K))).bind fun acc =>
  (loop (triCol C cfg rows cols) (List.range cols) acc).map fun acc => acc.1 + j2 * acc.2

/-- spin_onehalf_triangle_heisenbergJ1J2_sqrpeps.h:174-191: the J1 diagonal loop of the
measurement, which moves the two-layer window to the last column -/
def triMeasJ1 (C : Contr K) (cfg : Config) (inv : K) (cols row : ℕ)
    (st : ℕ × K) (col : ℕ) : Out (ℕ × K) :=
  (triPair C cfg inv (row + 1, col) (row, col + 1) st.1 (cols - 1 - (col + 1))).bind fun x =>
  if col + 2 < cols then (if st.1 = 0 then .ub else .ok (st.1 - 1, st.2 + x))
  else .ok (st.1, st.2 + x)

/-- spin_onehalf_triangle_heisenbergJ1J2_sqrpeps.h:194-205: the J2 loop of the measurement,
which starts again at column 0 without re-initialising the window -/
def triMeasJ2 (C : Contr K) (cfg : Config) (inv : K) (cols row r2 : ℕ)
    (e2 : K) (col : ℕ) : Out K :=
  (triPair C cfg inv (row, col) (row + 1, col + 1) r2 (cols - 1 - (col + 1))).map fun x => e2 + x

/-- The height of the one-layer stack `bten_set_[RIGHT]` after the horizontal sweep of a row of
the measurement: `GrowFullBTen(RIGHT, row, 1, true)` leaves height `cols`
(bmps_contractor_grow.h:244-373), and every one of the `cols - 1` bonds pops one entry
(spin_onehalf_triangle_heisenbergJ1J2_sqrpeps.h:103-127).  In the middle row the correlators
grow it again with `GrowFullBTen(RIGHT, row, lx / 4 + 2, false)` and pop `lx / 2` entries
(145-156). -/
def triMeasRight (rows cols row : ℕ) : Out ℕ :=
  let r1 := cols - (cols - 1)
  if row = rows / 2 then
    if cols < cols / 4 + 2 then .ub
    else
      let r1 := max r1 (cols - (cols / 4 + 2) + 1)
      if r1 < cols / 2 then .ub else .ok (r1 - cols / 2)
  else .ok r1

/-- spin_onehalf_triangle_heisenbergJ1J2_sqrpeps.h:102-209: one row of the measurement.
Before the two-layer loops it calls `Trace(tn, {row, 0}, HORIZONTAL)` once more, which reads
`bten_set_[RIGHT].at(cols - 2)` (bmps_contractor_trace.h:134-158, bmps_contractor.h:1003-1010). -/
def triMeasRow (C : Contr K) (cfg : Config) (rows cols : ℕ) (acc : Acc K) (row : ℕ) :
    Out (Acc K) :=
  if cols < 2 then .ub else
  let inv := 1 / C.trRow row
  let e1 := (List.range cols).foldl (fun e col =>
    if col + 1 < cols then e + xxzValue 1 1 cfg (row, col) (row, col + 1) inv
      (C.ex (row, col) (row, col + 1)) else e) acc.1
  (triMeasRight rows cols row).bind fun r1 =>
  if row + 1 < rows then
    (atSlice r1 (cols - 2) (C.trRow row)).bind fun psi2 =>
    let inv2 := 1 / psi2
    (loop (triMeasJ1 C cfg inv2 cols row) (List.range (cols - 1)) (cols - 1, e1)).bind fun st =>
      (loop (triMeasJ2 C cfg inv2 cols row st.1) (List.range (cols - 1)) acc.2).map fun e2 =>
        (st.2, e2)
  else .ok (e1, acc.2)

/-- spin_onehalf_triangle_heisenbergJ1J2_sqrpeps.h:97-258 `EvaluateObservables`:
`out["energy"]` (the row correlators do not enter it) -/
def triMeasEnergy (j2 : K) (C : Contr K) (cfg : Config) (rows cols : ℕ) : Out K :=
  (loop (triMeasRow C cfg rows cols) (List.range rows) ((0 : K), (0 : K))).bind fun acc =>
  (loop (triCol C cfg rows cols) (List.range cols) acc).map fun acc => acc.1 + j2 * acc.2

end models

end QLPeps.Energy
