import Mathlib.Tactic
import Verif.Model.Statistics

/-!
# Model of the observable registry: what every measurement solver emits and declares, the averaging
of the registry over samples and ranks, and the dump to CSV files

Sources (under `include/qlpeps/algorithm/vmc_update/`): `model_measurement_solver.h`,
`monte_carlo_peps_measurer{,_impl}.h`, `model_solvers/base/square_nnn_model_measurement_solver.h`,
`model_solvers/base/structure_factor_measurement_mixin.h`,
`model_solvers/base/singlet_pair_correlation_measurement_mixin.h` and the concrete solvers.

Simplifications. The numbers obtained from tensor contractions (bond energies, correlators) are
oracles collected in `Vals`; `Model/Energy.lean` and `Model/Fermion.lean` model how they are computed.
An `std::unordered_map` is an association list whose order is arbitrary: theorems about the dump hold
for every permutation. The CSV text format is not modelled, only which value stands in which row and
column. The triangular J1-J2 solver is left out: its measurement never returns (C53).
-/

namespace QLPeps.Observables

open QLPeps.Statistics

/-- `ObservableMap` (model_measurement_solver.h:27-28): key -> flat values. -/
abbrev ObsMap (K : Type*) := List (String × List K)

/-- `out[key] = values` -/
def put {α : Type*} (m : List (String × α)) (k : String) (v : α) : List (String × α) :=
  m.filter (fun e => e.1 ≠ k) ++ [(k, v)]

/-- `if (!values.empty()) out[key] = values`, and `if (matrix.size() != 0) out[key] = matrix.Extract()` -/
def putNonempty {K : Type*} (m : ObsMap K) (k : String) (v : List K) : ObsMap K :=
  if v.isEmpty then m else put m k v

/-- `out.erase(key)` -/
def eraseKey {α : Type*} (m : List (String × α)) (k : String) : List (String × α) :=
  m.filter (fun e => e.1 ≠ k)

/-- An `ObservableMatrix` of the given size (observable_matrix.h:29-70) after every entry has been
assigned, and iteration over a `Configuration` (row-major): entry `(y, x)` at `y * cols + x`. -/
def matrix {K : Type*} (rows cols : ℕ) (f : ℕ → ℕ → K) : List K :=
  (List.range rows).flatMap (fun y => (List.range cols).map (f y))

/-- One sample: the configuration and the numbers coming from contractions. -/
structure Vals (K : Type*) where
  /-- the configuration -/
  cfg : ℕ → ℕ → ℕ
  energy : K
  /-- energies of the bond starting at / plaquette with top-left corner at `(y, x)` -/
  eh : ℕ → ℕ → K
  ev : ℕ → ℕ → K
  edr : ℕ → ℕ → K
  eur : ℕ → ℕ → K
  /-- singlet order parameters of the bonds -/
  sch : ℕ → ℕ → K
  scv : ℕ → ℕ → K
  /-- transverse magnetisation -/
  sx : ℕ → ℕ → K
  /-- off-diagonal correlator at distance `i` along the middle row -/
  off : ℕ → K
  /-- structure-factor trace of source `(y1, x1)` and target `(y2, x2)` -/
  sf : ℕ → ℕ → ℕ → ℕ → K
  /-- `CalSpinSzImpl`, `CalDensityImpl` of the model -/
  sz : ℕ → K
  density : ℕ → K
  /-- double occupancy indicator of a Hubbard state -/
  doublon : ℕ → K

variable {K : Type*}

/-- `SquareNNNModelMeasurementSolver::EvaluateObservables`
(square_nnn_model_measurement_solver.h:33-216). `hook` is the contribution of
`EvaluateOffDiagOrderInRow`, called once per row during the traversal. -/
def evalBase (spin charge nnn sc : Bool) (ly lx : ℕ) (v : Vals K) (hook : ℕ → ObsMap K → ObsMap K) :
    ObsMap K :=
  let out : ObsMap K := []
  let out := if spin then put out "spin_z" (matrix ly lx (fun y x => v.sz (v.cfg y x))) else out
  let out := if charge then put out "charge" (matrix ly lx (fun y x => v.density (v.cfg y x))) else out
  let e_h := if lx > 1 then matrix ly (lx - 1) v.eh else []
  let e_v := if ly > 1 then matrix (ly - 1) lx v.ev else []
  let e_dr := if nnn ∧ lx > 1 ∧ ly > 1 then matrix (ly - 1) (lx - 1) v.edr else []
  let e_ur := if nnn ∧ lx > 1 ∧ ly > 1 then matrix (ly - 1) (lx - 1) v.eur else []
  let sc_h := if sc ∧ lx > 1 then matrix ly (lx - 1) v.sch else []
  let sc_v := if sc ∧ ly > 1 then matrix (ly - 1) lx v.scv else []
  let out := (List.range ly).foldl (fun o row => hook row o) out
  let out := put out "energy" [v.energy]
  let out := putNonempty out "bond_energy_h" e_h
  let out := putNonempty out "bond_energy_v" e_v
  let out := if nnn then putNonempty (putNonempty out "bond_energy_dr" e_dr) "bond_energy_ur" e_ur else out
  if sc then putNonempty (putNonempty out "SC_bond_singlet_h" sc_h) "SC_bond_singlet_v" sc_v else out

/-- Observable metadata (model_measurement_solver.h:33-50): key, shape, and whether the first index
label is `pair_packed_upper_tri`. -/
structure Meta where
  key : String
  shape : List ℕ
  packed : Bool := false

/-- `SquareNNNModelMeasurementSolver::DescribeObservables`
(square_nnn_model_measurement_solver.h:219-248). The concrete solvers first overwrite the shapes by
the same values. -/
def descBase (spin charge nnn : Bool) (ly lx : ℕ) : List Meta :=
  [⟨"energy", [], false⟩]
  ++ (if spin then [⟨"spin_z", [ly, lx], false⟩] else [])
  ++ (if charge then [⟨"charge", [ly, lx], false⟩] else [])
  ++ [⟨"bond_energy_h", [ly, lx - 1], false⟩, ⟨"bond_energy_v", [ly - 1, lx], false⟩]
  ++ (if nnn then [⟨"bond_energy_dr", [ly - 1, lx - 1], false⟩,
      ⟨"bond_energy_ur", [ly - 1, lx - 1], false⟩] else [])

/-- `EvaluateOffDiagOrderInRow` of the spin-1/2 solvers (square_spin_onehalf_xxz_obc.h:253-287 with
:21-60; identical in the J1-J2 and triangular solvers): at the middle row, the correlator vector of
length `lx / 2`, put into the channel selected by the spin at column `lx / 4`; zero where the two
spins are equal. -/
def offDiagHook [Zero K] (ly lx : ℕ) (v : Vals K) (row : ℕ) (out : ObsMap K) : ObsMap K :=
  if ly = 0 ∨ lx = 0 then out
  else if row ≠ ly / 2 then out
  else
    let corr := (List.range (lx / 2)).map (fun i =>
      if v.cfg row (lx / 4 + (i + 1)) = v.cfg row (lx / 4) then 0 else v.off (i + 1))
    let zeros := List.replicate corr.length (0 : K)
    let smsp := if v.cfg row (lx / 4) = 0 then zeros else corr
    let spsm := if v.cfg row (lx / 4) = 0 then corr else zeros
    putNonempty (putNonempty out "SmSp_row" smsp) "SpSm_row" spsm

/-- `Sz` of a spin-1/2 state -/
def spinHalf [Field K] (c : ℕ) : K := (c : K) - 1 / 2

/-- `SzSz_all2all` (square_spin_onehalf_xxz_obc.h:224-236, triangle :146-158): for `i < N`, for
`j = i … N-1`, push `sz[i] * sz[j]`. -/
def szszAll [Field K] (sz : List K) : List K :=
  (List.range sz.length).flatMap (fun i =>
    (List.range (sz.length - i)).map (fun d => sz.getD i 0 * sz.getD (i + d) 0))

/-- Middle-row `SzSz` (triangle :133-143, TFIM :104-113 and PBC :198-207). -/
def szszRow [Field K] (ly lx : ℕ) (v : Vals K) : List K :=
  (List.range (lx / 2)).map (fun i =>
    spinHalf (v.cfg (ly / 2) (lx / 4)) * spinHalf (v.cfg (ly / 2) (lx / 4 + (i + 1))))

/-- `MeasureStructureFactor` (structure_factor_measurement_mixin.h:89-225): the flat tuples
`(y1, x1, y2, x2, value)`; the value is nonzero only for a down spin at the source and an up spin at
the target, and only if the DOWN environment of row `y2` is on the stack of height `downHeight`. -/
def structureFactor [Field K] (ly lx downHeight : ℕ) (v : Vals K) : List K :=
  (List.range (ly - 1)).flatMap (fun (y1 : ℕ) => (List.range lx).flatMap (fun (x1 : ℕ) =>
    (List.range' (y1 + 1) (ly - (y1 + 1))).flatMap (fun (y2 : ℕ) => (List.range lx).flatMap (fun (x2 : ℕ) =>
      [(y1 : K), (x1 : K), (y2 : K), (x2 : K),
        if downHeight ≤ ly - 1 - y2 then 0
        else if v.cfg y1 x1 = 0 ∧ v.cfg y2 x2 = 1 then v.sf y1 x1 y2 x2 else 0]))))

/-- Targets of one reference bond (singlet_pair_correlation_measurement_mixin.h:183-189). -/
def addTargets (ly lx y1 x1 : ℕ) : List (List ℕ) :=
  (List.range' (y1 + 1) (ly - (y1 + 1))).flatMap (fun y2 =>
    (List.range (lx - 1)).map (fun x2 => [y1, x1, 0, y2, x2, 0]))

/-- `ComputeNumSCPairs` (singlet_pair_correlation_measurement_mixin.h:137-160). -/
def numSCPairs (ly lx : ℕ) (refs : List (ℕ × ℕ)) : ℕ :=
  if ly < 2 ∨ lx < 2 then 0
  else if refs.isEmpty then
    (List.range (ly - 1)).foldl (fun c y1 =>
      (List.range (lx - 1)).foldl (fun c _ => c + (ly - 1 - y1) * (lx - 1)) c) 0
  else
    refs.foldl (fun c b => if b.1 < ly - 1 ∧ b.2 < lx - 1 then c + (ly - 1 - b.1) * (lx - 1) else c) 0

/-- Order of `std::pair`. -/
def pairLe (a b : ℕ × ℕ) : Bool := a.1 < b.1 || (a.1 == b.1 && a.2 ≤ b.2)

/-- `GenerateSCPairCorrIndexMapping` (singlet_pair_correlation_measurement_mixin.h:174-213). -/
def scMapping (ly lx : ℕ) (refs : List (ℕ × ℕ)) : List (List ℕ) :=
  if ly < 2 ∨ lx < 2 then []
  else if refs.isEmpty then
    (List.range (ly - 1)).flatMap (fun y1 => (List.range (lx - 1)).flatMap (addTargets ly lx y1))
  else
    ((refs.filter (fun b => b.1 < ly - 1 ∧ b.2 < lx - 1)).mergeSort pairLe).flatMap
      (fun b => addTargets ly lx b.1 b.2)

/-- The measurement solvers. -/
inductive Solver where
  /-- `SquareSpinOneHalfXXZModelOBC`, structure factor on or off -/
  | xxz (structureFactor : Bool)
  /-- `SquareSpinOneHalfJ1J2XXZModelOBC` -/
  | j1j2
  /-- `SpinOneHalfTriHeisenbergSqrPEPS`, structure factor on or off -/
  | triangle (structureFactor : Bool)
  /-- `SquareSpinlessFermion` -/
  | spinless
  /-- `SquareHubbardModel` -/
  | hubbard
  /-- `SquaretJNNModel` (`nnn = false`), `SquaretJNNNModel` and `SquaretJVModel` (`nnn = true`) -/
  | tJ (nnn sc pairCorr : Bool) (refs : List (ℕ × ℕ))
  /-- `HeisenbergSquarePBC` -/
  | heisenbergPBC
  /-- `SquareSpinOneHalfJ1J2XXZModelPBC`; `nnn` is `HasNNNInteraction_()` -/
  | j1j2PBC (nnn : Bool)
  /-- `TransverseFieldIsingSquareOBC` and `TransverseFieldIsingSquarePBC` -/
  | tfim

/-- `EvaluateObservables` of each solver; `none`: the solver throws. `downHeight` is the height of the
DOWN stack when the structure factor is measured.
xxz: square_spin_onehalf_xxz_obc.h:216-251; j1j2: square_spin_onehalf_j1j2_xxz_obc.h:50-83;
triangle: spin_onehalf_triangle_heisenberg_sqrpeps.h:109-160; hubbard: square_hubbard_model.h:156-171;
t-J: square_tJ_model.h:633-655, :708-728, :793-813 with the throw of
singlet_pair_correlation_measurement_mixin.h:297; PBC: heisenberg_square_pbc.h:138-210,
square_spin_onehalf_j1j2_xxz_pbc.h:118-217; TFIM: transverse_field_ising_square_obc.h:62-138,
transverse_field_ising_square_pbc.h:126-218. -/
def evaluate [Field K] (s : Solver) (ly lx downHeight : ℕ) (v : Vals K) : Option (ObsMap K) :=
  let allSz := matrix ly lx (fun y x => spinHalf (K := K) (v.cfg y x))
  match s with
  | .xxz sf =>
    let out := evalBase true false false false ly lx v (offDiagHook ly lx v)
    let out := put out "SzSz_all2all" (szszAll allSz)
    some (if sf then putNonempty out "SpSm_cross" (structureFactor ly lx downHeight v) else out)
  | .j1j2 => some (evalBase true false true false ly lx v (offDiagHook ly lx v))
  | .triangle sf =>
    let out := evalBase true false true false ly lx v (offDiagHook ly lx v)
    let out := if sf then putNonempty out "SpSm_cross" (structureFactor ly lx downHeight v) else out
    let out := eraseKey out "bond_energy_dr"
    let out := if lx > 0 ∧ ly > 0 then putNonempty out "SzSz_row" (szszRow ly lx v) else out
    some (put out "SzSz_all2all" (szszAll allSz))
  | .spinless => some (evalBase false true true false ly lx v (fun _ o => o))
  | .hubbard =>
    let out := evalBase true true false false ly lx v (fun _ o => o)
    some (put out "double_occupancy" (matrix ly lx (fun y x => v.doublon (v.cfg y x))))
  | .tJ nnn sc pairCorr _ =>
    if pairCorr then none else some (evalBase true true nnn sc ly lx v (fun _ o => o))
  | .heisenbergPBC =>
    let e_h := if ly > 0 ∧ lx > 0 then matrix ly lx v.eh else []
    let e_v := if ly > 0 ∧ lx > 0 then matrix ly lx v.ev else []
    some (putNonempty (putNonempty (put (put [] "energy" [v.energy]) "spin_z" allSz)
      "bond_energy_h" e_h) "bond_energy_v" e_v)
  | .j1j2PBC nnn =>
    let e_h := if ly > 0 ∧ lx > 0 then matrix ly lx v.eh else []
    let e_v := if ly > 0 ∧ lx > 0 then matrix ly lx v.ev else []
    let e_dr := if (ly > 0 ∧ lx > 0) ∧ nnn then matrix ly lx v.edr else []
    let e_ur := if (ly > 0 ∧ lx > 0) ∧ nnn then matrix ly lx v.eur else []
    some (putNonempty (putNonempty (putNonempty (putNonempty (put (put [] "energy" [v.energy])
      "spin_z" allSz) "bond_energy_h" e_h) "bond_energy_v" e_v) "bond_energy_dr" e_dr)
      "bond_energy_ur" e_ur)
  | .tfim =>
    some (putNonempty (putNonempty (put (put [] "energy" [v.energy]) "spin_z" allSz)
      "sigma_x" (matrix ly lx v.sx)) "SzSz_row" (szszRow ly lx v))

/-- `DescribeObservables` of each solver. xxz: square_spin_onehalf_xxz_obc.h:296-327; j1j2:
square_spin_onehalf_j1j2_xxz_obc.h:85-112; triangle: spin_onehalf_triangle_heisenberg_sqrpeps.h:162-179
(the `{0}` of `SpSm_cross` is line 177); spinless: square_spinless_fermion.h:91-115; hubbard:
square_hubbard_model.h:127-153; t-J: square_tJ_model.h:657-686, :730-766, :815-851; PBC:
heisenberg_square_pbc.h:212-225, square_spin_onehalf_j1j2_xxz_pbc.h:219-241; TFIM:
transverse_field_ising_square_obc.h:140-147, transverse_field_ising_square_pbc.h:220-227. -/
def describe (s : Solver) (ly lx : ℕ) : List Meta :=
  let n := ly * lx
  match s with
  | .xxz _ => descBase true false false ly lx ++
      [⟨"SzSz_all2all", [n * (n + 1) / 2], true⟩, ⟨"SmSp_row", [lx / 2], false⟩,
       ⟨"SpSm_row", [lx / 2], false⟩, ⟨"SpSm_cross", [], false⟩]
  | .j1j2 => descBase true false true ly lx ++
      [⟨"SmSp_row", [lx / 2], false⟩, ⟨"SpSm_row", [lx / 2], false⟩]
  | .triangle _ => (descBase true false true ly lx).filter (fun m => m.key ≠ "bond_energy_dr") ++
      [⟨"SzSz_row", [lx / 2], false⟩, ⟨"SmSp_row", [lx / 2], false⟩, ⟨"SpSm_row", [lx / 2], false⟩,
       ⟨"SzSz_all2all", [n * (n + 1) / 2], true⟩, ⟨"SpSm_cross", [0], false⟩]
  | .spinless => descBase false true true ly lx
  | .hubbard => descBase true true false ly lx ++ [⟨"double_occupancy", [ly, lx], false⟩]
  | .tJ nnn _ _ refs => descBase true true nnn ly lx ++
      [⟨"SC_bond_singlet_h", [ly, lx - 1], false⟩, ⟨"SC_bond_singlet_v", [ly - 1, lx], false⟩,
       ⟨"SC_singlet_pair_corr", [numSCPairs ly lx refs], false⟩]
  | .heisenbergPBC =>
      [⟨"energy", [], false⟩, ⟨"spin_z", [ly, lx], false⟩, ⟨"bond_energy_h", [ly, lx], false⟩,
       ⟨"bond_energy_v", [ly, lx], false⟩]
  | .j1j2PBC nnn =>
      [⟨"energy", [], false⟩, ⟨"spin_z", [ly, lx], false⟩, ⟨"bond_energy_h", [ly, lx], false⟩,
       ⟨"bond_energy_v", [ly, lx], false⟩] ++
      (if nnn then [⟨"bond_energy_dr", [ly, lx], false⟩, ⟨"bond_energy_ur", [ly, lx], false⟩] else [])
  | .tfim =>
      [⟨"energy", [], false⟩, ⟨"spin_z", [ly, lx], false⟩, ⟨"sigma_x", [ly, lx], false⟩,
       ⟨"SzSz_row", [lx / 2], false⟩]

/-! ## Particle-number histogram -/

/-- `ParticleNumberDistributionBinCount` (monte_carlo_peps_measurer.h:124-134); `none`: it throws. -/
def binCount (sites : ℕ) (perState : List ℕ) : Option ℕ :=
  if perState.isEmpty then none else some (sites * perState.foldl max 0 + 1)

/-- `CountConfiguredParticles` (monte_carlo_peps_measurer.h:136-153); `none`: it throws. -/
def countParticles (perState : List ℕ) (config : List ℕ) : Option ℕ :=
  if perState.isEmpty then none
  else config.foldl (fun acc s => acc.bind (fun n => (perState[s]?).map (fun p => n + p))) (some 0)

/-- `MakeParticleNumberDistributionSample` (monte_carlo_peps_measurer.h:155-164): the one-hot vector;
`none`: one of the two functions throws, or `one_hot.at` does. -/
def oneHot [Field K] (perState : List ℕ) (config : List ℕ) : Option (List K) :=
  match countParticles perState config, binCount config.length perState with
  | some n, some b => if n < b then some ((List.replicate b (0 : K)).set n 1) else none
  | _, _ => none

/-! ## Averages and dump -/

section stats

variable {𝕜 : Type*} [RCLike 𝕜]

/-- The samples of one key on one rank (`PushBackRegistry`, monte_carlo_peps_measurer.h:361-366). -/
def samplesOf (samples : List (ObsMap 𝕜)) (k : String) : List (List 𝕜) :=
  samples.filterMap (fun o => o.lookup k)

/-- Mean of one key on one rank (`StatisticRegistry`, monte_carlo_peps_measurer.h:368-396): the length
is that of the first sample; a shorter later sample is read out of range (`none`). The loops are those
of `AveListOfData`. The per-rank error bars are discarded by `GatherStatistic_`. -/
noncomputable def rankMean (samples : List (ObsMap 𝕜)) (k : String) : Option (List 𝕜) :=
  aveListOfData (samplesOf samples k)

/-- `GatherStatistic_` (monte_carlo_peps_measurer_impl.h:240-257) for one key of the master's registry:
every rank contributes its mean of the same key. -/
noncomputable def gatherKey (ranks : List (List (ObsMap 𝕜))) (k : String) : Option (List 𝕜) :=
  ((ranks.mapM (fun r => rankMean r k)).bind gatherList).map Prod.fst

/-- The master's registry after `GatherStatistic_`: one entry per key of its own samples (in some
order). `none`: a sample or a rank does not have the length of the first one. -/
noncomputable def registry (ranks : List (List (ObsMap 𝕜))) : Option (ObsMap 𝕜) :=
  let keys := ((ranks.headD []).flatMap (fun o => o.map Prod.fst)).dedup
  keys.mapM (fun k => (gatherKey ranks k).map (fun l => (k, l)))

/-- Content of a statistics file: a table or a column. -/
inductive File (K : Type*) where
  | table (rows : List (List K))
  | column (values : List K)

/-- Why `DumpData` throws. -/
inductive DumpError where
  | zeroDimension
  | shapeMismatch
  deriving DecidableEq

/-- One key of the dump (monte_carlo_peps_measurer_impl.h:283-326, `DumpStatsMatrix_` :542-588): first
metadata entry of that key; zero dimension or wrong product throw; two dimensions give a table. -/
def dumpKey (metas : List Meta) (k : String) (vals : List 𝕜) : Except DumpError (File 𝕜) :=
  match metas.find? (fun m => m.key = k) with
  | none => .ok (.column vals)
  | some m =>
    if m.shape.isEmpty then .ok (.column vals)
    else if 0 ∈ m.shape then .error .zeroDimension
    else if m.shape.prod ≠ vals.length then .error .shapeMismatch
    else match m.shape with
      | [r, c] => .ok (.table ((List.range r).map (fun y =>
          (List.range c).map (fun x => vals.getD (y * c + x) 0))))
      | _ => .ok (.column vals)

/-- The loop of `DumpData` over the registry (monte_carlo_peps_measurer_impl.h:279-337): the first key
that throws ends the dump. -/
def dump (metas : List Meta) (reg : ObsMap 𝕜) : Except DumpError (List (String × File 𝕜)) :=
  reg.mapM (fun kv => (dumpKey metas kv.1 kv.2).map (fun f => (kv.1, f)))

end stats

end QLPeps.Observables
