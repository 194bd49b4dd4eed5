# Formal model of QuantumLiquids/PEPS in Lean 4

## Layout

- `properties.jsonl` – the English properties (C01, C02, ...).
- `lean/Verif/Model/*.lean` – the model. Every definition cites the file and
  lines under `/repo` it models, and says where it simplifies.
- `lean/Verif/Spec/*.lean` – small specifications, written without looking at
  the model's helper functions, used to state the theorems.
- `lean/Verif/Lemmas/*.lean` – helper lemmas.
- `lean/Verif/Props/*.lean` – the property theorems and, beside each of them,
  an `example` showing a concrete non-trivial case meeting its hypotheses.
- `MANIFEST.json` – property -> theorem names and status.
- `seeded/LOG.jsonl` – log of the wrong programs the theorems were tested on.

## Trusted base

- Lean 4.33.0's kernel and the Mathlib modules imported.
- Axioms: only `propext`, `Classical.choice`, `Quot.sound`. No axiom is added,
  there is no `sorry`, no `native_decide`, no `bv_decide`.
- The correspondence between the C++ source and the hand-written Lean model.
  It is informal: each model definition names the lines it transcribes.
- Modelling conventions
  - `size_t` is `Nat`, except where wrap-around or underflow is the point of
    the property, in which case arithmetic modulo 2^64 or an explicit
    undefined-behaviour outcome is used.
  - Control-flow models are generic in the scalar and in the comparisons, so
    that they include NaN. Where algebra is needed `double` is idealised to
    `ℝ` (or any ordered field) and `std::complex<double>` to `ℂ`. Floating
    point rounding is not modelled.
  - Random numbers are arguments (a stream), MPI messages are explicit lists
    or an explicit small-step system; the tensor contraction library
    (`qlten`) is an oracle: an arbitrary function where the property must
    hold for any answer, and the exact amplitude where it must be exact.
  - Out-of-range access, division by zero on integers, and other C++
    undefined behaviour are distinct outcomes (`none` / an `ub` constructor),
    never silently totalised, in every place where a property depends on it.
## Modelled and not modelled

Paths under `/repo/include/qlpeps/`.

| model file | code modelled |
|---|---|
| `Model/SuwaTodo` | `vmc_basic/monte_carlo_tools/suwa_todo_update.h` |
| `Model/Sweep`, `Model/Updaters`, `Model/NextPerm` | `vmc_basic/configuration_update_strategies/*`, `UpdateLocal`, trial moves and `EvaluateAmplitude` of `vmc_basic/wave_function_component.h` |
| `Model/Configuration` | `two_dim_tn/framework/duomatrix.h`, `vmc_basic/configuration.h`, configuration generators of the exact-summation evaluator, configuration constructor of `monte_carlo_peps_params.h` |
| `Model/Jastrow` | `vmc_basic/jastrow_factor.h` and its use |
| `Model/Contractor` | `two_dim_tn/tensor_network_2d/bmps/bmps_contractor.h` and `impl/*`: caches, index arithmetic, erasure |
| `Model/Traversal` | `model_solvers/base/bond_traversal_mixin.h`, `square_nnn_energy_solver.h`, transverse-field Ising and triangular solvers: walk over rows and columns, sqrt(5)-distance traces, row correlations, zero-amplitude exits; the triangular J1-J2 measurement |
| `Model/State` | `two_dim_tn/tps/split_index_tps{.h,_impl.h}`: arithmetic, inner product, norms, site rescalings; `monte_carlo_engine.h`: start-up, configuration rescue, order-one normalisation |
| `Model/StateIO` | `split_index_tps_impl.h`: `Dump`, `Load` (both metadata formats), `MPI_Send`, `MPI_Recv`, `MPI_Bcast`; file names; the serialisation of one tensor is a parameter |
| `Model/Statistics` | `vmc_basic/monte_carlo_tools/statistics.h`, `algorithm/vmc_update/monte_carlo_engine.h` (sample counts) |
| `Model/Energy`, `Model/Fermion` | all solvers in `algorithm/vmc_update/model_solvers/`, energy part |
| `Model/Observables` | observable registry, metadata, averaging and dump of the measurer; measurement part of all solvers except the triangular J1-J2 one |
| `Model/Evaluator` | exact-summation and Monte-Carlo energy-gradient evaluators, exact-summation measurement |
| `Model/Optimizer`, `Spike`, `Schedulers`, `Selector`, `UpdateRules`, `LBFGS`, `LineSearch`, `CG`, `SR` | `optimizer/*`, `utility/conjugate_gradient_solver.h` |
| `Model/SimpleUpdate` | `square_lattice_nn_simple_update.h`, `square_lattice_nnn_simple_update.h`, `triangle_nn_on_sqr_peps_simple_update.h`: local Hamiltonians, their weights, the sites and order of the projections of a sweep; `loop_update_impl.h`: constructor checks and order of plaquettes. Bosonic tensors; exact field |
| `Model/UpdateLoop` | `simple_update_impl.h:26-122,261-386` (and the identical code of `loop_update_impl.h`): `Execute`, stop configuration, tolerances, metrics, summary, observer. The sweeps are a parameter; numbers are reals or NaN |
| `Model/Taylor` | `simple_update_impl.h:124-227`: `DuplicateElements`, `TaylorExpMatrix` with its leg orders. Bosonic tensors; exact arithmetic |
| `Model/Tps` | `tps_impl.h:150-345`: `WaveFunctionSum` (two states, weighted, lists), `GetExpandIndices_`. Bosonic tensors; `Expand` of the library is the direct sum |
| `Model/Peps` | `square_lattice_peps.h:220-270`, `square_lattice_peps_basic_impl.h:507-527,625-853`, `square_lattice_peps_projection_impl.h`: accessors of the weights, `EatSurroundLambdas_`, `QTenSplitOutLambdas_`, `NearestNeighborSiteProject`, the four triangle projections, the local energies, `ToTPS`. Bosonic tensors with shapes; QR and SVD are parameters |
| `Model/PepsInit` | `square_lattice_peps_basic_impl.h:20-260`: `Initial`, with the charges of all indices and the three passes over the lattice |
| `Model/PepsIO` | `square_lattice_peps_basic_impl.h:397-505`, `tps_impl.h:100-148`, `ten_matrix.h:76-132`, `duomatrix.h:173-239`: `Dump` (both overloads) and `Load` of a PEPS, `Dump` and `Load` of a TPS, with paths, write failures and released memory |
| `Model/Bmps` | `bmps_impl.h:88-94, 225-263, 404-436, 694-699, 756-862`, `bmps_contractor_{init,grow,trace}.h`: absorbing a row or column into a boundary MPS with SVD compression, growing boundary tensors of one and two layers, traces of one, two, three sites and of a plaquette, holes; instantiates the abstract operations of `Model/Contractor` |
| `Model/SplitIndex` | `split_index_tps_impl.h:21-142`, `tps_impl.h:69-100`, `square_lattice_peps_basic_impl.h` (dimension queries): splitting and grouping of the physical index, bond-dimension queries |
| `Model/BmpsTraversal` | `bmps_contractor_trace.h:426-536`: the tensor contractions of the trace for links of length √5, completing the contractor of `Model/Bmps` for the traversals of `Model/Traversal` |
| `Model/SolverRun` | `square_nnn_energy_solver.h:79-315`, `transverse_field_ising_square_obc.h:191-247`, `spin_onehalf_triangle_heisenbergJ1J2_sqrpeps.h:306-448`: the energy solvers running on the boundary-MPS contractor |
| `Model/ExactRun` | `exact_summation_energy_evaluator.h:173-302`: one configuration after another through the contractor and a solver, reduction over processes |
| `Model/McRun` | `mc_energy_grad_evaluator.h:152-330` with `monte_carlo_engine.h:133-136, 180-193`: sweeps and solver in turns on one component, for every rank, and the reductions |
| `Model/UpdatersPBC` | `square_nn_updater.h:302-373`, `wave_function_component.h:223-302`: the periodic full-space updater and its trials |
| `Model/Trg` | `trg_contractor.h`, `trg_contractor_impl.h:128-830`: `Init`, the topology of all scales and its validation, split caches, `Trace`, trials, commits, evaluations; tensor operations are parameters |
| `Model/TrgTensor` | `trg_contractor_impl.h:358-468`, `833-931`: splitting of a site tensor, plaquette and diamond cores, final contractions, on explicit tensors |
| `Model/TrgHoles` | `trg_contractor_impl.h:24-127`, `933-1316`: `PunchAllHoles`, pullback through splits, plaquettes and diamonds, averaging, final holes |
| `Model/TrgWalker` | `wave_function_component.h:134-302`, `square_nn_updater.h:198-244`, `302-373`, `square_spin_onehalf_j1j2_xxz_pbc.h:55-115`, `263-294`, `heisenberg_square_pbc.h:65-135`, `transverse_field_ising_square_pbc.h:52-123`: component, periodic updaters and energies on the TRG contractor with its caches |
| `Model/Executor` | `vmc_peps_optimizer_impl.h:42-50`, `106-207`, `475-501`, `514-542`, `vmc_api.h:37-45`, `98-106`: the executor's callbacks on the loop's events, its files and accessors |
| `Model/PsiConsistency` | `psi_consistency.h:105-172`: reference, alignment, mean, relative error |
| `Model/Measurer` | `monte_carlo_peps_measurer_impl.h:165-257`, `265-300`, `350-395`, `495-535`, `mpi_signal_guard.h`, `model_measurement_solver.h:103-128`: the measurer on n + 1 processes with collectives and signals |
| `Model/Walker` | `bmps_contractor.h:357-637` (`BMPSWalker`), `bmps_walker.h:13-54, 207-461`, `bten_operations.h`, `structure_factor_measurement_mixin.h:89-225` |
| `Model/MinSRRun` | `minsr_eigensolve.h:95-316`, `minsr_scalapack.h:147-325`, `356-361`, `445-481`, `optimizer_impl.h:1127-1210`: both eigensolvers of MinSR on P processes, block-cyclic indices, assembly of the direction |
| `Model/PepsLoop` | `square_lattice_peps_projection4_impl.h`: four-site projection with patching of the gate, dressing with weights, weighted trace gauge fixing, full environment truncation, splitting of weights, norm and energy ratio; `loop_update_impl.h:336-385`: sweep and energies |
| `Model/Arnoldi` | `arnoldi_solver.h:113-285`, `square_lattice_peps_projection4_impl.h:618-658`: diagonalization of the Hessenberg matrix, Arnoldi iteration, power method; tensors are vectors of their elements, the map is a parameter |
| `Model/Replica` | `monte_carlo_peps_measurer_impl.h:106-170, 470-485`, `configuration.h:513-569`: `ReplicaTest` on several processes as a transition system, `SynchronizeConfiguration_`; messages keep their order, sends may or may not be buffered |
| `Model/BmpsVar` | `bmps_impl.h:119-138, 153-174, 404-436, 702-755, 862-1212`: `MultiplyMPO` with the schemes `VARIATION2Site` and `VARIATION1Site`, the environments, both sweeps, the tests of convergence and the initial guess; bosonic tensors |
| `Model/Conversions` | `api/conversions.h:36-70`: `ToTPS` and `ToSplitIndexTPS` of a PEPS |
| `Model/WalkerRow` | `bmps/impl/bmps_walker.h:57-204`: `ContractRow`; bosonic tensors |
| `Model/BmpsCano` | `bmps.h:166-168, 231-258`, `bmps_impl.h:20-57, 118-329, 745-755, 768`: marks and center of a boundary MPS, `Centralize`, the canonicalizations, `GetEntanglementEntropy`, `Reverse` |
| `Model/ObsMatrix` | `observable_matrix.h`: the whole class |
| `Model/EnergyWarn` | `model_energy_solver.h`: the cached summary; `mc_energy_grad_evaluator.h`: the warnings of `Evaluate`; `psi_consistency.h`: `FormatPsiListTruncated` |
| `Model/SRStep` | `optimizer_impl.h:1091-1120`: `StochasticReconfigurationUpdate` after the natural gradient is known; master rank |
| `Model/SRRun` | `optimizer_impl.h:126-129, 573-587, 1033-1088`: where conjugate gradient starts in each iteration of stochastic reconfiguration and what is done with its result; without step selector and spike recovery |

Not modelled: the internals of the tensor library (contraction, SVD, quantum-number blocks),
MPI transport failures, file-system permission errors, logging text, timing, the internals of LAPACK and ScaLAPACK (specified in `Spec/MinSRRun`).

Assumptions made in the model (each also in a comment at its place):

- Floating point is exact where algebra is used; control flow is modelled without order axioms so
  that NaN is covered.
- Contractor: the outer legs of the site tensors do not depend on the configuration (so the
  boundary layers are constants); contractions are arbitrary functions; a wrapped `size_t` index
  is out of range. The vertical next-nearest-neighbour trace (never
  called by a solver) is not modelled.
- Fermionic solvers: a replaced amplitude is the amplitude in an ordering of the modes in which the
  bond's two sites are adjacent; both diagonals of a plaquette are evaluated in one shared
  ordering. This is an assumption about the external tensor library. A division by a zero
  amplitude follows the convention x/0 = 0 where the code produces NaN; the theorems that need it
  assume nonzero amplitudes.
- Evaluators: bosonic branch; the solver is a function of the state and the configuration; MPI
  sends are rendezvous (no buffering).
- Registry: the iteration order of an `unordered_map` is the same on all ranks.

## Disagreements between the documentation and the code

Each one is proved in Lean (theorem in parentheses) unless marked as a remark.

- Jastrow-dressed exchange: the ratio contains a spurious factor exp(v12) (`C13_*`).
- Occupancies whose sum wraps around pass the check of the random configuration (`C14_*overflow*`).
- An interrupted configuration dump can load as a different configuration (`C16_*`).
- Adding, subtracting, negating or scaling a periodic state out of place (and `-=`) gives a state marked open (`C79_*`).
- An interrupted or partly failing dump of a state can load as another state; `Load` cannot detect truncated metadata because the stream state is cleared before it is tested (`C82_*`).
- The file-loading constructor of the Monte-Carlo parameters rejects every dumped configuration (`C17_*`).
- EMA window 0 is accepted and leaves the observed range (`C25_window_zero_out_of_range`).
- Rollback can repeat the same iteration for ever (`C28_livelock_*`).
- Strong-Wolfe line search may return a step below `min_step` (`C36_below_min_step`).
- Lattices with one row or column: undefined behaviour in sweeps, energies and several measurements
  (`C09_single_line_out_of_range`, `C77_single_line_fails`, `C46_*`, `C50_*`); the triangular J1-J2 solver with two rows (`C48_*`).
- Periodic lattices of width two count each pair twice (`C47_*`).
- Three-site sweeps with fewer than three columns or rows are out of range (`C76_short_lines_out_of_range`).
- The triangular J1-J2 measurement never returns (`C53_*`).
- The triangular Heisenberg solver with the structure factor enabled cannot be dumped (`C54_triangle_structure_factor_throws`).
- The Monte-Carlo gradient is not the covariance when the sample number is not a multiple of the
  bin size (`C59_*`).
- Nearest-neighbour simple update on a one-row (or one-column) chain: coordination numbers are one
  too large, so on-site terms enter with weight 2/3 inside and 1/2 at the ends
  (`C84_chain_underweighted`). If the on-site term of site (0, 0) is default, all on-site terms are
  ignored (`C84_sweep_without_onsite`).
- Next-nearest-neighbour simple update: the lower-left triangle computes its third site with the
  row of the upper corner, so the on-site term of the upper right corner is applied to the lower
  right one (`C85_sweep_with_onsite`); on open lattices of three or more rows even a uniform
  on-site term is misweighted (`C85_open_onsite_misweighted`). Horizontal bonds get the
  symmetrised two-site term (`C85_sweep_without_onsite`).
- The triangular-lattice executor accepts periodic PEPS but never updates the bonds closing the
  torus (`C86_wrap_bonds_never_updated`).
- Update loop: a NaN in the weights is ignored by `std::max`, so a run whose weights are all NaN can
  report convergence (`C88_nan_weights_converge`); NaN energies cannot
  (`C88_nan_energy_never_converges`). `bond_dim_changed` compares only the smallest and largest
  dimension (`C88_dimension_change_missed`). An invalid stop configuration throws only after the
  previous run's metrics are erased and the summary says `kMaxSteps` (`C88_invalid_config_throws`).
- `WaveFunctionSum(alpha, tps1, beta, tps2)` is documented as alpha psi1 + beta psi2. Each site tensor is
  multiplied by |alpha|^(1/N), negative only if N is odd: with an even number of sites psi - psi becomes
  2 psi (`C90_difference_becomes_double`), complex phases are dropped for every N
  (`C90_complex_phases_lost`), and a list with one state always drops the sign
  (`C90_single_state_sign_lost`).
- `NextNearestNeighborSiteProject` is an unfinished stub: declared to return a result, it has no return
  statement (undefined behaviour if called). It is not modelled.
- A projection divides by the norm of the projected tensor without a check: a gate that annihilates the
  state gives NaN everywhere. C91 and C92 are stated multiplied out, C93 assumes the norm is not zero.
- `Initial` documents that the external indices have quantum number zero. On an open lattice the east
  index of the last row carries the (negated) charge of the whole configuration (`C95_outer_charges`);
  its remark that the most right-lower tensor has non-zero divergence holds on the torus only.
- `SquareLatticePEPS::Dump(path) const` writes `path + "gamma_ten_…"` without a slash, while `Load` and the
  other overload use `path + "/gamma_ten_…"`: a constant PEPS dumped to `"peps"` cannot be loaded from
  `"peps"`; Load fails or reads stale files (`C97_const_dump_is_not_loaded`).
- A PEPS dump holds no metadata: loading it into a smaller lattice, or an open one into a torus, succeeds
  (`C97_size_is_not_checked`). Dumping again after releasing memory overwrites the files with default
  tensors and returns true (`C97_dump_after_release_destroys`). `TPS::Dump` ignores failing writes
  (`C98_unreported_failure`).
* C101: `GetAllInnerBondDimensions`, hence `GetMinBondDimension` and `GetMinMaxBondDimension`, reserves `rows*cols-rows-cols` elements in unsigned arithmetic: with one row or one column it wraps around and `reserve` throws `std::length_error` (`C101_inner_bonds_chain_throws`).
* C101: `IsBondDimensionEven`/`IsBondDimensionUniform` of (split-index) TPS compare with the south leg of site (0,0), which on an open lattice with one row is the outer leg of dimension one: a uniform chain is reported as not uniform (`C101_chain_reported_uneven`). The same query of a PEPS returns true for every lattice with one row or column, also if its bonds differ (`C101_peps_chain_always_uniform`).
* C101: `GetMinMaxBondDim` of a PEPS includes the weights on the edge of an open lattice, so its minimum is never above one (`C101_peps_min_max`); the one of the split-index TPS leaves them out.
* C103: the Ising solver and the triangular J1-J2 solver divide by the amplitude without the check for zero the other solvers have; the triangular J1-J2 solver also overwrites the amplitude stored in the sample with the trace of every row and column.
* **The Monte Carlo gradient is biased at a finite number of samples (C106).** It is the mean of `E* O*` minus the product of the means of `E*` and `O*`; its expectation differs from the derivative of the energy by the covariance of the two means, which vanishes only as the number of samples grows. Configurations of zero amplitude are never sampled, although the derivative of the energy has a contribution from them; the theorem about the gradient therefore assumes that there are none.
* **Exchange sweeps are not ergodic in general (C107).** The bonds are visited in a fixed order and an exchange that does not lower the modulus is accepted without a random number. For a flat state a sweep is a fixed permutation of the sites: on the 2 x 2 lattice the Neel configuration is never left. C105 (the weight |psi|^2 is invariant) holds all the same; what fails is uniqueness of the invariant distribution.
* **`ClearCache()` followed by `Trace(tn)` is undefined behaviour (C109).** `trg_contractor.h:283-287` offers this to reload a network. `ClearCache` empties `scales_`, the geometry included, and `Trace` then assigns to `scales_[0].tens[i]`. Proved for every initialised contractor (`C109_clear_then_trace_undefined`); a second `Init` is needed.
* **A failed `Init` leaves the contractor answering for the old network (C109).** `Init` replaces the size and the boundary condition before it checks them and does not touch the caches when it throws; the next `Trace` of the rejected periodic network returns the amplitude of the previous one (`C109_failed_init_keeps_old`).
* **Documentation of the TRG sizes.** `trg_contractor.h:270` requires a power of two and says that the flow reaches 1x1; the code also accepts 3*2^k and stops at 2x2 or 3x3 (C108).
* **The TRG holes are not the derivative of the amplitude beyond 3x3 (C112).** `PunchAllHoles` pulls holes back through the splits with the cached factors frozen (`LinearSplitAdjointToHole_`). Directions orthogonal to the row and column space of a split tensor are lost, with or without truncation. `C112_large_fails` gives, for every supported side above 3 and every SVD, a network of value 1 and a tensor for which the hole gives 0 instead of 1. The gradients of the periodic solvers (`heisenberg_square_pbc.h:100`, `square_spin_onehalf_j1j2_xxz_pbc.h:80`, `transverse_field_ising_square_pbc.h:98`, `175`) are built on these holes. The repository's tests contract each hole only with its own tensor, which C111 shows is always right.
* **The periodic transverse-field Ising energies are wrong beyond 3x3 (C115).** `TransverseFieldIsingSquarePBC::CalEnergyAndHolesImpl` (`transverse_field_ising_square_pbc.h:98-118`, the same in `EvaluateObservables`) takes the amplitudes with one spin flipped from the holes of the TRG contractor. Beyond side 3 the holes are not environments (C112), so the off-diagonal energy is wrong even when nothing is truncated: `C115_large_fails` gives at every supported side `n > 3` a state of local energy `-(2+h)n²` for which the solver reports `-2n²` for every field `h`. The XXZ solvers replace tensors instead and are right (C114).
* **The returned trajectory misses the converged step (C117).** When `ShouldStop` ends the run, `IterativeOptimize` breaks out (`optimizer_impl.h:829-832`) before it calls `on_iteration` (884-886). The executor fills its trajectories in `on_iteration` only (`vmc_peps_optimizer_impl.h:114-116`), so `VmcOptimizeResult::energy_trajectory`, `GetCurrentEnergy()` and `energy_trajectory.csv` lack the last accepted evaluation, which `OptimizationResult::energy_trajectory` and the JSONL log do have. It may be the one `min_energy` belongs to.
* **A second `Execute()` forgets the minimum (C118).** `lowest_energy` starts from `DBL_MAX` in every run (`optimizer_impl.h:122`), so `on_lowest_state_found` fires at the first accepted energy and overwrites `en_min_` and `tps_lowest_` of the earlier runs, while the trajectories go on. The comparison `energy < en_min_` in `on_iteration` (`vmc_peps_optimizer_impl.h:118-121`), which looks like the guard, can never be true.
* **The consistency check is blind for small amplitudes (C121).** `psi_consistency.h:131, 163` compare with the absolute numbers 1e-14 and 2^-52 although amplitudes have no natural scale: if all amplitudes are at most t * 2^-53, the reported error is at most t whatever they are. With the default threshold 1e-3 no warning is ever printed for amplitudes below about 1e-19, which are common for large unnormalised lattices.
* **psi.csv is zero for two solvers (C124).** `TransverseFieldIsingSquareOBC` and `SpinOneHalfTriJ1J2HeisenbergSqrPEPS` collect `psi_list` but never call `SetLastPsiSummary`, and no solver overrides `BuildPsiList`, so `EvaluatePsiSummary` returns (0, 0) for every sample: the file says the amplitudes vanish and agree perfectly, and the warning can never fire.
* **The warning limit is not per executor (C125).** `warn_count` is a function-local static of `MeasureSample_` (`monte_carlo_peps_measurer_impl.h:211`), while `psi_consistency.h:42` documents a limit per executor instance; a second measurer in the same process may print nothing.
* **Acceptance rates after an emergency stop (C126).** `Measure_` divides by `SamplesPerRank()` (`monte_carlo_peps_measurer_impl.h:527`) also after the `break`.
* **The emergency flag is never reset.** `MPISignalGuard::Reset` is not called by the library, so every later measurement of the process (on any rank) stops at once with no samples (C122_flag_stays), and dumps whatever was there before.
* **SpSm_cross is not the structure factor (C127).** `MeasureStructureFactor` needs all DOWN boundary MPS (its comment says so), but `square_spin_onehalf_xxz_obc.h:239-248` and `spin_onehalf_triangle_heisenberg_sqrpeps.h:118-120` call it after `TraverseAllBonds`, which leaves one. Target rows but the last are recorded as zero. The walker does not absorb a row it skips (`continue` at `structure_factor_measurement_mixin.h:157-166`), so entries of pairs with the last row belong to a lattice without the rows in between (with bond dimensions that vary from row to row the contraction would not even be defined). No entry is divided by the amplitude of the sample, so averages over samples are not estimators of anything. The golden values in `tests/test_model_solvers/test_square_xxz_measurer.cpp` contain these zeros. The operators are also conjugate to the name: the entry has the upper spin raised in the sample, which estimates the product of a lowering operator at the upper and a raising operator at the lower site.
* **Walkers keep their boundary tensors when they evolve (C129).** `Evolve` does not clear them and `TraceWithBTen` cannot notice; the caller must call `ClearBTen`. `EvolveStep` stops silently in front of the last row from above and from the left, but from below and from the right absorbs all rows and then reads out of range. A failing `ShiftBTenWindow` has already dropped a tensor.
* **Index overflow in the distributed MinSR solver (C130_overflow).** `li + lj * tgt_lld` (`minsr_scalapack.h:296, 317, 453, 474`) is an `int`; from 2^31 elements per process on (46341 samples on one process) it overflows, although N itself is checked. Remark: the replicated solver passes `static_cast<int>(ns_local * ns_global)` to `MPI_Allgather` without a check, so blocks of 2^31 elements are truncated there too. Both assume the same number of samples on all processes.
* **Remarks on the loop projection.** An exception in the gauge fixing or the truncation leaves the PEPS with the enlarged, untruncated tensors of the patched gate: there is no strong exception guarantee. The full environment truncation of the later bonds uses environments computed before the earlier ones were truncated, so with truncation it is not the truncation of the current state. If the norm of the square is zero the energy ratio is 0/0.
* **Remarks on the eigenvector search (C135_exits_for_one_element).** For a tensor with one element the loop of `ArnoldiSolver` (`arnoldi_solver.h:235`) has no iteration and the function calls `exit(2)` with a message about complex eigenvalues: a loop projection that leaves a bond of dimension one ends the process, e.g. the identity gate on a product state. The Krylov space never has the full dimension, so with few elements the solver always warns. For real elements, an exactly invariant Krylov space with a complex dominant pair goes on with NaN vectors.
* **The replica test with fewer than ten samples (C138_few_samples_crash).** The master evaluates `(sweep + 1) % (SamplesPerRank() / 10)` (`monte_carlo_peps_measurer_impl.h:142`), a division by zero for 1 to 9 samples; `Measure_` in the same file guards the same expression (:497-499).
* **Variational boundary MPS with sufficient bond dimension (C140, variational_loses_component).** `MakeVariationalInitGuess_` (`bmps_impl.h:1175-1212`) truncates a copy of the boundary MPS to bonds of dimension two. For `3|000> + 2|111> + |222>` and a row which changes nothing, the two-site scheme returns a state without the component `|222>`, for every truncation, tolerance and number of iterations: the environments never contain it.
* **Stale marks of a boundary MPS** (C148, `truncate_misleads`, `reverse_misleads`): `RightCanonicalizeTruncate` changes two tensors and leaves their marks as they are; `Reverse` exchanges the marks only if a center is recorded. A later `Centralize` then skips tensors which are not isometric.
* **Wrong entropies after a truncation** (C149, `entropy_wrong`): with the stale marks of `RightCanonicalizeTruncate`, `GetEntanglementEntropy` returns entropies which are not those of the state.
* **Center after GetEntanglementEntropy** (C149, `entropy_renyi_partial`): the object is left canonical about the first tensor, but the recorded center is the last one; the object is also normalized, which the documentation does not say.
* **Amplitudes depend on the row (C154).** With truncation, the amplitude of one configuration computed in different rows differs, even if each truncation is optimal. The example has the values 3 and 2 for the exact 5. This is what the consistency summary of the solvers reports.
* **The stored amplitude depends on the history (C155).** Nearest-neighbour sweeps keep the amplitude of the last accepted move. With truncation it is a trace in the row or column of that move, and differs from the amplitude that `EvaluateAmplitude` would give for the same configuration. Acceptance ratios compare amplitudes of different rows. Three-site sweeps refresh the amplitude at every line (C156).
- Remark (C159): since gradients have no component along a site's own tensors, repeated SGD steps without weight decay only ever increase the norms of the site tensors; nothing in the update step renormalizes them.
- Remark (C162): `optimizer_impl.h:572` and `:586` set the initial guess of the next conjugate gradient solve to the updated state (`std::get<0>(sr_result)`); the natural gradient of the last iteration would be the usual warm start. Without diagonal shift the part of the state the S matrix does not see is then subtracted from the state in every step, like a weight decay of one.
- Remark: triangular solvers document the diagonal from top-left to bottom-right and use the other
  one. `ReplicaTest` divides by zero when there are fewer than ten samples per rank.
  The t-J solvers with the
  pair correlation enabled always throw. `gradient_norm` in the trajectory is the squared norm.

## Plan per property

| id | model | proof |
|----|-------|-------|
| C01 | `SuwaTodoStateUpdate` as the interval map of suwa_todo_update.h over ℝ | measure of preimages: the circle intervals of all states tile the circle, swap relabelling is an involution |
| C02 | same, with the random point as argument | prefix-sum search lemma |
| C03 | same | homogeneity of prefix sums |
| C04 | accept test of the exchange updaters | case split on |ψb| ≥ |ψa| |
| C05 | sweeps as folds over the bond list with an arbitrary accept oracle | each step is a transposition / permutation of the configuration; induction over the bond list |
| C06 | enumeration function and updater | finite case split per pair, induction over the sweep |
| C07 | `c1*dim+c2`, `/`, `%` | Nat.div/mod lemmas, induction |
| C08 | bond list of the sweep | list combinatorics: nodup and membership |
| C09 | symbolic contractor: environments are lists of absorbed (site, tensor) | invariant over the sweep, for all outcomes |
| C10 | four stacks built by an arbitrary absorption function | invariant "entry k = fold of the first k slices" preserved by grow, shift, update+erase |
| C11 | stack heights | induction over rows |
| C12 | packed index | monotone arithmetic, injectivity |
| C13 | Jastrow exponent and the code's field difference | negation with witness; `_partial` for v12 = 0, and the exact error term |
| C14 | fill + arbitrary permutation + SetFromList | counting lemmas |
| C15 | text printer / tokenizer | roundtrip by induction |
| C16 | file system with crash points | case analysis; negation witnesses where false |
| C17 | constructor path: Load into a 0x0 object | negation, partial |
| C18 | flatten/unflatten | index arithmetic |
| C19 | binning | list sums |
| C20 | variance/std error | sums of squares |
| C21 | IPS loop | induction over lags |
| C22 | list averages | entrywise sums |
| C23 | schedules over ℝ | monotonicity of pow / cos |
| C24 | plateau state machine | invariant by induction over reports |
| C25 | EMA state machine | convexity, induction |
| C26 | decision functions | case analysis |
| C27 | the whole iteration loop as a state machine over an arbitrary evaluator | invariant by induction over steps |
| C28 | same | counter argument with a ranking function; negation with witness for S4 rollback |
| C29 | same | step lemmas |
| C30 | ShouldStop state machine | induction |
| C31 | clipping in an inner-product space | norm algebra |
| C32 | SGD | algebra |
| C33 | AdaGrad | induction, sqrt bound |
| C34 | Adam | induction, geometric sums |
| C35 | two-loop recursion in an inner-product space | product form of the BFGS inverse Hessian, positive definiteness by induction |
| C36 | line-search loop over arbitrary objective | loop invariant |
| C37, C38 | CG loop over an arbitrary inner-product space | loop invariant r = b - A x |
| C39 | master trace and slave automaton | simulation by induction over the master's loop |
| C40 | arrival order permutation | commutative sums |
| C41 | SR operator over finite samples | inner-product algebra |
| C42 | ring rounds modulo P; blocking send/recv small-step | modular arithmetic; progress measure |
| C43 | four-term centring | inner-product algebra |
| C44 | cutoff functions | real inequalities |
| C45 | ceil division | Nat arithmetic |
| C46, C47 | bond lists | list combinatorics, modular arithmetic |
| C48, C49 | local energy as function of an arbitrary amplitude function | double-sum reindexing by the swap/flip involution |
| C50-C52 | bond tables against a Jordan-Wigner two-site operator spec | finite case split in the states, for all amplitudes and couplings |
| C53 | both code paths' bond lists | equality for the base class; negation for the triangular J1-J2 solver |
| C54 | emitted lengths and declared shapes | arithmetic; negation for SpSm_cross |
| C55 | packing loop | arithmetic |
| C56 | striped sums | partition of sums modulo P |
| C57 | next_permutation enumeration | multiset permutations, sorted order |
| C58 | binary digits | Nat.testBit bijection |
| C59 | evaluator sums | algebra; negation witness for leftover samples |
| C60 | loop | induction |
| C61 | Suwa-Todo interval map | rejection interval empty iff no state outweighs the rest |
| C62 | updaters with the exact contractor | invariant over sweeps |
| C63 | updaters as kernels on configurations | reversibility / global balance per step, composition over the sweep |
| C64 | matrix iterator | induction over positions |
| C65 | dress update | invariant over update histories |
| C66 | checkpoint calls of the optimization loop | invariant over iterations |
| C67 | optimization loop, rollback disabled | ranking function |
| C68 | selector candidates | fold over the candidate list |
| C69 | exact CG on a positive semidefinite operator | Krylov orthogonality, dimension bound |
| C70 | eigendecomposition oracle | spectral algebra |
| C71 | SR solve | C69 with the gradient in the range |
| C72 | exact-summation gradient | Wirtinger derivative of the energy quotient |
| C73 | striped accumulation per key | partition of sums modulo P |
| C74 | coordinate lists | list combinatorics |
| C75 | one-hot vectors | bounds on the particle number, averaging |
| C76 | three-site sweep over the contractor model | simulation by the from-scratch contractor |
| C77 | traversal as a fold over a contractor state with a visit list | loop invariants per row and column; list membership and no-duplicates |
| C78 | states as tables of optional tensors, operators as in the source | componentwise lemmas, sums over loops |
| C79 | same model with the boundary flag | direct; negation for the out-of-place operators |
| C80 | loops over sites as folds; amplitude any function homogeneous in each site tensor | induction over the list of sites |
| C81 | all ranks as a list, collective branches | list lemmas, case analysis |
| C82 | disk as a map from names to bytes, dump as a list of byte-level steps | injectivity of file names, prefix analysis of the metadata text; negations |
| C83 | messages and collective calls as lists consumed by the receiver | induction over sites and components |
| C84 | operators as matrices between lattice configurations; sweep as a list of embedded terms | degree-counting lemma on lines, applied to rows and columns |
| C85 | same, three-site terms | same, plus corner counting over plaquettes; negation by a computed error term |
| C86 | multiset of bonds acted on | rearrangement of double sums |
| C87 | four passes as lists of corners | parity |
| C88 | loop over arbitrary sweep reports; spec `Quiet`, `Converged` over reals | loop invariant: streak = length of trailing run of passed comparisons; comparison over reals equals `Quiet` |
| C89 | tensors as functions of coordinate lists; spec: operators on basis states, `NormedSpace.exp` | loop invariant: k-th term is X^k/k!; remainder bound in a Banach algebra |
| C90 | site tensors with shapes; spec: amplitude as a sum over all bond values of products of site tensors | bond sums split into the two blocks; mixed assignments vanish because the lattice is connected through internal bonds |
| C91 | tensors with shapes, the contraction, transposition and inversion steps of the five projections; spec: amplitude as a sum over all bonds | sums over the bonds of the changed sites are separated from the rest; inverse weights cancel leg by leg; QR and SVD are recombined |
| C92 | list of projections | induction with C91 and linearity of the gates |
| C93 | the local energy contractions | the contraction is the quadratic form of the term in the normalised tensor for each value of the environment legs |
| C94 | `ToTPS` site by site; spec: amplitude as a sum over all bonds | each bond has two ends, or one if it leaves the lattice: the product of the square roots over all legs is the product of the weights |
| C95 | `Initial` as the three passes over one mutable state | closed form of the state after every pass, by induction over rows and columns |
| C96 | list of projections between `Initial` and `ToTPS` | invariant: no weight is negative, external weights are one; then C92, C94 and C95 |
| C97 | disk as a map from paths, squeezed slashes; the three loops of `Dump` and `Load`; faults as a parameter | names are injective (digits and separators); induction over the loops |
| C98 | the same with metadata, and failures ignored | as C97, with the metadata parser of C13 |
| C99 | concrete tensors and contractions put into the abstract contractor of C09; QR and SVD as exact parameters | the boundary MPS represents the matrix of partial sums (induction over rows, QR/SVD gauges cancel); growing from one side is adjoint to growing from the other; traces are cuts of the same sum |
| C100 | splitting by contraction with unit vectors and grouping by outer products and sums, on the tensors of C99 | evaluation of one-term sums; the projected network satisfies the hypothesis of C99 |
| C101 | the loops over the sites with their flags | the flags select exactly the bonds between sites (counting argument as a multiset equality); folds of min and max; chains as counterexamples |
| C102 | the contractor of C99 with the two-row environments, running the traversal of C77 | a two-row cut of the network is its full contraction (induction over the columns, both directions); every trace rewritten into such a cut; C77 for the order of visits and the caches |
| C103 | the solvers as folds over what the traversal of C102 shows them | every exchanged or flipped trace is the amplitude of the changed configuration (C102); sums over visits rewritten into the sums of C48 and C49 |
| C104 | C103's solvers inside the loop over configurations and the reduction of C24 | holes are derivatives of the amplitude (C99), the product rule over the sites, Hermiticity of the Hamiltonians; derivative of a quotient |
| C105 | no new model: the sweeps of C09 and C12 with the updaters of C02-C08, driven by a random stream; spec: independent uniform numbers as a probability measure | a sweep is a list of moves, each reading the next number of the stream; independence of the first number from the later ones; balance of each move (C02, C07, C08); C99 carries it to the contractor with caches |
| C106 | the sampling loop of a rank: sweeps (C105) and solvers (C103) in turns on one contractor, then the reductions of C59; spec: a rank in equilibrium as a probability measure | induction over the samples: the contractor acts like exact amplitudes and its caches stay usable; the law of the configuration after each sample is the weight (C105); linearity of expectation; derivative of the energy as in C104 |
| C107 | the exchange update and whole sweeps on exact amplitudes; spec: same composition, a move of positive probability | transpositions of neighbouring sites generate the symmetric group of the lattice (Mathlib: a set of transpositions closed under connection); flat states: every update is a transposition, composition along the sweep; the 2 x 2 sweep computed |
| C108 | `Init` with the whole topology; spec: size 2^k or 3*2^k | the two kinds of layers are described in closed form (parents and children of each node), from which each check of the validation follows; induction over the scales |
| C109 | all caches, trials and commits, tensor operations abstract; spec: a new contractor, the list of networks asked for | invariant: each scale holds what a full contraction of the current network would put there; a replacement can only change the parents of changed nodes; induction over scales, then over calls |
| C110 | the tensor operations of the contractor on explicit tensors, put into the model of C109; spec: value of a network on the torus | one coarse-graining step regroups a sum over bonds (bijections between bonds and pieces of split nodes); two steps lead from side 2m to side m; induction over the scales |
| C111 | `PunchAllHoles` with the caches of C109 on explicit tensors; spec: contraction of hole and tensor | final holes by expansion; one scale back: pairing of a hole with its coarse tensor equals the pairing of each piece's hole with the piece, and pulling back through the split keeps it (singular vectors); averages of equal numbers; induction over the scales |
| C112 | same model; spec: value of the network with one tensor replaced | sides 2 and 3 by expansion; above: a rank-one network and a tensor orthogonal to its ranges, on which every pullback vanishes while the value does not |
| C113 | component, trials and updaters on the contractor of C109; spec: invariant weights of C105 | a component that agrees with a new one stays so under trials and commits; the run simulates the run with exact amplitudes `psi`, to which C105 applies |
| C114 | the solvers on the component; spec: Hamiltonians on the torus, components reached by any history | every reached component agrees with a new one; evaluations of two replaced tensors are `psi` of the exchanged configuration; C48 |
| C115 | the Ising solver with the holes of C111 | sides 2 and 3: holes are environments; above: the counterexample of C112 as a two-component state, blind at every site |
| C116-C119 | `Execute` as the callbacks run on the trace of the loop of C27, then the final dump; spec: accepted evaluations of a trace | invariant relating the executor's members to the loop's along the trace, with the comparison of `on_iteration` shown to be dead code; concrete runs for the refutations |
| C120-C121 | the summary over `RCLike` scalars | characterisation of the reference and of the aligned list; explicit lists for the refutations |
| C122-C126 | processes that post collectives and wait, collectives that complete when all posted the same kind, signals at any time; engine and solver arbitrary functions | an invariant that all processes are at the same position with the state of an undisturbed run of m samples; a decreasing measure; an invariant for the process whose flag is set; C22 for the averages; concrete runs for the refutations |
| C127-C129 | walkers with their two stacks of boundary tensors over the operations of Model/Contractor; the whole loop of `MeasureStructureFactor`, including rows it skips | an invariant relating both stacks to boundary tensors computed from scratch; skipped rows as a lattice without them; C99 for the amplitudes; a product state for the refutation |
| C130, C131 | both eigensolvers with the index arithmetic of ScaLAPACK's tools (`numroc`, `indxl2g`), checked accesses, collectives; the libraries are specified by the descriptors of their arguments | block-cyclic indices are a bijection; sums over processes regrouped; uniqueness of functions of a Hermitian matrix; C42, C43 and C70 for the direction |
| C132, C133, C134 | `LocalSquareLoopProject` contraction by contraction; libraries and the eigenvector search are parameters | ring of four tensors with weights; gauge changes and truncations without error preserve the ring; patched ring equals the gate on the ring; environment sums factor into the cluster norm; induction over the visits of a sweep |
| C135, C136 | Gram-Schmidt, columns of the Hessenberg matrix, stopping rule; LAPACK is specified | invariant: orthonormal basis of the Krylov space and the Arnoldi relation; induction over the iterations |
| C137, C138 | transition system: sweep and post, receive by source and tag, return from `MPI_Sendrecv`, barrier | invariant with the numbers of messages sent, received and used by each process; the process that is furthest behind can always go on; a weight grows with every move |
| C139, C140, C141 | the two variational compressions as programs on tensors with stacks of environments, `QR` and `SVD` with the truncation parameters of each call | invariant: the stacks hold the overlaps of the product with the orthonormal tensors to the left and right; Parseval and Pythagoras for the last tensor; Bessel's inequality for each one-site step; a counterexample with three components |
| C142 | the conversions as the composition of the models of C94 and C100 | composition of C92, C94, C95, C99, C100 and C104 |
| C143 | the loop of `ContractRow` on tensors | invariant: the accumulator is the boundary tensor of the right with its legs in another order; then C99 |
| C144 | `MultiplyMPO` with `SVD_COMPRESS` as in C99, any factorizations with orthonormal vectors | induction over the tensors: the first tensor is the projection on the others, which are orthonormal; the QR tensors are isometries, so the norm of the first tensor is what the singular values carry |
| C145 | traces of `Model/Bmps` | both boundary MPS of a row are fixed; growing the environments along the row is contracting the row between them |
| C146 | traces of `Model/Bmps`, SVD compression as in C144 | induction over the rows: the error of one multiplication (C144) is stretched by the remaining rows |
| C147 | `iterate1`, `iterate2`, tests of convergence | the states after each number of iterations form one sequence; the compared norms increase and are bounded by the norm of the exact product |
| C148 | `Model/BmpsCano`: tensors, marks and center, all calls as operations on them | invariant: the marks tell the truth (without `Reverse`), or the object is either unmarked or canonical about its center (with it); refutations for any library that meets the specification |
| C149 | `entropy` of `Model/BmpsCano` | the sweep from the last tensor is in canonical form at every bond, so that the squared singular values are the spectrum of the reduced density matrix |
| C150 | `truncate` of `Model/BmpsCano` | the two halves of the canonical form give a Schmidt decomposition; Ky Fan's inequality bounds what any state of the rank can capture |
| C151 | `Model/ObsMatrix` | induction on the history: the flat vector is the row-major list of a lattice of numbers, or has been moved out |
| C152 | `Model/EnergyWarn` | induction on the samples with the number of warnings printed so far |
| C153 | `Model/Bmps` | each truncation is a projection of the exact state on one bond; the errors add up by Pythagoras, and each is at most that of a competitor by Eckart-Young |
| C154 | `Model/Contractor`, `Model/Bmps` | counterexample: on two sites the truncated boundary MPS is the best state of rank one (C153), which is unique; the bounds follow from C146 |
| C155 | `Model/Updaters`, `Model/Sweep`, `Model/Contractor` | C09 replaces the caches by contractions from scratch; invariant of the sweep: the amplitude is a trace of the configuration; error bound by C146; counterexample on the network of C154 |
| C156 | the same with three-site moves | C76, then an invariant of the last column with C145 |
| C157 | the same with independent uniform random numbers | C76 and stateless contraction split the sweep into lines; all traces of a line are one function of the configuration (C145), for which every move is stationary (C63, C105) |
| C158 | Model/McRun, Model/Evaluator and Model/SR as they are | the hole of a site paired with its tensor is the amplitude, so every sample's O* has component one along it; linearity of the means; the centred samples are orthogonal to it |
| C159 | Model/UpdateRules as it is | Pythagoras at the site for one step; induction over the history with the invariant that the velocity's component along the site is not positive |
| C160 | Model/Updaters, Model/Sweep and Model/McRun as they are | a sweep commutes with a map of all amplitudes that multiplies their absolute values by one number (foldl homomorphism through the sweep drivers); then sample by sample |
| C161 | Model/SR as it is; Model/SRStep for the step | the rescaling of samples and the rescaling of directions are adjoint inverses, so the covariance intertwines them; counterexamples with one and two elements |
| C162 | Model/CG with Model/SRRun around it | invariant of the conjugate gradient loop: component of points along the direction constant, of residuals and search directions zero; the guess after any nonempty history by splitting off the last iteration |
| C163 | Model/Updaters, Model/Sweep, Model/McRun and `order1Factor` of Model/State as they are | as C160 with a number per site: all amplitudes are multiplied by the product of the numbers |
| C164 | Model/ExactRun as it is | the energy is the expectation value and the gradient its derivative (C104); the expectation value does not depend on the norm, so the derivatives in the directions v and v divided by the numbers agree |

Properties found false of the code are kept in full in `properties.jsonl`; the
negation is proved with a concrete witness and a `_partial` theorem states
what does hold (see MANIFEST notes).

## Axioms of every theorem in the manifest

**none**: `SplitIndex.C101_peps_chain_always_uniform`

**propext**: `Configuration.C58_too_large_throws`, `Contractor.C10_start`, `Executor.C116_files`, `Executor.C116_validated`, `Executor.C117_complete_fails`, `Executor.C118_forgets`, `MinSR.C130_dispatch`, `Spike.C26_inactive_before_first_observation`, `State.C83_nonuniform_desynchronises`, `Updaters.C04_equal_states_rejected`, `Walker.C129_stale_without_clear`

**propext, Quot.sound**: `C46_chain_undefined`, `C46_energy_is_sum`, `C46_zero_amplitude_refused`, `C47_torus_energy_is_sum`, `C53_measured_energy_is_local_energy`, `Configuration.C17_result_partial`, `Configuration.C64_zero_columns_visits_outside`, `Contractor.C09_covers_the_updaters`, `Contractor.C09_init_fresh`, `Contractor.C09_single_line_out_of_range`, `Contractor.C10_update_keeps_independent_environments`, `Contractor.C11_overfull_stack_out_of_range`, `Contractor.C76_short_lines_out_of_range`, `Contractor.C77_single_line_fails`, `Fermion.C50_single_row_undefined`, `Observables.C74_length_is_declared`, `Optimizer.C27_accepted_is_evaluated`, `Optimizer.C27_lowest_callback`, `Optimizer.C27_min_is_minimum`, `Optimizer.C27_result`, `Optimizer.C29_resample`, `Optimizer.C29_resample_below_limit`, `Optimizer.C29_rollback`, `Optimizer.C29_rollback_only_if_enabled`, `Optimizer.C29_states`, `Optimizer.C66_saved_state_is_next_evaluated`, `Optimizer.C66_schedule`, `Selector.C68_valid`, `Spike.C26_decision`, `SplitIndex.C101_peps_min_max`, `State.C83_send_receive`, `Statistics.C45_total_samples`, `Walker.C129_walker_steps`, `WalkerTrunc.exchange_reports`, `WalkerTrunc.fullSpace_reports`

**propext, Classical.choice, Quot.sound**: `Arnoldi.C135_complex_returns`, `Arnoldi.C135_dominant_ritz_pair`, `Arnoldi.C135_exits_for_one_element`, `Arnoldi.C136_keeps_cones`, `Arnoldi.C136_power_method`, `Bmps.C102_block_trace_exact`, `Bmps.C102_plaquette_trace_exact`, `Bmps.C102_traversal_exact`, `Bmps.C99_bond_trace_exact`, `Bmps.C99_combine_isometry`, `Bmps.C99_combine_total`, `Bmps.C99_hole_exact`, `Bmps.C99_initial_amplitude_exact`, `Bmps.C99_one_site_trace_exact`, `Bmps.C99_sweeps_exact`, `Bmps.C99_three_site_sweeps_exact`, `Bmps.C99_triple_trace_exact`, `BmpsCano.centralize_canonical_partial`, `BmpsCano.entropy_after_truncation`, `BmpsCano.entropy_renyi_partial`, `BmpsCano.entropy_wrong`, `BmpsCano.reverse_misleads`, `BmpsCano.truncate_misleads`, `BmpsCano.truncation_best`, `BmpsCano.variational_fresh`, `BmpsErr.col_error`, `BmpsErr.col_traces`, `BmpsErr.initial_error`, `BmpsErr.row_error`, `BmpsErr.row_traces`, `BmpsQuasi.svd_quasi_best`, `BmpsQuasi.svd_quasi_max`, `BmpsQuasi.svd_quasi_max_mps`, `BmpsQuasi.svd_quasi_mps`, `BmpsQuasi.svd_two_best`, `BmpsRows.row_col_agree_partial`, `BmpsRows.rows_agree_false`, `BmpsRows.rows_agree_partial`, `BmpsRows.rows_disagree`, `BmpsVar.iterations_improve`, `BmpsVar.missing_parameter`, `BmpsVar.one_site_stops`, `BmpsVar.one_site_terminates`, `BmpsVar.single_tensor`, `BmpsVar.svd_best`, `BmpsVar.svd_error`, `BmpsVar.two_site_stops`, `BmpsVar.two_tensors`, `BmpsVar.variational_best`, `BmpsVar.variational_exact_partial`, `BmpsVar.variational_loses_component`, `C46_each_bond_once`, `C47_torus_each_bond_once`, `C47_width_two_counted_twice`, `C48_torus_estimator`, `C48_triangle_estimator`, `C48_triangle_j1j2_estimator`, `C48_triangle_j1j2_two_rows_undefined`, `C48_xxz_estimator`, `C49_tfim_estimator`, `C49_torus_tfim_estimator`, `C53_bond_matrices`, `C53_triangle_j1j2_never_measures`, `CG.C37_converged_meets_tolerance`, `CG.C38_best_iterate`, `CG.C39_bounded`, `CG.C39_completes`, `CG.C39_ends_finished`, `CG.C39_never_stuck`, `CG.C40_arrival_order`, `CG.C40_equals_serial`, `CG.C40_one_reply_per_slave`, `CG.C69_positive_definite`, `CG.C69_semidefinite`, `Chain.C105_exchange`, `Chain.C105_exchange_exact`, `Chain.C105_full_space`, `Chain.C105_full_space_exact`, `Chain.C105_hubbard`, `Chain.C105_hubbard_exact`, `Chain.C105_periodic_exchange_exact`, `Chain.C105_periodic_full_space_exact`, `Chain.C105_three_site`, `Chain.C105_three_site_exact`, `Configuration.C14_count_occupancy`, `Configuration.C14_overflow_undefined`, `Configuration.C14_random_dim`, `Configuration.C14_random_map`, `Configuration.C14_random_occupancy`, `Configuration.C15_dump_load`, `Configuration.C15_wrong_shape_refused`, `Configuration.C16_interrupted_dump_partial`, `Configuration.C16_truncated_number_loads`, `Configuration.C17_dumped_configuration_rejected`, `Configuration.C18_transfer`, `Configuration.C57_permutation_configs`, `Configuration.C58_binary_configs`, `Configuration.C64_iteration_complete`, `Contractor.C09_bond_amplitude_covers_every_site_once`, `Contractor.C09_initial_amplitude`, `Contractor.C09_sweeps_use_current_amplitudes`, `Contractor.C10_cached_environments_are_current`, `Contractor.C11_column_traversal_heights`, `Contractor.C11_row_traversal_contents`, `Contractor.C11_row_traversal_heights`, `Contractor.C53_triangle_j1j2_measurement_out_of_range`, `Contractor.C76_covers_the_updater`, `Contractor.C76_three_site_sweeps_use_current_amplitudes`, `Contractor.C76_triple_amplitude_covers_every_site_once`, `Contractor.C77_amplitudes_cover_every_site_once`, `Contractor.C77_every_bond_exactly_once`, `Contractor.C77_traversal_sees_current_amplitudes`, `Conversions.C142_amplitude_after_projections`, `Conversions.C142_amplitude_of_peps`, `Conversions.C142_energy_tfim`, `Conversions.C142_energy_xxz`, `EnergyWarn.last_summary`, `EnergyWarn.warnings`, `Evaluator.C56_energy_and_gradient`, `Evaluator.C56_process_count_irrelevant`, `Evaluator.C56_stripes`, `Evaluator.C59_covariance_partial`, `Evaluator.C59_general`, `Evaluator.C59_not_covariance`, `Evaluator.C59_shift_invariant`, `Evaluator.C72_gradient_is_derivative`, `Evaluator.C73_empty_refused`, `Evaluator.C73_exact_measurement`, `ExactRun.C104_all_configurations`, `ExactRun.C104_sector_closed`, `ExactRun.C104_tfim`, `ExactRun.C104_triangle`, `ExactRun.C104_triangle_j1j2`, `ExactRun.C104_xxz`, `Executor.C116_lowest`, `Executor.C117_trajectory_partial`, `Executor.C118_again_partial`, `Executor.C119_progress_file`, `Fermion.C50_anticommutation`, `Fermion.C50_conserves_spin_numbers`, `Fermion.C50_density_and_spin`, `Fermion.C50_hubbard_estimator`, `Fermion.C51_pin_accepted_iff`, `Fermion.C51_pin_outside_refused`, `Fermion.C51_tJ_estimator`, `Fermion.C51_tJ_pinned_estimator`, `Fermion.C52_spinless_estimator`, `Fermion.C53_fermion_measured_energy`, `GradScale.equilibrium_scale_free`, `GradScale.exact_scale_free`, `GradScale.minsr_scale_free`, `GradScale.natural_scale_free`, `GradScale.own_rescales`, `GradScale.run_scale_free`, `GradScale.sample_own`, `GradScale.smatrix_scale_free`, `GradScale.tfim_scale_free`, `GradScale.xxz_scale_free`, `GradStep.clip_norm_orth`, `GradStep.clip_value_shrinks`, `GradStep.nesterov_shrinks`, `GradStep.sgd_momentum_grows`, `GradStep.sgd_run_norm`, `GradStep.sgd_step_norm`, `Jastrow.C12_fill`, `Jastrow.C12_init`, `Jastrow.C12_set_get`, `Jastrow.C13_exchange_ratio_error`, `Jastrow.C13_exchange_ratio_partial`, `Jastrow.C13_exchange_ratio_wrong`, `Jastrow.C13_forward_backward`, `Jastrow.C13_hop_energy_error`, `Jastrow.C65_density_in_sync`, `LBFGS.C35_descent`, `LBFGS.C35_direction_norm`, `LBFGS.C35_memory`, `LBFGS.C35_never_resets`, `LBFGS.C35_secant`, `LineSearch.C36_accepted`, `LineSearch.C36_below_min_step`, `LineSearch.C36_deterministic`, `LineSearch.C36_rejects`, `LineSearch.C36_step`, `McRun.C106_all_stay`, `McRun.C106_sector_stays`, `McRun.C106_tfim`, `McRun.C106_triangle`, `McRun.C106_triangle_j1j2`, `McRun.C106_xxz`, `McRun.exists_equilibrium`, `Measurer.C122_agree`, `Measurer.C122_completes`, `Measurer.C122_flag_stays`, `Measurer.C122_progress`, `Measurer.C122_prompt`, `Measurer.C122_terminates`, `Measurer.C123_other_processes`, `Measurer.C123_solvers`, `Measurer.C123_statistics`, `Measurer.C123_total`, `Measurer.C124_dropped`, `Measurer.C124_fails`, `Measurer.C124_rows_partial`, `Measurer.C125_fails`, `Measurer.C125_shared`, `Measurer.C125_warnings_partial`, `Measurer.C126_fails`, `Measurer.C126_rates_partial`, `MinSR.C130_overflow`, `MinSR.C130_returns`, `MinSR.C130_same_solution`, `MinSR.C131_direction`, `ObsMatrix.lattice_of_calls`, `Observables.C54_dump_matches_declaration_partial`, `Observables.C54_triangle_structure_factor_throws`, `Observables.C55_all_to_all_correlator`, `Observables.C55_packing_in_range`, `Observables.C55_packing_is_a_numbering`, `Observables.C74_all_pairs_listed_once`, `Observables.C74_selected_pairs`, `Observables.C75_histogram_is_a_distribution`, `Observables.C75_one_hot`, `Optimizer.C28_livelock_deterministic`, `Optimizer.C28_livelock_every_sigma`, `Optimizer.C28_terminates_deterministic_partial`, `Optimizer.C28_terminates_with_rollback_partial`, `Optimizer.C30_stops_exactly`, `Optimizer.C67_terminates_without_rollback`, `Peps.C132_loop_projection_applies_gate`, `Peps.C133_energy_of_exponential_gate`, `Peps.C133_energy_of_first_order_gate`, `Peps.C133_ratio_is_mean_of_gate`, `Peps.C134_sweep_applies_all_gates`, `Peps.C91_projection_applies_gate`, `Peps.C92_history_of_projections`, `Peps.C93_energy_within_spectrum`, `Peps.C93_no_hamiltonian_no_energy`, `Peps.C94_conversion_exact`, `Peps.C94_exits_iff_negative`, `Peps.C94_same_wave_function`, `Peps.C95_charge_conserved`, `Peps.C95_charges_match`, `Peps.C95_initial_is_product_state`, `Peps.C95_outer_charges`, `Peps.C96_conversion_never_exits`, `Peps.C96_projection_keeps_convertible`, `Peps.C96_workflow`, `PepsIO.C97_const_dump_is_not_loaded`, `PepsIO.C97_const_dump_round_trip_partial`, `PepsIO.C97_directories_independent`, `PepsIO.C97_dump_after_release_destroys`, `PepsIO.C97_dump_reports`, `PepsIO.C97_load_exact`, `PepsIO.C97_release_and_restore`, `PepsIO.C97_round_trip`, `PepsIO.C97_size_is_not_checked`, `PepsIO.C98_round_trip`, `PepsIO.C98_unreported_failure`, `Psi.C120_bounds`, `Psi.C120_exact`, `Psi.C120_real`, `Psi.C120_summary`, `Psi.C120_zero_iff`, `Psi.C121_order_fails`, `Psi.C121_order_partial`, `Psi.C121_scale_fails`, `Psi.C121_scale_partial`, `Psi.C121_small_blind`, `Reach.C107_exchanges_connect`, `Reach.C107_exchanges_stay`, `Reach.C107_flat_deterministic`, `Reach.C107_sweeps_not_ergodic`, `Reach.C107_sweeps_stuck`, `Replica.C137_overlaps`, `Replica.C137_overlaps_so_far`, `Replica.C137_reports`, `Replica.C137_synchronized`, `Replica.C138_few_samples_crash`, `Replica.C138_finishes_partial`, `Replica.C138_progress_partial`, `Replica.C138_terminates`, `SR.C41_apply`, `SR.C41_hermitian_and_bounded`, `SR.C41_partition_independent`, `SR.C42_bounded`, `SR.C42_completes`, `SR.C42_each_block_once`, `SR.C42_never_stuck`, `SR.C42_result`, `SR.C43_centred_gram`, `SR.C43_hermitian_psd_centred`, `SR.C44_bounded`, `SR.C44_cutoff`, `SR.C44_hard`, `SR.C44_soft`, `SR.C44_zero_spectrum`, `SR.C70_descent`, `SR.C70_solves_sr`, `SR.C71_sr_never_aborts`, `SRRun.cg_keeps`, `SRRun.first_keeps`, `SRRun.iterate_site`, `SRRun.iterate_succeeds`, `SRRun.later_shrinks`, `SRRun.run_guess`, `SRRun.shift_bounds`, `SRStep.normalized_depends`, `SRStep.normalized_length`, `SRStep.plain_step_scale`, `SRStep.shift_depends`, `SRStep.sr_equation_scale`, `SRStep.sr_step_scale`, `ScaleAll.amplitude_scale`, `ScaleAll.factor_pos`, `ScaleAll.normalize_keeps`, `ScaleAll.run_scale`, `ScaleAll.tfim_scale`, `ScaleAll.walk_scale`, `ScaleAll.xxz_scale`, `ScaleExact.energy_scale`, `ScaleExact.exact_tfim`, `ScaleExact.exact_triangle`, `ScaleExact.exact_triangle_j1j2`, `ScaleExact.exact_xxz`, `ScaleExact.same_of`, `ScaleRun.amplitude_scale`, `ScaleRun.run_scale`, `ScaleRun.tfim_scale`, `ScaleRun.walk_scale`, `ScaleRun.xxz_scale`, `Schedulers.C23_cosine`, `Schedulers.C23_exponential`, `Schedulers.C23_multi_step`, `Schedulers.C23_step`, `Schedulers.C23_step_zero_undefined`, `Schedulers.C23_warmup`, `Schedulers.C24_at_most_one_reduction_per_patience`, `Schedulers.C24_constant_energy`, `Schedulers.C24_never_increases`, `Schedulers.C24_reduces_exactly_at_patience`, `Selector.C68_initial`, `Selector.C68_never_increases`, `Selector.C68_periodic`, `Selector.C68_sgd_initial`, `Selector.C68_untriggered`, `SimpleUpdate.C84_chain_underweighted`, `SimpleUpdate.C84_each_bond_once`, `SimpleUpdate.C84_sweep_adds_up`, `SimpleUpdate.C84_sweep_without_onsite`, `SimpleUpdate.C85_open_onsite_misweighted`, `SimpleUpdate.C85_sweep_adds_up_partial`, `SimpleUpdate.C85_sweep_with_onsite`, `SimpleUpdate.C85_sweep_without_onsite`, `SimpleUpdate.C85_torus_uniform_onsite`, `SimpleUpdate.C86_half_sweeps_cover`, `SimpleUpdate.C86_wrap_bonds_never_updated`, `SimpleUpdate.C87_every_plaquette_once`, `SimpleUpdate.C87_pass_is_disjoint`, `SolverRun.C103_exchange_solver`, `SolverRun.C103_tfim_energy`, `SolverRun.C103_tfim_solver`, `SolverRun.C103_triangle_energy`, `SolverRun.C103_triangle_j1j2_energy`, `SolverRun.C103_triangle_j1j2_solver`, `SolverRun.C103_xxz_energy`, `Spike.C25_constant`, `Spike.C25_mean_in_range`, `Spike.C25_window_one`, `Spike.C25_window_zero_out_of_range`, `Spike.C26_lower_energy_never_spikes`, `Spike.C26_signals`, `SplitIndex.C100_amplitude_from_tps`, `SplitIndex.C100_components`, `SplitIndex.C100_group_after_split`, `SplitIndex.C100_group_fails`, `SplitIndex.C100_projected_value`, `SplitIndex.C100_split_after_group`, `SplitIndex.C101_chain_reported_uneven`, `SplitIndex.C101_inner_bonds_chain_throws`, `SplitIndex.C101_inner_bonds_partial`, `SplitIndex.C101_max`, `SplitIndex.C101_min_max_partial`, `SplitIndex.C101_peps_uniform_partial`, `SplitIndex.C101_uniform_partial`, `State.C78_inner_product_and_norm`, `State.C78_norm_is_self_inner_product`, `State.C78_state_arithmetic_is_linear`, `State.C79_in_place_keeps_boundary_partial`, `State.C79_out_of_place_forgets_boundary`, `State.C80_normalize_all`, `State.C80_normalize_order_one`, `State.C80_normalize_site`, `State.C80_scale_max_abs_all`, `State.C81_startup_ranks_valid`, `State.C81_startup_succeeds_iff`, `State.C82_dump_load_partial`, `State.C82_failed_write_unnoticed`, `State.C82_interrupted_dump_loses_boundary`, `State.C82_interrupted_dump_loses_components`, `State.C82_interrupted_dump_partial`, `State.C82_interrupted_overwrite_loads_a_mixture`, `State.C82_nonuniform_components_lost`, `State.C82_successful_load_read_everything`, `State.C83_broadcast`, `State.exact_contraction_homogeneous`, `Statistics.C19_bins`, `Statistics.C19_error`, `Statistics.C19_mean`, `Statistics.C19_mean_exact`, `Statistics.C19_trailing_ignored`, `Statistics.C20_definitions`, `Statistics.C20_gather_single`, `Statistics.C20_properties`, `Statistics.C21_affine_invariant`, `Statistics.C21_at_least_one`, `Statistics.C21_exactly_one`, `Statistics.C22_average_lists`, `Statistics.C22_gather_lists`, `Statistics.C60_trg_sizes`, `SuwaTodo.C01_global_balance`, `SuwaTodo.C02_in_range_positive`, `SuwaTodo.C03_scale_invariant`, `SuwaTodo.C61_rejection_free`, `Taylor.C89_gate_is_exponential`, `Taylor.C89_gate_is_taylor_polynomial`, `Taylor.C89_zero_hamiltonian`, `Tps.C90_bond_dimensions`, `Tps.C90_complex_phases_lost`, `Tps.C90_difference_becomes_double`, `Tps.C90_list_sum`, `Tps.C90_single_state_sign_lost`, `Tps.C90_sum_is_superposition`, `Tps.C90_wave_unique`, `Tps.C90_weighted_list_sum_partial`, `Tps.C90_weighted_sum_exact`, `Tps.C90_weighted_sum_partial`, `Trg.C108_init`, `Trg.C109_clear_then_trace_undefined`, `Trg.C109_failed_init_keeps_old`, `Trg.C109_history`, `Trg.C109_trace_ignores_network`, `Trg.C110_exact`, `Trg.C110_history`, `Trg.C111_holes`, `Trg.C111_single`, `Trg.C112_large_fails`, `Trg.C112_small_partial`, `TrgWalker.C113_exchange`, `TrgWalker.C113_full_space`, `TrgWalker.C114_estimator`, `TrgWalker.C114_holes`, `TrgWalker.C115_large_fails`, `TrgWalker.C115_small_partial`, `UpdateLoop.C88_converged_iff`, `UpdateLoop.C88_dimension_change_missed`, `UpdateLoop.C88_final_energies`, `UpdateLoop.C88_invalid_config_throws`, `UpdateLoop.C88_metrics_describe_the_sweeps`, `UpdateLoop.C88_nan_energy_never_converges`, `UpdateLoop.C88_nan_weights_converge`, `UpdateLoop.C88_otherwise_runs_all_steps`, `UpdateLoop.C88_stops_at_first_convergence`, `UpdateRules.C31_both`, `UpdateRules.C31_clip_norm`, `UpdateRules.C31_clip_value`, `UpdateRules.C31_off`, `UpdateRules.C32_plain_sgd`, `UpdateRules.C32_preview_agrees`, `UpdateRules.C32_update_rule`, `UpdateRules.C33_accumulator`, `UpdateRules.C33_step`, `UpdateRules.C33_step_bounded`, `UpdateRules.C34_bounded`, `UpdateRules.C34_constant`, `UpdateRules.C34_step`, `UpdateRules.C34_weights`, `Updaters.C04_acceptance`, `Updaters.C04_detailed_balance`, `Updaters.C05_obc_exchange_conserves`, `Updaters.C05_pbc_exchange_conserves`, `Updaters.C05_three_site_exchange_conserves`, `Updaters.C06_candidates_complete`, `Updaters.C06_hubbard_sweep_conserves`, `Updaters.C07_encode_decode`, `Updaters.C07_full_space_sweep_in_range`, `Updaters.C08_obc_sweep_bonds`, `Updaters.C62_amplitude_consistent_exchange`, `Updaters.C62_amplitude_consistent_suwa_todo`, `Updaters.C63_exchange_stationary`, `Updaters.C63_full_space_stationary`, `Updaters.C63_hubbard_stationary`, `Updaters.C63_sweep_stationary`, `Updaters.C63_three_site_stationary`, `Walker.C127_structure_factor_after_traversal_partial`, `Walker.C127_structure_factor_fails`, `Walker.C128_structure_factor_with_lower_boundaries`, `Walker.C129_walker_traces_are_amplitudes`, `Walker.C129_walker_window`, `Walker.C143_row_amplitude`, `Walker.C143_row_rejected`, `Walker.C143_row_value`, `Walker.crossPairs_complete`, `WalkerTrunc.amplitude_of_configuration`, `WalkerTrunc.col_samples`, `WalkerTrunc.hubbard_reports`, `WalkerTrunc.row_samples`, `WalkerTrunc.start_is_trace`, `WalkerTrunc.stored_error`, `WalkerTrunc.stored_is_evaluated_false`, `WalkerTrunc.stored_is_last_column`, `WalkerTrunc.stored_is_trace`, `WalkerTrunc.sweep_is_lines`, `WalkerTrunc.tnn3_reports`
