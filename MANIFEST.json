{
 "claims": [
  {
   "property": "C01",
   "status": "proved",
   "theorems": [
    "QLPeps.SuwaTodo.C01_global_balance"
   ],
   "note": "exact arithmetic; random number uniform in [0,1)"
  },
  {
   "property": "C02",
   "status": "proved",
   "theorems": [
    "QLPeps.SuwaTodo.C02_in_range_positive"
   ],
   "note": "any linearly ordered field"
  },
  {
   "property": "C03",
   "status": "proved",
   "theorems": [
    "QLPeps.SuwaTodo.C03_scale_invariant"
   ],
   "note": ""
  },
  {
   "property": "C04",
   "status": "proved",
   "theorems": [
    "QLPeps.Updaters.C04_detailed_balance",
    "QLPeps.Updaters.C04_acceptance",
    "QLPeps.Updaters.C04_equal_states_rejected"
   ],
   "note": "trial traces exact (BMPS truncation error not modelled); random number uniform in [0,1)"
  },
  {
   "property": "C05",
   "status": "proved",
   "theorems": [
    "QLPeps.Updaters.C05_obc_exchange_conserves",
    "QLPeps.Updaters.C05_pbc_exchange_conserves",
    "QLPeps.Updaters.C05_three_site_exchange_conserves"
   ],
   "note": "no assumption on the amplitudes: any contractor, any random stream, any comparison (NaN included)"
  },
  {
   "property": "C06",
   "status": "proved",
   "theorems": [
    "QLPeps.Updaters.C06_candidates_complete",
    "QLPeps.Updaters.C06_hubbard_sweep_conserves"
   ],
   "note": ""
  },
  {
   "property": "C07",
   "status": "proved",
   "theorems": [
    "QLPeps.Updaters.C07_encode_decode",
    "QLPeps.Updaters.C07_full_space_sweep_in_range"
   ],
   "note": ""
  },
  {
   "property": "C08",
   "status": "proved",
   "theorems": [
    "QLPeps.Updaters.C08_obc_sweep_bonds"
   ],
   "note": ""
  },
  {
   "property": "C09",
   "status": "proved",
   "theorems": [
    "QLPeps.Contractor.C09_sweeps_use_current_amplitudes",
    "QLPeps.Contractor.C09_init_fresh",
    "QLPeps.Contractor.C09_covers_the_updaters",
    "QLPeps.Contractor.C09_bond_amplitude_covers_every_site_once",
    "QLPeps.Contractor.C09_initial_amplitude",
    "QLPeps.Contractor.C09_single_line_out_of_range"
   ],
   "note": "for arbitrary tensor contractions (including truncating ones); a lattice with one row or one column is out of range (proved)"
  },
  {
   "property": "C10",
   "status": "proved",
   "theorems": [
    "QLPeps.Contractor.C10_cached_environments_are_current",
    "QLPeps.Contractor.C10_start",
    "QLPeps.Contractor.C10_update_keeps_independent_environments"
   ],
   "note": "every history of public cache operations and site changes"
  },
  {
   "property": "C100",
   "status": "proved",
   "theorems": [
    "QLPeps.SplitIndex.C100_components",
    "QLPeps.SplitIndex.C100_group_after_split",
    "QLPeps.SplitIndex.C100_split_after_group",
    "QLPeps.SplitIndex.C100_group_fails",
    "QLPeps.SplitIndex.C100_projected_value",
    "QLPeps.SplitIndex.C100_amplitude_from_tps"
   ],
   "note": "bosonic tensors without the checks of quantum numbers"
  },
  {
   "property": "C101",
   "status": "partial",
   "theorems": [
    "QLPeps.SplitIndex.C101_max",
    "QLPeps.SplitIndex.C101_inner_bonds_partial",
    "QLPeps.SplitIndex.C101_inner_bonds_chain_throws",
    "QLPeps.SplitIndex.C101_min_max_partial",
    "QLPeps.SplitIndex.C101_uniform_partial",
    "QLPeps.SplitIndex.C101_chain_reported_uneven",
    "QLPeps.SplitIndex.C101_peps_min_max",
    "QLPeps.SplitIndex.C101_peps_uniform_partial",
    "QLPeps.SplitIndex.C101_peps_chain_always_uniform"
   ],
   "note": "true with at least two rows and columns; on chains the queries of the split-index TPS throw, open rows are reported as uneven and PEPS chains as uniform, each proved"
  },
  {
   "property": "C102",
   "status": "proved",
   "theorems": [
    "QLPeps.Bmps.C102_plaquette_trace_exact",
    "QLPeps.Bmps.C102_block_trace_exact",
    "QLPeps.Bmps.C102_traversal_exact"
   ],
   "note": "bosonic tensors; SVD compression that keeps every singular value"
  },
  {
   "property": "C103",
   "status": "proved",
   "theorems": [
    "QLPeps.SolverRun.C103_exchange_solver",
    "QLPeps.SolverRun.C103_triangle_j1j2_solver",
    "QLPeps.SolverRun.C103_tfim_solver",
    "QLPeps.SolverRun.C103_xxz_energy",
    "QLPeps.SolverRun.C103_triangle_energy",
    "QLPeps.SolverRun.C103_triangle_j1j2_energy",
    "QLPeps.SolverRun.C103_tfim_energy"
   ],
   "note": "bosonic models; exact arithmetic. The Ising and triangular J1-J2 solvers do not check for a zero amplitude and divide by it"
  },
  {
   "property": "C104",
   "status": "proved",
   "theorems": [
    "QLPeps.ExactRun.C104_xxz",
    "QLPeps.ExactRun.C104_triangle",
    "QLPeps.ExactRun.C104_triangle_j1j2",
    "QLPeps.ExactRun.C104_tfim",
    "QLPeps.ExactRun.C104_all_configurations",
    "QLPeps.ExactRun.C104_sector_closed"
   ],
   "note": "bosonic models, exact arithmetic"
  },
  {
   "property": "C105",
   "status": "proved",
   "theorems": [
    "QLPeps.Chain.C105_exchange",
    "QLPeps.Chain.C105_full_space",
    "QLPeps.Chain.C105_hubbard",
    "QLPeps.Chain.C105_three_site",
    "QLPeps.Chain.C105_exchange_exact",
    "QLPeps.Chain.C105_full_space_exact",
    "QLPeps.Chain.C105_hubbard_exact",
    "QLPeps.Chain.C105_three_site_exact",
    "QLPeps.Chain.C105_periodic_exchange_exact",
    "QLPeps.Chain.C105_periodic_full_space_exact"
   ],
   "note": "real numbers and ideal random numbers; the weight sum of the Suwa-Todo table is exact"
  },
  {
   "property": "C106",
   "status": "proved",
   "theorems": [
    "QLPeps.McRun.C106_xxz",
    "QLPeps.McRun.C106_triangle",
    "QLPeps.McRun.C106_triangle_j1j2",
    "QLPeps.McRun.C106_tfim",
    "QLPeps.McRun.C106_sector_stays",
    "QLPeps.McRun.C106_all_stay",
    "QLPeps.McRun.exists_equilibrium"
   ],
   "note": "bosonic models, real arithmetic, ideal random numbers, start in equilibrium"
  },
  {
   "property": "C107",
   "status": "proved",
   "theorems": [
    "QLPeps.Reach.C107_exchanges_connect",
    "QLPeps.Reach.C107_exchanges_stay",
    "QLPeps.Reach.C107_flat_deterministic",
    "QLPeps.Reach.C107_sweeps_stuck",
    "QLPeps.Reach.C107_sweeps_not_ergodic"
   ],
   "note": "amplitudes exact; the claim that sweeps are ergodic is refuted"
  },
  {
   "property": "C108",
   "status": "proved",
   "theorems": [
    "QLPeps.Trg.C108_init"
   ],
   "note": ""
  },
  {
   "property": "C109",
   "status": "proved",
   "theorems": [
    "QLPeps.Trg.C109_history",
    "QLPeps.Trg.C109_clear_then_trace_undefined",
    "QLPeps.Trg.C109_trace_ignores_network",
    "QLPeps.Trg.C109_failed_init_keeps_old"
   ],
   "note": "the splitting of a tensor is any function of the tensor and its type; the documented use ClearCache + Trace is refuted"
  },
  {
   "property": "C11",
   "status": "proved",
   "theorems": [
    "QLPeps.Contractor.C11_row_traversal_heights",
    "QLPeps.Contractor.C11_row_traversal_contents",
    "QLPeps.Contractor.C11_column_traversal_heights",
    "QLPeps.Contractor.C11_overfull_stack_out_of_range"
   ],
   "note": "the DOWN stack must not be higher than the lattice, otherwise out of range (proved)"
  },
  {
   "property": "C110",
   "status": "proved",
   "theorems": [
    "QLPeps.Trg.C110_exact",
    "QLPeps.Trg.C110_history"
   ],
   "note": "exact arithmetic, bosonic tensors; the library's SVD is any factorization that is exact whenever it reports truncation error zero, with singular values that are not negative"
  },
  {
   "property": "C111",
   "status": "proved",
   "theorems": [
    "QLPeps.Trg.C111_holes",
    "QLPeps.Trg.C111_single"
   ],
   "note": "exact arithmetic, bosonic tensors; the library's SVD returns singular vectors; kept singular values must lie above the cutoff of S^(-1/2), otherwise the pairing loses weight; on a 1x1 network PunchAllHoles throws"
  },
  {
   "property": "C112",
   "status": "partial",
   "theorems": [
    "QLPeps.Trg.C112_small_partial",
    "QLPeps.Trg.C112_large_fails"
   ],
   "note": "true for side 2 and 3; false for every larger supported side, for every SVD and every cutoff, also without truncation: the pullback through a split with frozen factors loses the directions orthogonal to the ranges of the split tensor (counterexample at every size proved)"
  },
  {
   "property": "C113",
   "status": "proved",
   "theorems": [
    "QLPeps.TrgWalker.C113_exchange",
    "QLPeps.TrgWalker.C113_full_space"
   ],
   "note": "exact arithmetic; any tensor operations and any truncation; the network operations never fail on tensors that fit (C109 model); the bond drawn has its first site in the lattice"
  },
  {
   "property": "C114",
   "status": "proved",
   "theorems": [
    "QLPeps.TrgWalker.C114_estimator",
    "QLPeps.TrgWalker.C114_holes"
   ],
   "note": "exact arithmetic; amplitudes zero divide by zero in the code, in the model the quotient is 0 (weight zero in the average); holes as in C111"
  },
  {
   "property": "C115",
   "status": "partial",
   "theorems": [
    "QLPeps.TrgWalker.C115_small_partial",
    "QLPeps.TrgWalker.C115_large_fails"
   ],
   "note": "true for sides 2 and 3; false for every supported side above 3, even without truncation: the flipped amplitudes are read off the holes, which are not environments (C112); a state with local energy -(2+h)n^2 for which the solver reports -2n^2 is given at every size"
  },
  {
   "property": "C116",
   "status": "proved",
   "theorems": [
    "QLPeps.Executor.C116_lowest",
    "QLPeps.Executor.C116_files",
    "QLPeps.Executor.C116_validated"
   ],
   "note": "master rank; energies as their real part; file-system failures not modelled"
  },
  {
   "property": "C117",
   "status": "partial",
   "theorems": [
    "QLPeps.Executor.C117_trajectory_partial",
    "QLPeps.Executor.C117_complete_fails"
   ],
   "note": "false when a stopping criterion ends the run: the loop leaves before on_iteration, so the last accepted evaluation is missing from the executor's trajectories and file; everything else is complete"
  },
  {
   "property": "C118",
   "status": "partial",
   "theorems": [
    "QLPeps.Executor.C118_again_partial",
    "QLPeps.Executor.C118_forgets"
   ],
   "note": "false: the optimizer starts every run from DBL_MAX and its on_lowest_state_found overwrites the executor's minimum; proved: after every call minimum and lowest state are those of the last run"
  },
  {
   "property": "C119",
   "status": "proved",
   "theorems": [
    "QLPeps.Executor.C119_progress_file"
   ],
   "note": "fresh executor; the loop has returned"
  },
  {
   "property": "C12",
   "status": "proved",
   "theorems": [
    "QLPeps.Jastrow.C12_set_get",
    "QLPeps.Jastrow.C12_init",
    "QLPeps.Jastrow.C12_fill"
   ],
   "note": ""
  },
  {
   "property": "C120",
   "status": "proved",
   "theorems": [
    "QLPeps.Psi.C120_summary",
    "QLPeps.Psi.C120_zero_iff",
    "QLPeps.Psi.C120_exact",
    "QLPeps.Psi.C120_real",
    "QLPeps.Psi.C120_bounds"
   ],
   "note": "doubles as reals"
  },
  {
   "property": "C121",
   "status": "partial",
   "theorems": [
    "QLPeps.Psi.C121_scale_partial",
    "QLPeps.Psi.C121_order_partial",
    "QLPeps.Psi.C121_small_blind",
    "QLPeps.Psi.C121_scale_fails",
    "QLPeps.Psi.C121_order_fails"
   ],
   "note": "false: absolute floors make the error of small amplitudes vanish (never a warning at the default threshold for amplitudes below about 1e-19), and complex amplitudes of equal magnitude give order-dependent results; proved above the floors, and for a unique largest amplitude"
  },
  {
   "property": "C122",
   "status": "proved",
   "theorems": [
    "QLPeps.Measurer.C122_progress",
    "QLPeps.Measurer.C122_terminates",
    "QLPeps.Measurer.C122_completes",
    "QLPeps.Measurer.C122_agree",
    "QLPeps.Measurer.C122_prompt",
    "QLPeps.Measurer.C122_flag_stays"
   ],
   "note": "collectives complete when all processes have posted one of the same kind; exceptions of the file system are not modelled; signals during warm-up are signals before the first check; C122_flag_stays: the flag is never reset, so a later run takes no samples"
  },
  {
   "property": "C123",
   "status": "proved",
   "theorems": [
    "QLPeps.Measurer.C123_statistics",
    "QLPeps.Measurer.C123_total",
    "QLPeps.Measurer.C123_solvers",
    "QLPeps.Measurer.C123_other_processes"
   ],
   "note": "exact arithmetic; the t-J solver with pair correlations is excluded in C123_solvers (C82)"
  },
  {
   "property": "C124",
   "status": "partial",
   "theorems": [
    "QLPeps.Measurer.C124_rows_partial",
    "QLPeps.Measurer.C124_dropped",
    "QLPeps.Measurer.C124_fails"
   ],
   "note": "false for TransverseFieldIsingSquareOBC and SpinOneHalfTriJ1J2HeisenbergSqrPEPS, which collect amplitudes and never store their summary"
  },
  {
   "property": "C125",
   "status": "partial",
   "theorems": [
    "QLPeps.Measurer.C125_warnings_partial",
    "QLPeps.Measurer.C125_shared",
    "QLPeps.Measurer.C125_fails"
   ],
   "note": "false: the counter is a static variable shared by all measurers of the process"
  },
  {
   "property": "C126",
   "status": "partial",
   "theorems": [
    "QLPeps.Measurer.C126_rates_partial",
    "QLPeps.Measurer.C126_fails"
   ],
   "note": "false after an emergency stop: the sums are divided by the requested number of sweeps"
  },
  {
   "property": "C127",
   "status": "partial",
   "theorems": [
    "QLPeps.Walker.C127_structure_factor_after_traversal_partial",
    "QLPeps.Walker.C127_structure_factor_fails",
    "QLPeps.Walker.crossPairs_complete"
   ],
   "note": "false: the solvers call the method after the traversal, when a single boundary MPS from below is left, so every target row but the last is recorded as zero, pairs with the last row are computed on a lattice without the rows in between, and no value is divided by the amplitude of the sample; proved: which pairs are recorded, the zeros, and the amplitudes of the pairs in the last two rows"
  },
  {
   "property": "C128",
   "status": "proved",
   "theorems": [
    "QLPeps.Walker.C128_structure_factor_with_lower_boundaries",
    "QLPeps.Walker.crossPairs_complete"
   ],
   "note": "amplitudes, not ratios, are what the method returns"
  },
  {
   "property": "C129",
   "status": "proved",
   "theorems": [
    "QLPeps.Walker.C129_walker_steps",
    "QLPeps.Walker.C129_walker_traces_are_amplitudes",
    "QLPeps.Walker.C129_walker_window",
    "QLPeps.Walker.C129_stale_without_clear"
   ],
   "note": "walkers from above for the traces (the only ones the methods support); C129_stale_without_clear: the caches must be cleared after Evolve; ContractRow is not modelled"
  },
  {
   "property": "C13",
   "status": "partial",
   "theorems": [
    "QLPeps.Jastrow.C13_exchange_ratio_partial",
    "QLPeps.Jastrow.C13_exchange_ratio_error",
    "QLPeps.Jastrow.C13_exchange_ratio_wrong",
    "QLPeps.Jastrow.C13_forward_backward",
    "QLPeps.Jastrow.C13_hop_energy_error"
   ],
   "note": "false of the code: the factor is exp(J(new)-J(old)+v12); proved exact error for every input, the negation whenever v12 is nonzero, and the claim whenever v12 = 0"
  },
  {
   "property": "C130",
   "status": "proved",
   "theorems": [
    "QLPeps.MinSR.C130_same_solution",
    "QLPeps.MinSR.C130_returns",
    "QLPeps.MinSR.C130_overflow",
    "QLPeps.MinSR.C130_dispatch"
   ],
   "note": "exact arithmetic; dsyev, zheev, pdsyev, pzheev and p?gemr2d are specified, not modelled; C130_returns: every Hermitian input has a result on both paths"
  },
  {
   "property": "C131",
   "status": "proved",
   "theorems": [
    "QLPeps.MinSR.C131_direction"
   ],
   "note": "the same number of samples on all processes, as the code assumes; uses the ring exchange of C42 and C43"
  },
  {
   "property": "C132",
   "status": "proved",
   "theorems": [
    "QLPeps.Peps.C132_loop_projection_applies_gate"
   ],
   "note": "exact arithmetic; QR, SVD, SymMatEVD and the conjugate-gradient solver are specified, the search for eigenvectors may return anything of the right shape; bosonic branches. The claim is about projections that return: one that throws leaves the enlarged tensors in the PEPS"
  },
  {
   "property": "C133",
   "status": "proved",
   "theorems": [
    "QLPeps.Peps.C133_ratio_is_mean_of_gate",
    "QLPeps.Peps.C133_energy_of_first_order_gate",
    "QLPeps.Peps.C133_energy_of_exponential_gate"
   ],
   "note": "exact arithmetic; squares of norm zero, where the code divides by zero, are excluded"
  },
  {
   "property": "C134",
   "status": "proved",
   "theorems": [
    "QLPeps.Peps.C134_sweep_applies_all_gates"
   ],
   "note": "exact arithmetic; sweeps in which no projection throws"
  },
  {
   "property": "C135",
   "status": "proved",
   "theorems": [
    "QLPeps.Arnoldi.C135_dominant_ritz_pair",
    "QLPeps.Arnoldi.C135_complex_returns",
    "QLPeps.Arnoldi.C135_exits_for_one_element"
   ],
   "note": "exact arithmetic; dgeev and zgeev are specified, exists_geev shows that the specification of zgeev can be met; for real elements up to the tolerance for eigenvalues that are not real"
  },
  {
   "property": "C136",
   "status": "proved",
   "theorems": [
    "QLPeps.Arnoldi.C136_power_method",
    "QLPeps.Arnoldi.C136_keeps_cones"
   ],
   "note": "exact arithmetic; a zero image gives NaN, a separate outcome"
  },
  {
   "property": "C137",
   "status": "proved",
   "theorems": [
    "QLPeps.Replica.C137_synchronized",
    "QLPeps.Replica.C137_overlaps",
    "QLPeps.Replica.C137_overlaps_so_far",
    "QLPeps.Replica.C137_reports"
   ],
   "note": "the sweep is an arbitrary function of the state of the engine"
  },
  {
   "property": "C138",
   "status": "partial",
   "theorems": [
    "QLPeps.Replica.C138_progress_partial",
    "QLPeps.Replica.C138_finishes_partial",
    "QLPeps.Replica.C138_terminates",
    "QLPeps.Replica.C138_few_samples_crash"
   ],
   "note": "false for 1 to 9 samples: the master divides by zero (samples / 10); proved otherwise, including that every run ends"
  },
  {
   "property": "C139",
   "status": "proved",
   "theorems": [
    "QLPeps.BmpsVar.variational_best",
    "QLPeps.BmpsVar.two_tensors",
    "QLPeps.BmpsVar.missing_parameter",
    "QLPeps.BmpsVar.single_tensor"
   ],
   "note": "bosonic tensors; QR and SVD are any functions with the properties in Spec/BmpsVar (Factorizations), shown to exist; a single tensor is undefined behaviour"
  },
  {
   "property": "C14",
   "status": "proved",
   "theorems": [
    "QLPeps.Configuration.C14_random_occupancy",
    "QLPeps.Configuration.C14_random_map",
    "QLPeps.Configuration.C14_count_occupancy",
    "QLPeps.Configuration.C14_random_dim",
    "QLPeps.Configuration.C14_overflow_undefined"
   ],
   "note": "sums below 2^64; the overflow theorem shows that occupancies whose sum wraps around pass the check and overrun the buffer"
  },
  {
   "property": "C140",
   "status": "partial",
   "theorems": [
    "QLPeps.BmpsVar.variational_exact_partial",
    "QLPeps.BmpsVar.variational_loses_component"
   ],
   "note": "proved if the bonds of the boundary MPS have a dimension of at most two; false otherwise: the first guess is made from a copy truncated to bonds of dimension two, and a component which is missing in it is never found again"
  },
  {
   "property": "C141",
   "status": "proved",
   "theorems": [
    "QLPeps.BmpsVar.iterations_improve"
   ],
   "note": "exact arithmetic; the iterations may stop early by the tolerance"
  },
  {
   "property": "C142",
   "status": "proved",
   "theorems": [
    "QLPeps.Conversions.C142_amplitude_of_peps",
    "QLPeps.Conversions.C142_amplitude_after_projections",
    "QLPeps.Conversions.C142_energy_xxz",
    "QLPeps.Conversions.C142_energy_tfim"
   ],
   "note": "bosonic tensors, exact factorizations; a negative weight makes the conversion fail (C94)"
  },
  {
   "property": "C143",
   "status": "proved",
   "theorems": [
    "QLPeps.Walker.C143_row_value",
    "QLPeps.Walker.C143_row_amplitude",
    "QLPeps.Walker.C143_row_rejected"
   ],
   "note": "bosonic tensors, boundary MPS without truncation"
  },
  {
   "property": "C144",
   "status": "proved",
   "theorems": [
    "QLPeps.BmpsVar.svd_best",
    "QLPeps.BmpsVar.svd_error"
   ],
   "note": "bosonic tensors; QR returns isometries and SVD returns orthonormal vectors (Spec/BmpsVar, Factorizations)"
  },
  {
   "property": "C145",
   "status": "proved",
   "theorems": [
    "QLPeps.BmpsErr.row_traces",
    "QLPeps.BmpsErr.col_traces"
   ],
   "note": "bosonic tensors; QR returns isometries and SVD returns orthonormal vectors (Spec/BmpsVar, Factorizations)"
  },
  {
   "property": "C146",
   "status": "proved",
   "theorems": [
    "QLPeps.BmpsErr.row_error",
    "QLPeps.BmpsErr.col_error",
    "QLPeps.BmpsErr.initial_error"
   ],
   "note": "SVD_COMPRESS, bosonic tensors, exact arithmetic"
  },
  {
   "property": "C147",
   "status": "proved",
   "theorems": [
    "QLPeps.BmpsVar.one_site_stops",
    "QLPeps.BmpsVar.one_site_terminates",
    "QLPeps.BmpsVar.two_site_stops"
   ],
   "note": "bosonic tensors, exact arithmetic; boundary MPS of two tensors use SVD_COMPRESS (C140)"
  },
  {
   "property": "C148",
   "status": "partial",
   "theorems": [
    "QLPeps.BmpsCano.centralize_canonical_partial",
    "QLPeps.BmpsCano.variational_fresh",
    "QLPeps.BmpsCano.reverse_misleads",
    "QLPeps.BmpsCano.truncate_misleads"
   ],
   "note": "proved for histories without Reverse and RightCanonicalizeTruncate, and for histories of Centralize, GetEntanglementEntropy and Reverse. False otherwise: RightCanonicalizeTruncate leaves the marks as they are, and Reverse does not exchange the marks of an object without a center, so that Centralize skips tensors which are not isometric (proved). Bosonic tensors, exact arithmetic"
  },
  {
   "property": "C149",
   "status": "partial",
   "theorems": [
    "QLPeps.BmpsCano.entropy_renyi_partial",
    "QLPeps.BmpsCano.entropy_after_truncation",
    "QLPeps.BmpsCano.entropy_wrong"
   ],
   "note": "proved for the histories of C148, with NaN for n = 1 if a singular value vanishes and with 0 for n = 0. False after RightCanonicalizeTruncate: the entropy of the last bond is then the logarithm of an integer, whatever the state (proved). Bosonic tensors, exact arithmetic"
  },
  {
   "property": "C15",
   "status": "proved",
   "theorems": [
    "QLPeps.Configuration.C15_dump_load",
    "QLPeps.Configuration.C15_wrong_shape_refused"
   ],
   "note": ""
  },
  {
   "property": "C150",
   "status": "proved",
   "theorems": [
    "QLPeps.BmpsCano.truncation_best"
   ],
   "note": "for the histories for which C148 holds. The marks are stale afterwards (C148), so the next Centralize may skip a tensor. Bosonic tensors, exact arithmetic; the optimality is proved from an Eckart-Young theorem for states (Lemmas/EckartYoung)"
  },
  {
   "property": "C151",
   "status": "proved",
   "theorems": [
    "QLPeps.ObsMatrix.lattice_of_calls"
   ],
   "note": "values are exact numbers"
  },
  {
   "property": "C152",
   "status": "proved",
   "theorems": [
    "QLPeps.EnergyWarn.warnings",
    "QLPeps.EnergyWarn.last_summary"
   ],
   "note": "the text of a number is not modelled"
  },
  {
   "property": "C153",
   "status": "proved",
   "theorems": [
    "QLPeps.BmpsQuasi.svd_quasi_best",
    "QLPeps.BmpsQuasi.svd_quasi_mps",
    "QLPeps.BmpsQuasi.svd_two_best",
    "QLPeps.BmpsQuasi.svd_quasi_max",
    "QLPeps.BmpsQuasi.svd_quasi_max_mps"
   ],
   "note": "bosonic tensors, exact arithmetic"
  },
  {
   "property": "C154",
   "status": "partial",
   "theorems": [
    "QLPeps.BmpsRows.rows_disagree",
    "QLPeps.BmpsRows.rows_agree_false",
    "QLPeps.BmpsRows.rows_agree_partial",
    "QLPeps.BmpsRows.row_col_agree_partial"
   ],
   "note": "false: on a 2x2 lattice and with bond dimension one the two rows give 3 and 2 for a network of the value 5, for every SVD that keeps the largest singular value (`rows_disagree`, `rows_agree_false`). Proved: the traces in two rows, or in a row and a column, differ by no more than the sum of the error bounds of C146. Traces within one row agree (C145)"
  },
  {
   "property": "C155",
   "status": "proved",
   "theorems": [
    "QLPeps.WalkerTrunc.stored_is_trace",
    "QLPeps.WalkerTrunc.start_is_trace",
    "QLPeps.WalkerTrunc.stored_error",
    "QLPeps.WalkerTrunc.exchange_reports",
    "QLPeps.WalkerTrunc.fullSpace_reports",
    "QLPeps.WalkerTrunc.hubbard_reports",
    "QLPeps.WalkerTrunc.stored_is_evaluated_false"
   ],
   "note": "`stored_is_trace` for every contraction, `stored_error` with the bound of C146; the three updaters of the library store the trace they accept. `stored_is_evaluated_false`: on the network of C154 one sweep leaves the amplitude 2, evaluating the same configuration gives 3"
  },
  {
   "property": "C156",
   "status": "proved",
   "theorems": [
    "QLPeps.WalkerTrunc.stored_is_last_column",
    "QLPeps.WalkerTrunc.amplitude_of_configuration",
    "QLPeps.WalkerTrunc.tnn3_reports"
   ],
   "note": "the sweep refreshes the amplitude at the start of every line, and within the last column all traces agree (C145)"
  },
  {
   "property": "C157",
   "status": "proved",
   "theorems": [
    "QLPeps.WalkerTrunc.sweep_is_lines",
    "QLPeps.WalkerTrunc.row_samples",
    "QLPeps.WalkerTrunc.col_samples"
   ],
   "note": "the distributions of different lines differ in general (C154), so a whole sweep leaves none of them invariant unless the traces agree (C105); real numbers and ideal random numbers as in C105"
  },
  {
   "property": "C158",
   "status": "proved",
   "theorems": [
    "QLPeps.GradScale.own_rescales",
    "QLPeps.GradScale.sample_own",
    "QLPeps.GradScale.run_scale_free",
    "QLPeps.GradScale.equilibrium_scale_free",
    "QLPeps.GradScale.xxz_scale_free",
    "QLPeps.GradScale.tfim_scale_free",
    "QLPeps.GradScale.exact_scale_free",
    "QLPeps.GradScale.smatrix_scale_free",
    "QLPeps.GradScale.natural_scale_free",
    "QLPeps.GradScale.minsr_scale_free"
   ],
   "note": "bosonic, two states per site, contraction without truncation; with leftover samples the component of the gradient is the difference of the plain and the binned mean energy, the same for all sites; the S-matrix and MinSR parts are about vectors whose inner product with the samples is constant, which sample_own shows of the tensors of a site; real numbers"
  },
  {
   "property": "C159",
   "status": "proved",
   "theorems": [
    "QLPeps.GradStep.sgd_step_norm",
    "QLPeps.GradStep.sgd_run_norm",
    "QLPeps.GradStep.sgd_momentum_grows",
    "QLPeps.GradStep.clip_norm_orth",
    "QLPeps.GradStep.clip_value_shrinks",
    "QLPeps.GradStep.nesterov_shrinks"
   ],
   "note": "exact real arithmetic; a site is a set of positions in the vector of all tensor elements (Model/UpdateRules)"
  },
  {
   "property": "C16",
   "status": "partial",
   "theorems": [
    "QLPeps.Configuration.C16_interrupted_dump_partial",
    "QLPeps.Configuration.C16_truncated_number_loads"
   ],
   "note": "false in general: a crash inside the last number can leave a shorter number that loads (proved witness); proved when the last site's state has one digit"
  },
  {
   "property": "C160",
   "status": "proved",
   "theorems": [
    "QLPeps.ScaleRun.amplitude_scale",
    "QLPeps.ScaleRun.walk_scale",
    "QLPeps.ScaleRun.run_scale",
    "QLPeps.ScaleRun.xxz_scale",
    "QLPeps.ScaleRun.tfim_scale"
   ],
   "note": "boundary contraction without truncation, exact real arithmetic; the walkers visit configurations of nonzero amplitude (almost sure in equilibrium)"
  },
  {
   "property": "C161",
   "status": "proved",
   "theorems": [
    "QLPeps.SRStep.sr_equation_scale",
    "QLPeps.SRStep.sr_step_scale",
    "QLPeps.SRStep.plain_step_scale",
    "QLPeps.SRStep.normalized_length",
    "QLPeps.SRStep.shift_depends",
    "QLPeps.SRStep.normalized_depends"
   ],
   "note": "exact arithmetic; the natural gradient is any exact solution of the equations (the iterates of conjugate gradient themselves are not claimed to rescale); a site is a set of positions in the vector of all tensor elements"
  },
  {
   "property": "C162",
   "status": "proved",
   "theorems": [
    "QLPeps.SRRun.cg_keeps",
    "QLPeps.SRRun.iterate_site",
    "QLPeps.SRRun.run_guess",
    "QLPeps.SRRun.first_keeps",
    "QLPeps.SRRun.later_shrinks",
    "QLPeps.SRRun.shift_bounds",
    "QLPeps.SRRun.iterate_succeeds"
   ],
   "note": "exact arithmetic, serial conjugate gradient (for the distributed one see C39 and C40); without step selector, spike recovery and normalized updates"
  },
  {
   "property": "C163",
   "status": "proved",
   "theorems": [
    "QLPeps.ScaleAll.amplitude_scale",
    "QLPeps.ScaleAll.walk_scale",
    "QLPeps.ScaleAll.run_scale",
    "QLPeps.ScaleAll.xxz_scale",
    "QLPeps.ScaleAll.tfim_scale",
    "QLPeps.ScaleAll.factor_pos",
    "QLPeps.ScaleAll.normalize_keeps"
   ],
   "note": "boundary contraction without truncation, exact real arithmetic; the walkers visit configurations of nonzero amplitude (almost sure in equilibrium); the rescaled state is written site by site and not as the state class of Model/State"
  },
  {
   "property": "C164",
   "status": "proved",
   "theorems": [
    "QLPeps.ScaleExact.energy_scale",
    "QLPeps.ScaleExact.same_of",
    "QLPeps.ScaleExact.exact_xxz",
    "QLPeps.ScaleExact.exact_triangle",
    "QLPeps.ScaleExact.exact_triangle_j1j2",
    "QLPeps.ScaleExact.exact_tfim"
   ],
   "note": "boundary contraction without truncation, exact arithmetic; real couplings"
  },
  {
   "property": "C17",
   "status": "partial",
   "theorems": [
    "QLPeps.Configuration.C17_dumped_configuration_rejected",
    "QLPeps.Configuration.C17_result_partial"
   ],
   "note": "false of the code: the file-loading constructor loads into a 0x0 configuration and therefore rejects every dumped configuration (proved for all)"
  },
  {
   "property": "C18",
   "status": "proved",
   "theorems": [
    "QLPeps.Configuration.C18_transfer"
   ],
   "note": ""
  },
  {
   "property": "C19",
   "status": "proved",
   "theorems": [
    "QLPeps.Statistics.C19_error",
    "QLPeps.Statistics.C19_bins",
    "QLPeps.Statistics.C19_mean",
    "QLPeps.Statistics.C19_mean_exact",
    "QLPeps.Statistics.C19_trailing_ignored"
   ],
   "note": "same number of samples on every rank, as documented; exact arithmetic"
  },
  {
   "property": "C20",
   "status": "proved",
   "theorems": [
    "QLPeps.Statistics.C20_definitions",
    "QLPeps.Statistics.C20_gather_single",
    "QLPeps.Statistics.C20_properties"
   ],
   "note": "real and complex data, exact arithmetic"
  },
  {
   "property": "C21",
   "status": "proved",
   "theorems": [
    "QLPeps.Statistics.C21_at_least_one",
    "QLPeps.Statistics.C21_exactly_one",
    "QLPeps.Statistics.C21_affine_invariant"
   ],
   "note": ""
  },
  {
   "property": "C22",
   "status": "proved",
   "theorems": [
    "QLPeps.Statistics.C22_average_lists",
    "QLPeps.Statistics.C22_gather_lists"
   ],
   "note": ""
  },
  {
   "property": "C23",
   "status": "proved",
   "theorems": [
    "QLPeps.Schedulers.C23_exponential",
    "QLPeps.Schedulers.C23_step",
    "QLPeps.Schedulers.C23_step_zero_undefined",
    "QLPeps.Schedulers.C23_cosine",
    "QLPeps.Schedulers.C23_warmup",
    "QLPeps.Schedulers.C23_multi_step"
   ],
   "note": "exact real arithmetic"
  },
  {
   "property": "C24",
   "status": "proved",
   "theorems": [
    "QLPeps.Schedulers.C24_at_most_one_reduction_per_patience",
    "QLPeps.Schedulers.C24_never_increases",
    "QLPeps.Schedulers.C24_reduces_exactly_at_patience",
    "QLPeps.Schedulers.C24_constant_energy"
   ],
   "note": ""
  },
  {
   "property": "C25",
   "status": "proved",
   "theorems": [
    "QLPeps.Spike.C25_mean_in_range",
    "QLPeps.Spike.C25_constant",
    "QLPeps.Spike.C25_window_zero_out_of_range",
    "QLPeps.Spike.C25_window_one"
   ],
   "note": "window 0 (accepted by the API) is refuted by C25_window_zero_out_of_range"
  },
  {
   "property": "C26",
   "status": "proved",
   "theorems": [
    "QLPeps.Spike.C26_decision",
    "QLPeps.Spike.C26_inactive_before_first_observation",
    "QLPeps.Spike.C26_signals",
    "QLPeps.Spike.C26_lower_energy_never_spikes"
   ],
   "note": ""
  },
  {
   "property": "C27",
   "status": "proved",
   "theorems": [
    "QLPeps.Optimizer.C27_result",
    "QLPeps.Optimizer.C27_accepted_is_evaluated",
    "QLPeps.Optimizer.C27_lowest_callback",
    "QLPeps.Optimizer.C27_min_is_minimum"
   ],
   "note": ""
  },
  {
   "property": "C28",
   "status": "partial",
   "theorems": [
    "QLPeps.Optimizer.C28_terminates_with_rollback_partial",
    "QLPeps.Optimizer.C28_terminates_deterministic_partial",
    "QLPeps.Optimizer.C28_livelock_every_sigma",
    "QLPeps.Optimizer.C28_livelock_deterministic"
   ],
   "note": "false in general: with rollback enabled the same iteration can be rolled back forever (C28_livelock_*); proved with rollback disabled (C67) and, with rollback, for deterministic energies exactly when (window-1)/2 <= sigma_k^2"
  },
  {
   "property": "C29",
   "status": "proved",
   "theorems": [
    "QLPeps.Optimizer.C29_states",
    "QLPeps.Optimizer.C29_resample",
    "QLPeps.Optimizer.C29_rollback",
    "QLPeps.Optimizer.C29_rollback_only_if_enabled",
    "QLPeps.Optimizer.C29_resample_below_limit"
   ],
   "note": ""
  },
  {
   "property": "C30",
   "status": "proved",
   "theorems": [
    "QLPeps.Optimizer.C30_stops_exactly"
   ],
   "note": ""
  },
  {
   "property": "C31",
   "status": "proved",
   "theorems": [
    "QLPeps.UpdateRules.C31_clip_norm",
    "QLPeps.UpdateRules.C31_clip_value",
    "QLPeps.UpdateRules.C31_both",
    "QLPeps.UpdateRules.C31_off"
   ],
   "note": "element clipping of the external tensor library is modelled by its documentation"
  },
  {
   "property": "C32",
   "status": "proved",
   "theorems": [
    "QLPeps.UpdateRules.C32_preview_agrees",
    "QLPeps.UpdateRules.C32_update_rule",
    "QLPeps.UpdateRules.C32_plain_sgd"
   ],
   "note": ""
  },
  {
   "property": "C33",
   "status": "proved",
   "theorems": [
    "QLPeps.UpdateRules.C33_accumulator",
    "QLPeps.UpdateRules.C33_step",
    "QLPeps.UpdateRules.C33_step_bounded"
   ],
   "note": "for any guarded reciprocal of the external tensor library"
  },
  {
   "property": "C34",
   "status": "proved",
   "theorems": [
    "QLPeps.UpdateRules.C34_step",
    "QLPeps.UpdateRules.C34_weights",
    "QLPeps.UpdateRules.C34_constant",
    "QLPeps.UpdateRules.C34_bounded"
   ],
   "note": ""
  },
  {
   "property": "C35",
   "status": "proved",
   "theorems": [
    "QLPeps.LBFGS.C35_memory",
    "QLPeps.LBFGS.C35_descent",
    "QLPeps.LBFGS.C35_never_resets",
    "QLPeps.LBFGS.C35_direction_norm",
    "QLPeps.LBFGS.C35_secant"
   ],
   "note": "descent for min_curvature >= 0 (default 1e-12)"
  },
  {
   "property": "C36",
   "status": "proved",
   "theorems": [
    "QLPeps.LineSearch.C36_accepted",
    "QLPeps.LineSearch.C36_deterministic",
    "QLPeps.LineSearch.C36_rejects",
    "QLPeps.LineSearch.C36_step",
    "QLPeps.LineSearch.C36_below_min_step"
   ],
   "note": "curvature condition up to tolerance_grad, as documented; C36_below_min_step shows min_step is no lower bound"
  },
  {
   "property": "C37",
   "status": "proved",
   "theorems": [
    "QLPeps.CG.C37_converged_meets_tolerance"
   ],
   "note": "exact arithmetic"
  },
  {
   "property": "C38",
   "status": "proved",
   "theorems": [
    "QLPeps.CG.C38_best_iterate"
   ],
   "note": "exact arithmetic"
  },
  {
   "property": "C39",
   "status": "proved",
   "theorems": [
    "QLPeps.CG.C39_never_stuck",
    "QLPeps.CG.C39_bounded",
    "QLPeps.CG.C39_ends_finished",
    "QLPeps.CG.C39_completes"
   ],
   "note": "for rendezvous and buffered sends alike"
  },
  {
   "property": "C40",
   "status": "proved",
   "theorems": [
    "QLPeps.CG.C40_one_reply_per_slave",
    "QLPeps.CG.C40_equals_serial",
    "QLPeps.CG.C40_arrival_order"
   ],
   "note": ""
  },
  {
   "property": "C41",
   "status": "proved",
   "theorems": [
    "QLPeps.SR.C41_apply",
    "QLPeps.SR.C41_partition_independent",
    "QLPeps.SR.C41_hermitian_and_bounded"
   ],
   "note": "exact arithmetic"
  },
  {
   "property": "C42",
   "status": "proved",
   "theorems": [
    "QLPeps.SR.C42_never_stuck",
    "QLPeps.SR.C42_bounded",
    "QLPeps.SR.C42_result",
    "QLPeps.SR.C42_each_block_once",
    "QLPeps.SR.C42_completes"
   ],
   "note": "for rendezvous and buffered sends alike"
  },
  {
   "property": "C43",
   "status": "proved",
   "theorems": [
    "QLPeps.SR.C43_centred_gram",
    "QLPeps.SR.C43_hermitian_psd_centred"
   ],
   "note": "exact arithmetic"
  },
  {
   "property": "C44",
   "status": "proved",
   "theorems": [
    "QLPeps.SR.C44_bounded",
    "QLPeps.SR.C44_cutoff",
    "QLPeps.SR.C44_hard",
    "QLPeps.SR.C44_soft",
    "QLPeps.SR.C44_zero_spectrum"
   ],
   "note": "exact arithmetic"
  },
  {
   "property": "C45",
   "status": "proved",
   "theorems": [
    "QLPeps.Statistics.C45_total_samples"
   ],
   "note": ""
  },
  {
   "property": "C46",
   "status": "proved",
   "theorems": [
    "QLPeps.C46_each_bond_once",
    "QLPeps.C46_energy_is_sum",
    "QLPeps.C46_zero_amplitude_refused",
    "QLPeps.C46_chain_undefined"
   ],
   "note": "all models of the square-lattice solver base class; single row/column lattices are undefined behaviour in the code (proved)"
  },
  {
   "property": "C47",
   "status": "proved",
   "theorems": [
    "QLPeps.C47_torus_each_bond_once",
    "QLPeps.C47_torus_energy_is_sum",
    "QLPeps.C47_width_two_counted_twice"
   ],
   "note": "sides of at least three; width two counts each pair twice (proved)"
  },
  {
   "property": "C48",
   "status": "proved",
   "theorems": [
    "QLPeps.C48_xxz_estimator",
    "QLPeps.C48_triangle_estimator",
    "QLPeps.C48_triangle_j1j2_estimator",
    "QLPeps.C48_triangle_j1j2_two_rows_undefined",
    "QLPeps.C48_torus_estimator"
   ],
   "note": "exact contraction; OBC XXZ and J1-J2, torus, triangular, triangular J1-J2"
  },
  {
   "property": "C49",
   "status": "proved",
   "theorems": [
    "QLPeps.C49_tfim_estimator",
    "QLPeps.C49_torus_tfim_estimator"
   ],
   "note": "open and periodic, given exact amplitudes for the flipped configurations; the periodic solver takes these from the TRG holes, which is wrong beyond 3x3, see C115"
  },
  {
   "property": "C50",
   "status": "proved",
   "theorems": [
    "QLPeps.Fermion.C50_hubbard_estimator",
    "QLPeps.Fermion.C50_conserves_spin_numbers",
    "QLPeps.Fermion.C50_density_and_spin",
    "QLPeps.Fermion.C50_anticommutation",
    "QLPeps.Fermion.C50_single_row_undefined"
   ],
   "note": "exact contraction in orders with the bond's sites adjacent; a single row is undefined behaviour in the code (proved)"
  },
  {
   "property": "C51",
   "status": "proved",
   "theorems": [
    "QLPeps.Fermion.C51_tJ_estimator",
    "QLPeps.Fermion.C51_tJ_pinned_estimator",
    "QLPeps.Fermion.C51_pin_accepted_iff",
    "QLPeps.Fermion.C51_pin_outside_refused"
   ],
   "note": "as C50; both diagonals of a plaquette in one order"
  },
  {
   "property": "C52",
   "status": "proved",
   "theorems": [
    "QLPeps.Fermion.C52_spinless_estimator"
   ],
   "note": "as C51"
  },
  {
   "property": "C53",
   "status": "proved",
   "theorems": [
    "QLPeps.C53_measured_energy_is_local_energy",
    "QLPeps.C53_bond_matrices",
    "QLPeps.C53_triangle_j1j2_never_measures",
    "QLPeps.Contractor.C53_triangle_j1j2_measurement_out_of_range",
    "QLPeps.Fermion.C53_fermion_measured_energy"
   ],
   "note": "true for all square-lattice solvers, bosonic and fermionic; the triangular J1-J2 measurement never returns (proved disagreement)"
  },
  {
   "property": "C54",
   "status": "partial",
   "theorems": [
    "QLPeps.Observables.C54_dump_matches_declaration_partial",
    "QLPeps.Observables.C54_triangle_structure_factor_throws"
   ],
   "note": "proved for every solver, lattice and set of samples except the triangular Heisenberg solver with the structure factor enabled, for which it is false: a zero dimension is declared and the dump throws (proved). The t-J solvers with the pair correlation on throw before anything is emitted."
  },
  {
   "property": "C55",
   "status": "proved",
   "theorems": [
    "QLPeps.Observables.C55_all_to_all_correlator",
    "QLPeps.Observables.C55_packing_is_a_numbering",
    "QLPeps.Observables.C55_packing_in_range"
   ],
   "note": "down to the dumped column"
  },
  {
   "property": "C56",
   "status": "proved",
   "theorems": [
    "QLPeps.Evaluator.C56_stripes",
    "QLPeps.Evaluator.C56_energy_and_gradient",
    "QLPeps.Evaluator.C56_process_count_irrelevant"
   ],
   "note": "bosonic branch, exact arithmetic, rendezvous sends"
  },
  {
   "property": "C57",
   "status": "proved",
   "theorems": [
    "QLPeps.Configuration.C57_permutation_configs"
   ],
   "note": ""
  },
  {
   "property": "C58",
   "status": "proved",
   "theorems": [
    "QLPeps.Configuration.C58_binary_configs",
    "QLPeps.Configuration.C58_too_large_throws"
   ],
   "note": ""
  },
  {
   "property": "C59",
   "status": "partial",
   "theorems": [
    "QLPeps.Evaluator.C59_covariance_partial",
    "QLPeps.Evaluator.C59_general",
    "QLPeps.Evaluator.C59_shift_invariant",
    "QLPeps.Evaluator.C59_not_covariance"
   ],
   "note": "covariance when the sample count is a multiple of the bin size; otherwise false (proved): the samples outside complete bins enter one average and not the other"
  },
  {
   "property": "C60",
   "status": "proved",
   "theorems": [
    "QLPeps.Statistics.C60_trg_sizes"
   ],
   "note": ""
  },
  {
   "property": "C61",
   "status": "proved",
   "theorems": [
    "QLPeps.SuwaTodo.C61_rejection_free"
   ],
   "note": ""
  },
  {
   "property": "C62",
   "status": "proved",
   "theorems": [
    "QLPeps.Updaters.C62_amplitude_consistent_exchange",
    "QLPeps.Updaters.C62_amplitude_consistent_suwa_todo"
   ],
   "note": "trial traces exact"
  },
  {
   "property": "C63",
   "status": "proved",
   "theorems": [
    "QLPeps.Updaters.C63_exchange_stationary",
    "QLPeps.Updaters.C63_full_space_stationary",
    "QLPeps.Updaters.C63_hubbard_stationary",
    "QLPeps.Updaters.C63_three_site_stationary",
    "QLPeps.Updaters.C63_sweep_stationary"
   ],
   "note": "trial traces exact; random numbers independent and uniform"
  },
  {
   "property": "C64",
   "status": "proved",
   "theorems": [
    "QLPeps.Configuration.C64_iteration_complete",
    "QLPeps.Configuration.C64_zero_columns_visits_outside"
   ],
   "note": ""
  },
  {
   "property": "C65",
   "status": "proved",
   "theorems": [
    "QLPeps.Jastrow.C65_density_in_sync"
   ],
   "note": ""
  },
  {
   "property": "C66",
   "status": "proved",
   "theorems": [
    "QLPeps.Optimizer.C66_schedule",
    "QLPeps.Optimizer.C66_saved_state_is_next_evaluated"
   ],
   "note": ""
  },
  {
   "property": "C67",
   "status": "proved",
   "theorems": [
    "QLPeps.Optimizer.C67_terminates_without_rollback"
   ],
   "note": ""
  },
  {
   "property": "C68",
   "status": "proved",
   "theorems": [
    "QLPeps.Selector.C68_initial",
    "QLPeps.Selector.C68_periodic",
    "QLPeps.Selector.C68_untriggered",
    "QLPeps.Selector.C68_never_increases",
    "QLPeps.Selector.C68_sgd_initial",
    "QLPeps.Selector.C68_valid"
   ],
   "note": ""
  },
  {
   "property": "C69",
   "status": "proved",
   "theorems": [
    "QLPeps.CG.C69_positive_definite",
    "QLPeps.CG.C69_semidefinite"
   ],
   "note": "exact arithmetic"
  },
  {
   "property": "C70",
   "status": "proved",
   "theorems": [
    "QLPeps.SR.C70_descent",
    "QLPeps.SR.C70_solves_sr"
   ],
   "note": "LAPACK is an oracle returning an orthonormal eigenbasis"
  },
  {
   "property": "C71",
   "status": "proved",
   "theorems": [
    "QLPeps.SR.C71_sr_never_aborts"
   ],
   "note": "exact arithmetic, gradient with the sample-mean energy"
  },
  {
   "property": "C72",
   "status": "proved",
   "theorems": [
    "QLPeps.Evaluator.C72_gradient_is_derivative"
   ],
   "note": "exact contraction, exact arithmetic"
  },
  {
   "property": "C73",
   "status": "proved",
   "theorems": [
    "QLPeps.Evaluator.C73_exact_measurement",
    "QLPeps.Evaluator.C73_empty_refused"
   ],
   "note": "exact arithmetic"
  },
  {
   "property": "C74",
   "status": "proved",
   "theorems": [
    "QLPeps.Observables.C74_all_pairs_listed_once",
    "QLPeps.Observables.C74_selected_pairs",
    "QLPeps.Observables.C74_length_is_declared"
   ],
   "note": ""
  },
  {
   "property": "C75",
   "status": "proved",
   "theorems": [
    "QLPeps.Observables.C75_one_hot",
    "QLPeps.Observables.C75_histogram_is_a_distribution"
   ],
   "note": ""
  },
  {
   "property": "C76",
   "status": "proved",
   "theorems": [
    "QLPeps.Contractor.C76_three_site_sweeps_use_current_amplitudes",
    "QLPeps.Contractor.C76_covers_the_updater",
    "QLPeps.Contractor.C76_triple_amplitude_covers_every_site_once",
    "QLPeps.Contractor.C76_short_lines_out_of_range"
   ],
   "note": "with fewer than three rows or columns out of range (proved)"
  },
  {
   "property": "C77",
   "status": "proved",
   "theorems": [
    "QLPeps.Contractor.C77_traversal_sees_current_amplitudes",
    "QLPeps.Contractor.C77_every_bond_exactly_once",
    "QLPeps.Contractor.C77_amplitudes_cover_every_site_once",
    "QLPeps.Contractor.C77_single_line_fails"
   ],
   "note": "arbitrary contractions; links of length sqrt(5) need three rows; a single row or column fails (proved)"
  },
  {
   "property": "C78",
   "status": "proved",
   "theorems": [
    "QLPeps.State.C78_state_arithmetic_is_linear",
    "QLPeps.State.C78_inner_product_and_norm",
    "QLPeps.State.C78_norm_is_self_inner_product"
   ],
   "note": "states with the same number of components at every site"
  },
  {
   "property": "C79",
   "status": "partial",
   "theorems": [
    "QLPeps.State.C79_in_place_keeps_boundary_partial",
    "QLPeps.State.C79_out_of_place_forgets_boundary"
   ],
   "note": "true of +=, *= and the site rescalings; false of +, -, unary -, scalar * and -=, which return a state marked open (proved for every periodic operand)"
  },
  {
   "property": "C80",
   "status": "proved",
   "theorems": [
    "QLPeps.State.C80_normalize_site",
    "QLPeps.State.C80_normalize_all",
    "QLPeps.State.C80_scale_max_abs_all",
    "QLPeps.State.C80_normalize_order_one",
    "QLPeps.State.exact_contraction_homogeneous"
   ],
   "note": "exact arithmetic; amplitude homogeneous in each site tensor, proved for the exact contraction"
  },
  {
   "property": "C81",
   "status": "proved",
   "theorems": [
    "QLPeps.State.C81_startup_ranks_valid",
    "QLPeps.State.C81_startup_succeeds_iff"
   ],
   "note": "the construction of the wave function is a deterministic function of the configuration on all ranks (same state, same truncation parameters)"
  },
  {
   "property": "C82",
   "status": "partial",
   "theorems": [
    "QLPeps.State.C82_dump_load_partial",
    "QLPeps.State.C82_interrupted_dump_partial",
    "QLPeps.State.C82_interrupted_dump_loses_boundary",
    "QLPeps.State.C82_interrupted_dump_loses_components",
    "QLPeps.State.C82_interrupted_overwrite_loads_a_mixture",
    "QLPeps.State.C82_failed_write_unnoticed",
    "QLPeps.State.C82_nonuniform_components_lost",
    "QLPeps.State.C82_successful_load_read_everything"
   ],
   "note": "completed dumps round-trip; interrupted dumps are safe for open-boundary states with fewer than ten components into a directory without metadata. False otherwise (proved): truncated metadata lose the boundary condition or components, overwriting an older dump loads as a mixture, failing tensor writes go unnoticed"
  },
  {
   "property": "C83",
   "status": "proved",
   "theorems": [
    "QLPeps.State.C83_send_receive",
    "QLPeps.State.C83_broadcast",
    "QLPeps.State.C83_nonuniform_desynchronises"
   ],
   "note": "tensor serialisation of the library assumed lossless; sites with differing numbers of components desynchronise (proved)"
  },
  {
   "property": "C84",
   "status": "proved",
   "theorems": [
    "QLPeps.SimpleUpdate.C84_sweep_adds_up",
    "QLPeps.SimpleUpdate.C84_sweep_without_onsite",
    "QLPeps.SimpleUpdate.C84_each_bond_once",
    "QLPeps.SimpleUpdate.C84_chain_underweighted"
   ],
   "note": "bosonic tensors, exact field arithmetic. On one-row chains the on-site terms are underweighted, and all on-site terms are ignored when site (0,0) has none (both proved)"
  },
  {
   "property": "C85",
   "status": "partial",
   "theorems": [
    "QLPeps.SimpleUpdate.C85_sweep_adds_up_partial",
    "QLPeps.SimpleUpdate.C85_sweep_without_onsite",
    "QLPeps.SimpleUpdate.C85_sweep_with_onsite",
    "QLPeps.SimpleUpdate.C85_torus_uniform_onsite",
    "QLPeps.SimpleUpdate.C85_open_onsite_misweighted"
   ],
   "note": "true without on-site terms for two-site terms symmetric under exchange, and on tori with uniform on-site terms. False otherwise (proved): the lower-left triangle takes the on-site term of the wrong corner, and the antisymmetric part of the two-site term is lost on horizontal bonds; the exact sum is given in general"
  },
  {
   "property": "C86",
   "status": "proved",
   "theorems": [
    "QLPeps.SimpleUpdate.C86_half_sweeps_cover",
    "QLPeps.SimpleUpdate.C86_wrap_bonds_never_updated"
   ],
   "note": "on a periodic PEPS the bonds closing the torus are never updated (proved)"
  },
  {
   "property": "C87",
   "status": "proved",
   "theorems": [
    "QLPeps.SimpleUpdate.C87_every_plaquette_once",
    "QLPeps.SimpleUpdate.C87_pass_is_disjoint"
   ],
   "note": ""
  },
  {
   "property": "C88",
   "status": "proved",
   "theorems": [
    "QLPeps.UpdateLoop.C88_stops_at_first_convergence",
    "QLPeps.UpdateLoop.C88_otherwise_runs_all_steps",
    "QLPeps.UpdateLoop.C88_converged_iff",
    "QLPeps.UpdateLoop.C88_metrics_describe_the_sweeps",
    "QLPeps.UpdateLoop.C88_final_energies",
    "QLPeps.UpdateLoop.C88_invalid_config_throws",
    "QLPeps.UpdateLoop.C88_nan_energy_never_converges",
    "QLPeps.UpdateLoop.C88_nan_weights_converge",
    "QLPeps.UpdateLoop.C88_dimension_change_missed"
   ],
   "note": "sweeps are arbitrary reports; reals or NaN. Found and proved: NaN weights do not prevent convergence, bond_dim_changed misses changes that keep the extreme dimensions, a refused configuration still erases the previous run's records"
  },
  {
   "property": "C89",
   "status": "proved",
   "theorems": [
    "QLPeps.Taylor.C89_gate_is_taylor_polynomial",
    "QLPeps.Taylor.C89_gate_is_exponential",
    "QLPeps.Taylor.C89_zero_hamiltonian"
   ],
   "note": "bosonic tensors, exact arithmetic; Frobenius norm"
  },
  {
   "property": "C90",
   "status": "partial",
   "theorems": [
    "QLPeps.Tps.C90_wave_unique",
    "QLPeps.Tps.C90_sum_is_superposition",
    "QLPeps.Tps.C90_bond_dimensions",
    "QLPeps.Tps.C90_weighted_sum_exact",
    "QLPeps.Tps.C90_weighted_sum_partial",
    "QLPeps.Tps.C90_difference_becomes_double",
    "QLPeps.Tps.C90_complex_phases_lost",
    "QLPeps.Tps.C90_list_sum",
    "QLPeps.Tps.C90_weighted_list_sum_partial",
    "QLPeps.Tps.C90_single_state_sign_lost"
   ],
   "note": "bosonic tensors; the unweighted sums are proved in full. The weighted sum as documented is false: with an even number of sites the sign of a real coefficient is lost (psi - psi gives 2 psi), complex phases are always lost, a one-element list always loses the sign; proved for non-negative coefficients or an odd number of sites, and the exact value in every case"
  },
  {
   "property": "C91",
   "status": "proved",
   "theorems": [
    "QLPeps.Peps.C91_projection_applies_gate"
   ],
   "note": "bosonic tensors, exact arithmetic; QR and SVD are parameters that reproduce their argument (SVD when it reports no truncation)"
  },
  {
   "property": "C92",
   "status": "proved",
   "theorems": [
    "QLPeps.Peps.C92_history_of_projections"
   ],
   "note": "as C91; the norms may be zero or not, the statement is multiplied out"
  },
  {
   "property": "C93",
   "status": "proved",
   "theorems": [
    "QLPeps.Peps.C93_energy_within_spectrum",
    "QLPeps.Peps.C93_no_hamiltonian_no_energy"
   ],
   "note": "bosonic tensors, exact arithmetic; the norm of the projected tensor is assumed not zero (in C++ it would be NaN)"
  },
  {
   "property": "C94",
   "status": "proved",
   "theorems": [
    "QLPeps.Peps.C94_same_wave_function",
    "QLPeps.Peps.C94_conversion_exact",
    "QLPeps.Peps.C94_exits_iff_negative"
   ],
   "note": "bosonic tensors, exact arithmetic"
  },
  {
   "property": "C95",
   "status": "proved",
   "theorems": [
    "QLPeps.Peps.C95_initial_is_product_state",
    "QLPeps.Peps.C95_charges_match",
    "QLPeps.Peps.C95_charge_conserved",
    "QLPeps.Peps.C95_outer_charges"
   ],
   "note": "charges in any commutative group"
  },
  {
   "property": "C96",
   "status": "proved",
   "theorems": [
    "QLPeps.Peps.C96_conversion_never_exits",
    "QLPeps.Peps.C96_workflow",
    "QLPeps.Peps.C96_projection_keeps_convertible"
   ],
   "note": "bosonic tensors, exact arithmetic; the SVD is a parameter whose singular values are not negative"
  },
  {
   "property": "C97",
   "status": "partial",
   "theorems": [
    "QLPeps.PepsIO.C97_round_trip",
    "QLPeps.PepsIO.C97_dump_reports",
    "QLPeps.PepsIO.C97_load_exact",
    "QLPeps.PepsIO.C97_release_and_restore",
    "QLPeps.PepsIO.C97_directories_independent",
    "QLPeps.PepsIO.C97_const_dump_is_not_loaded",
    "QLPeps.PepsIO.C97_const_dump_round_trip_partial",
    "QLPeps.PepsIO.C97_dump_after_release_destroys",
    "QLPeps.PepsIO.C97_size_is_not_checked"
   ],
   "note": "proved for objects that are not constant; for a constant PEPS the claim is false (Dump const omits the slash), which is proved too, with the round trip for paths ending in a slash. Writing one file is one step; serialisation of a tensor is a parameter"
  },
  {
   "property": "C98",
   "status": "proved",
   "theorems": [
    "QLPeps.PepsIO.C98_round_trip",
    "QLPeps.PepsIO.C98_unreported_failure"
   ],
   "note": "serialisation of a tensor is a parameter; numbers of rows and columns below 2^64"
  },
  {
   "property": "C99",
   "status": "proved",
   "theorems": [
    "QLPeps.Bmps.C99_bond_trace_exact",
    "QLPeps.Bmps.C99_triple_trace_exact",
    "QLPeps.Bmps.C99_one_site_trace_exact",
    "QLPeps.Bmps.C99_hole_exact",
    "QLPeps.Bmps.C99_initial_amplitude_exact",
    "QLPeps.Bmps.C99_sweeps_exact",
    "QLPeps.Bmps.C99_three_site_sweeps_exact",
    "QLPeps.Bmps.C99_combine_total",
    "QLPeps.Bmps.C99_combine_isometry"
   ],
   "note": "bosonic tensors, compression scheme SVD_COMPRESS (the only one used for boundary MPS of two tensors); QR and SVD are parameters of which only exactness is assumed; the variational schemes and fermionic branches are not modelled"
  }
 ]
}