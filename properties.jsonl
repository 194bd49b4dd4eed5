{"id": "C01", "title": "Suwa-Todo update leaves the target distribution invariant", "statement": "For one call of SuwaTodoStateUpdate with candidate weights w, if the current state is i with probability proportional to w_i and the random number is uniform, then the returned state is j with probability proportional to w_j (global balance). Equivalently the total probability flow into every state equals its weight.", "quantifier": "every nonempty list of nonnegative real weights with positive sum, every state j", "why_tests_cant": "A test can only compare empirical histograms for a few weight lists; invariance is an exact identity for every weight vector of every length, including ties for the largest weight and zero weights.", "anchors": ["include/qlpeps/vmc_basic/configuration_update_strategies/../monte_carlo_tools/suwa_todo_update.h:SuwaTodoStateUpdate"]}
{"id": "C02", "title": "Suwa-Todo never returns an out-of-range or zero-weight state", "statement": "If the current state has positive weight, then for every random number in [0,1) the state returned by SuwaTodoStateUpdate is a valid index into the weight list and has positive weight; in exact arithmetic the returned cumulative interval always contains the drawn point.", "quantifier": "every weight list, every current state of positive weight, every random number in [0,1)", "why_tests_cant": "The failing random numbers, if any, are boundary points of measure zero that sampling tests do not hit.", "anchors": ["include/qlpeps/vmc_basic/monte_carlo_tools/suwa_todo_update.h:SuwaTodoStateUpdate"]}
{"id": "C03", "title": "Suwa-Todo is invariant under rescaling of the weights", "statement": "Multiplying all weights by the same positive factor (the updaters divide by the largest amplitude) does not change which state SuwaTodoStateUpdate returns for the same random number.", "quantifier": "every weight list, every positive factor, every current state, every random number", "why_tests_cant": "It is a universally quantified algebraic identity over real inputs.", "anchors": ["include/qlpeps/vmc_basic/monte_carlo_tools/suwa_todo_update.h:SuwaTodoStateUpdate", "include/qlpeps/vmc_basic/configuration_update_strategies/square_3site_updater.h:TNN3SiteExchange", "include/qlpeps/vmc_basic/configuration_update_strategies/square_nn_updater.h:FullSpaceUpdateOBC"]}
{"id": "C04", "title": "Metropolis exchange step satisfies detailed balance with respect to |psi|^2", "statement": "The exchange updaters accept a proposed swap with probability min(1,|psi_b/psi_a|^2): |psi_a|^2 P(a->b) = |psi_b|^2 P(b->a) for every pair of nonzero amplitudes, and a swap of equal local states is never counted as accepted.", "quantifier": "all pairs of nonzero amplitudes and all uniform random numbers", "why_tests_cant": "An equality of probabilities over a continuum of amplitudes cannot be established by sampling.", "anchors": ["include/qlpeps/vmc_basic/configuration_update_strategies/square_nn_updater.h:MCUpdateSquareNNExchange", "include/qlpeps/vmc_basic/wave_function_component.h:TPSWaveFunctionComponent"]}
{"id": "C05", "title": "Exchange sweeps conserve the number of sites in every local state", "statement": "A full sweep of the nearest-neighbour exchange updater (open or periodic) or of the three-site exchange updater leaves the number of sites carrying each local state unchanged, whatever amplitudes the contractor returns and whatever random numbers are drawn.", "quantifier": "every lattice size, every initial configuration, every amplitude oracle (including NaN/garbage values) and every random stream", "why_tests_cant": "Conservation must hold along every one of exponentially many accept/reject histories.", "anchors": ["include/qlpeps/vmc_basic/configuration_update_strategies/square_nn_updater.h:MCUpdateSquareNNExchangeOBC", "include/qlpeps/vmc_basic/configuration_update_strategies/square_nn_updater.h:MCUpdateSquareNNExchangePBC", "include/qlpeps/vmc_basic/configuration_update_strategies/square_3site_updater.h:MCUpdateSquareTNN3SiteExchange"]}
{"id": "C06", "title": "Hubbard U(1)xU(1) update conserves N_up and N_down and its candidate set is complete", "statement": "The two-site Hubbard updater proposes exactly the two-site states having the same number of up and of down electrons as the current pair; hence every sweep conserves total N_up and N_down, and the proposal relation is symmetric.", "quantifier": "every lattice size, configuration, amplitude oracle and random stream; every pair of local states", "why_tests_cant": "Completeness and conservation quantify over all histories; a sampling test would not notice a missing candidate.", "anchors": ["include/qlpeps/vmc_basic/configuration_update_strategies/square_hubbard_u1u1_updater.h:EnumerateHubbardTwoSiteConfigsWithU1U1", "include/qlpeps/vmc_basic/configuration_update_strategies/square_hubbard_u1u1_updater.h:HubbardConfig2SpinCounts"]}
{"id": "C07", "title": "Full-space two-site update encodes and decodes local states without loss", "statement": "The full-space updater maps a pair of local states to one index and back bijectively; after any sweep every site state is smaller than the physical dimension, for every physical dimension >= 1.", "quantifier": "every physical dimension, every pair of local states, every random stream", "why_tests_cant": "The physical dimension and the history of updates are unbounded.", "anchors": ["include/qlpeps/vmc_basic/configuration_update_strategies/square_nn_updater.h:MCUpdateSquareNNFullSpaceUpdateOBC"]}
{"id": "C08", "title": "An open-boundary sweep attempts every nearest-neighbour bond exactly once", "statement": "In one open-boundary nearest-neighbour sweep every nearest-neighbour bond of the rows x cols lattice is attempted exactly once and no other pair of sites is attempted; the number of attempts equals rows*(cols-1)+cols*(rows-1), so the reported acceptance rate lies in [0,1].", "quantifier": "every lattice size", "why_tests_cant": "Lattice size is unbounded.", "anchors": ["include/qlpeps/vmc_basic/configuration_update_strategies/square_nn_updater.h:MCUpdateSquareNNUpdateBaseOBC"]}
{"id": "C09", "title": "Amplitudes used during a sweep are those of the current configuration", "statement": "During an open-boundary nearest-neighbour sweep every amplitude requested from the boundary-MPS contractor is assembled from environments that together cover each lattice site exactly once with the tensor selected by the current configuration (except the two sites being replaced); no cached environment is stale or out of range, whatever updates were accepted before.", "quantifier": "every lattice with at least 2 rows and 2 columns, every sequence of accept/reject outcomes and chosen local states", "why_tests_cant": "Staleness depends on the interleaving of accepted moves and cached environments; the number of histories is exponential.", "anchors": ["include/qlpeps/two_dim_tn/tensor_network_2d/bmps/bmps_contractor.h:BMPSContractor", "include/qlpeps/two_dim_tn/tensor_network_2d/bmps/impl/bmps_contractor_grow.h:ShiftBMPSWindow", "include/qlpeps/two_dim_tn/tensor_network_2d/bmps/impl/bmps_contractor_trace.h:EraseEnvsAfterUpdate", "include/qlpeps/vmc_basic/configuration_update_strategies/square_nn_updater.h:MCUpdateSquareNNUpdateBaseOBC"]}
{"id": "C10", "title": "Local updates invalidate every dependent boundary-MPS environment", "statement": "After a local tensor change at a site and the accompanying EraseEnvsAfterUpdate, every boundary MPS still cached in any of the four directions equals the one that would be computed from scratch from the current tensors; environments not containing the site are kept.", "quantifier": "every lattice size, site, cache fill level and history of grow/shift/update operations, every (possibly truncating) absorption function", "why_tests_cant": "Cache state space is unbounded; a stale entry gives plausible but wrong numbers.", "anchors": ["include/qlpeps/two_dim_tn/tensor_network_2d/bmps/impl/bmps_contractor_trace.h:EraseEnvsAfterUpdate", "include/qlpeps/two_dim_tn/tensor_network_2d/bmps/impl/bmps_contractor_grow.h:GrowBMPSStep", "include/qlpeps/two_dim_tn/tensor_network_2d/bmps/impl/bmps_contractor_grow.h:GrowBMPSForRow"]}
{"id": "C11", "title": "Row traversal of environments stays in range and terminates with the documented stack heights", "statement": "GenerateBMPSApproach(UP) followed by one ShiftBMPSWindow(DOWN) per remaining row visits every row exactly once; at each row the UP stack holds exactly the rows above and the DOWN stack exactly the rows below, and afterwards the DOWN stack holds only its boundary layer.", "quantifier": "every number of rows and columns, every starting cache state with nonempty stacks", "why_tests_cant": "Heights and cache states are unbounded.", "anchors": ["include/qlpeps/two_dim_tn/tensor_network_2d/bmps/impl/bmps_contractor_grow.h:GenerateBMPSApproach", "include/qlpeps/algorithm/vmc_update/model_solvers/base/bond_traversal_mixin.h:BondTraversalMixin"]}
{"id": "C12", "title": "Jastrow couplings are stored and read back symmetrically without aliasing", "statement": "Setting v(i,j) changes exactly the coupling of the unordered pair {i,j}: a later read of (i,j) or (j,i) returns the value set and reads of all other pairs are unchanged; the packed index of every valid pair is inside the allocated storage.", "quantifier": "every number of sites and every pair of distinct sites", "why_tests_cant": "Injectivity of a packed index must hold for every size.", "anchors": ["include/qlpeps/vmc_basic/jastrow_factor.h:JastrowFactor"]}
{"id": "C13", "title": "Jastrow-dressed exchange uses the true ratio of Jastrow factors", "statement": "When a Jastrow-dressed tJ exchange swaps a particle and a hole, the factor multiplying the tensor-network amplitude ratio equals exp(J(new)-J(old)) of the Jastrow exponent defined by the class.", "quantifier": "every coupling matrix, configuration and exchanged pair", "why_tests_cant": "The defect only appears for couplings between the two exchanged sites; histogram tests with small couplings do not resolve it.", "anchors": ["include/qlpeps/vmc_basic/configuration_update_strategies/square_nn_updater.h:MCUpdateSquareNNExchangeJastrowDressedTJ", "include/qlpeps/vmc_basic/jastrow_factor.h:JastrowFieldAtSite", "include/qlpeps/algorithm/vmc_update/model_solvers/square_tJ_model.h:EvaluateBondEnergy"]}
{"id": "C14", "title": "Random configuration with prescribed occupancy has exactly that occupancy", "statement": "Configuration::Random(occupancy) either throws, when the occupancies do not sum to the number of sites, or yields a configuration in which local state s occurs exactly occupancy[s] times; CountOccupancy recovers the occupancies (up to trailing zeros).", "quantifier": "every lattice size and shuffle permutation, every occupancy list whose sum fits in 64 bits", "why_tests_cant": "All permutations and all sizes must be covered.", "anchors": ["include/qlpeps/vmc_basic/configuration.h:Configuration::Random", "include/qlpeps/vmc_basic/configuration.h:Configuration::CountOccupancy"]}
{"id": "C15", "title": "Dumped configurations load back unchanged and wrong shapes are refused", "statement": "Loading a dumped configuration into an object of the same shape returns true and reproduces every site; when the shape sidecar is present and differs from the object's shape Load returns false.", "quantifier": "every shape with at least one row and column, every configuration", "why_tests_cant": "Roundtrip of a text format over unbounded contents.", "anchors": ["include/qlpeps/vmc_basic/configuration.h:Configuration::Dump", "include/qlpeps/vmc_basic/configuration.h:Configuration::Load", "include/qlpeps/vmc_basic/configuration.h:StreamWrite", "include/qlpeps/vmc_basic/configuration.h:StreamRead"]}
{"id": "C16", "title": "An interrupted configuration dump never loads as a wrong configuration of the right shape", "statement": "If the process dies between or during the writes of Dump, a later Load into the dumped shape either fails or returns exactly the dumped configuration or the configuration previously stored.", "quantifier": "every crash point during the dump, every previous content of the files", "why_tests_cant": "Crash points cannot be enumerated by unit tests.", "anchors": ["include/qlpeps/vmc_basic/configuration.h:Configuration::Dump", "include/qlpeps/vmc_basic/configuration.h:Configuration::Load"]}
{"id": "C17", "title": "Monte Carlo parameters can be built from a dumped configuration", "statement": "Constructing MonteCarloParams with a configuration path that was written by Configuration::Dump yields parameters whose initial configuration is the dumped one.", "quantifier": "every dumped configuration", "why_tests_cant": "The statement ranges over all dumped files; the failing case depends on the default-constructed shape.", "anchors": ["include/qlpeps/algorithm/vmc_update/monte_carlo_peps_params.h:MonteCarloParams"]}
{"id": "C18", "title": "Sending a configuration to another process preserves it", "statement": "Flattening a configuration for MPI transfer and rebuilding it on the receiving side reproduces every site.", "quantifier": "every shape and configuration", "why_tests_cant": "Row-major index arithmetic must be right for all shapes, not the square ones tested.", "anchors": ["include/qlpeps/vmc_basic/configuration.h:MPI_Send", "include/qlpeps/vmc_basic/configuration.h:MPI_BCast"]}
{"id": "C19", "title": "Binned mean partitions the samples and equals the plain mean when bins divide the data", "statement": "MeanAndBinnedErrorSqrtNUniformBin uses floor(sqrt N) sized disjoint consecutive bins, drops fewer than one bin of trailing samples, and when the bin size divides the number of samples its mean equals the arithmetic mean of all samples of all ranks; otherwise the trailing samples have no influence.", "quantifier": "every number of ranks and samples, every sample value", "why_tests_cant": "Holds for all lengths; tests choose perfect squares.", "anchors": ["include/qlpeps/vmc_basic/monte_carlo_tools/statistics.h:MeanAndBinnedErrorSqrtNUniformBin"]}
{"id": "C20", "title": "Rank statistics: variance is the population variance, errors are nonnegative and the result does not depend on rank order", "statement": "Variance/StandardError and the gathered mean/error over ranks compute the population variance and its square root over n-1, are nonnegative, vanish on constant data, are shift invariant and independent of the order of the ranks.", "quantifier": "every list of real samples and every permutation of ranks", "why_tests_cant": "Algebraic identities over all data.", "anchors": ["include/qlpeps/vmc_basic/monte_carlo_tools/statistics.h:Variance", "include/qlpeps/vmc_basic/monte_carlo_tools/statistics.h:StandardError", "include/qlpeps/vmc_basic/monte_carlo_tools/statistics.h:GatherStatisticSingleData"]}
{"id": "C21", "title": "The autocorrelation inflation factor is at least one and never reads out of range", "statement": "IPSInflationFactor returns a value >= 1 for every input, returns exactly 1 for fewer than 3 samples or nonpositive variance, and only uses lags smaller than the number of samples.", "quantifier": "every series of real samples", "why_tests_cant": "All series lengths and values.", "anchors": ["include/qlpeps/vmc_basic/monte_carlo_tools/statistics.h:IPSInflationFactor"]}
{"id": "C22", "title": "Averaging lists of observables is entrywise and independent of how samples are ordered", "statement": "AveListOfData and GatherStatisticListOfData return, in entry k, the mean over samples (ranks) of entry k; reordering samples does not change the result.", "quantifier": "every number of samples, every list length", "why_tests_cant": "Transposition errors only show for non-square data.", "anchors": ["include/qlpeps/vmc_basic/monte_carlo_tools/statistics.h:AveListOfData", "include/qlpeps/vmc_basic/monte_carlo_tools/statistics.h:GatherStatisticListOfData"]}
{"id": "C23", "title": "Learning-rate schedules stay inside their documented range and decay monotonically", "statement": "For admissible parameters the exponential, step, multi-step and cosine schedules return a rate between 0 (or the minimum) and the initial rate that never increases with the iteration; the warm-up schedule rises linearly to the base rate and stays there.", "quantifier": "every iteration number and every admissible parameter set", "why_tests_cant": "Iteration numbers are unbounded.", "anchors": ["include/qlpeps/optimizer/lr_schedulers.h"]}
{"id": "C24", "title": "Plateau schedule only reduces the rate after patience bad reports and never raises it", "statement": "After any sequence of reported energies the plateau scheduler's rate is initial*factor^k, where each of the k reductions required `patience` consecutive reports that did not improve the reference energy by more than the threshold, so k*patience is at most the number of reports; for factor at most 1 the rate never increases; a report sequence that never improves reduces exactly at every multiple of patience.", "quantifier": "every sequence of reported energies", "why_tests_cant": "Quantifies over all histories.", "anchors": ["include/qlpeps/optimizer/lr_schedulers.h:PlateauLR"]}
{"id": "C25", "title": "Exponential moving statistics stay within the observed range", "statement": "After any nonempty sequence of finite observations the tracker's mean lies between the smallest and largest observation and its variance is nonnegative; constant input gives that constant and zero variance (window >= 1).", "quantifier": "every window >= 1 and every observation sequence", "why_tests_cant": "All histories.", "anchors": ["include/qlpeps/optimizer/spike_detection.h:EMATracker"]}
{"id": "C26", "title": "Spike handling makes the documented decision", "statement": "The decision for a detected spike depends only on the documented inputs: no signal gives accept; below the retry limit resample; at the limit rollback if enabled and possible, otherwise accept with warning; an upward energy spike (S4) always asks for a rollback; detection is inactive until the first observation, needs an upward deviation with positive spread for S4, and a non-finite (unordered) value never raises S1, S2 or S4.", "quantifier": "all signal kinds, retry counters, limits, flags and tracker states (including NaN comparisons)", "why_tests_cant": "Combinatorial input space over unbounded counters.", "anchors": ["include/qlpeps/optimizer/optimizer_impl.h:DecideAction_", "include/qlpeps/optimizer/optimizer_impl.h:DetectS1S2_", "include/qlpeps/optimizer/optimizer_impl.h:DetectS3_", "include/qlpeps/optimizer/optimizer_impl.h:DetectS4_"]}
{"id": "C27", "title": "Optimization result is consistent with its trajectory", "statement": "On return the number of recorded energies, errors and gradient norms equals the number of completed iterations, which is at most max_iterations; the reported minimum energy is the minimum of the trajectory, the reported lowest state is the state whose evaluation produced it, and the final energy is the last recorded one.", "quantifier": "every evaluator behaviour, update rule, early-stop criterion and spike history", "why_tests_cant": "Loop with retries and rollbacks over unbounded histories.", "anchors": ["include/qlpeps/optimizer/optimizer_impl.h:IterativeOptimize"]}
{"id": "C28", "title": "The optimizer terminates", "statement": "IterativeOptimize performs a bounded number of evaluator calls for every evaluator: at most max_iterations times a constant depending on the retry limit.", "quantifier": "every evaluator (energies, gradients, errors), every spike-recovery setting", "why_tests_cant": "Non-termination cannot be observed by a finite test.", "anchors": ["include/qlpeps/optimizer/optimizer_impl.h:IterativeOptimize"]}
{"id": "C29", "title": "Resample retries leave the variational state untouched and rollback restores the last accepted state", "statement": "When a step is rejected for resampling the state passed to the next evaluation is the same state; after a rollback the next evaluation receives the state that was current before the last accepted update.", "quantifier": "every spike history", "why_tests_cant": "All interleavings of accepts, resamples and rollbacks.", "anchors": ["include/qlpeps/optimizer/optimizer_impl.h:IterativeOptimize"]}
{"id": "C30", "title": "Stopping criteria fire exactly as documented", "statement": "With criteria set, the loop stops exactly when iteration count, gradient norm tolerance, energy tolerance or plateau patience condition holds; plateau stopping needs `patience` consecutive non-improving iterations.", "quantifier": "every energy and gradient-norm history", "why_tests_cant": "All histories.", "anchors": ["include/qlpeps/optimizer/optimizer_impl.h:ShouldStop"]}
{"id": "C31", "title": "Gradient clipping bounds the gradient without changing its direction", "statement": "Norm clipping leaves gradients with norm <= c unchanged and scales others to norm exactly c with the same direction; value clipping bounds every component by its limit and leaves smaller components unchanged.", "quantifier": "every gradient vector and limit", "why_tests_cant": "Continuum of inputs.", "anchors": ["include/qlpeps/optimizer/optimizer_impl.h:IterativeOptimize"]}
{"id": "C32", "title": "SGD update rule and its preview agree and preview does not mutate", "statement": "SGDPreviewUpdate returns the state that SGDUpdate would produce and leaves the velocity unchanged; with momentum 0 the update is theta - lr*grad (weight decay included).", "quantifier": "every state, gradient, velocity and hyper-parameters", "why_tests_cant": "Universally quantified identity.", "anchors": ["include/qlpeps/optimizer/optimizer_impl.h:SGDUpdate", "include/qlpeps/optimizer/optimizer_impl.h:SGDPreviewUpdate_"]}
{"id": "C33", "title": "AdaGrad accumulators never decrease and every step is bounded by the learning rate", "statement": "After any gradient history the AdaGrad accumulator is the initial value plus the sum of squared magnitudes; each component of each step has magnitude at most the learning rate.", "quantifier": "every gradient history, learning rate, epsilon >= 0", "why_tests_cant": "All histories.", "anchors": ["include/qlpeps/optimizer/optimizer_impl.h:AdaGradUpdate"]}
{"id": "C34", "title": "Adam moments are bounded by the gradient range and bias correction is exact for constant gradients", "statement": "For gradients bounded by G the first moment stays within G and the second within G^2; for a constant gradient the bias corrected moments equal the gradient and its square at every step.", "quantifier": "every gradient history and step count", "why_tests_cant": "All histories.", "anchors": ["include/qlpeps/optimizer/optimizer_impl.h:AdamUpdate"]}
{"id": "C35", "title": "L-BFGS search direction is a descent direction", "statement": "The stored pairs always satisfy the curvature condition and their number never exceeds the history size; the two-loop recursion therefore yields a direction with negative inner product with every nonzero gradient.", "quantifier": "every history of states and gradients, every history size", "why_tests_cant": "All histories in arbitrary dimension.", "anchors": ["include/qlpeps/optimizer/optimizer_impl.h:ComputeLBFGSSearchDirection_", "include/qlpeps/optimizer/optimizer_impl.h:UpdateLBFGSHistoryFromAnchor_"]}
{"id": "C36", "title": "Strong-Wolfe line search only accepts points satisfying its conditions and respects its evaluation budget", "statement": "If the line search reports acceptance, the accepted step satisfies sufficient decrease and the strong curvature condition with the configured constants; the number of evaluations never exceeds the configured maximum; the step is positive and at most max_step.", "quantifier": "every objective evaluated along the ray", "why_tests_cant": "All objective functions.", "anchors": ["include/qlpeps/optimizer/optimizer_impl.h:StrongWolfeLBFGSStep_"]}
{"id": "C37", "title": "A converged conjugate-gradient result meets the tolerance and the iteration count is bounded", "statement": "ConjugateGradientSolver returns at most max_iter iterations; if it reports convergence, in exact arithmetic the true residual ||b-Ax|| of the returned x is at most max(rel_tol*||b||, abs_tol).", "quantifier": "every linear operator, right-hand side, initial guess and parameters in any inner-product space", "why_tests_cant": "All operators and dimensions.", "anchors": ["include/qlpeps/utility/conjugate_gradient_solver.h:ConjugateGradientSolver"]}
{"id": "C38", "title": "Every non-converged conjugate-gradient exit returns the best iterate seen", "statement": "For each termination reason the reported residual norm is the true residual norm of the returned vector and it is never larger than that of the initial guess.", "quantifier": "every operator, right-hand side, initial guess and parameters", "why_tests_cant": "All inputs, all exit paths.", "anchors": ["include/qlpeps/utility/conjugate_gradient_solver.h:ConjugateGradientSolver"]}
{"id": "C39", "title": "Distributed conjugate gradient: master and slaves always agree on the number of products and all terminate", "statement": "For every execution of the master, the sequence of instructions and matrix products it issues is exactly matched by each slave: slaves perform the same number of products and leave their loop exactly when the master returns, whatever the exit path.", "quantifier": "every operator data, parameters, number of processes and exit path", "why_tests_cant": "A protocol mismatch is a deadlock that depends on numerical data.", "anchors": ["include/qlpeps/utility/conjugate_gradient_solver.h:ConjugateGradientSolverMaster", "include/qlpeps/utility/conjugate_gradient_solver.h:ConjugateGradientSolverSlave"]}
{"id": "C40", "title": "Distributed matrix-vector product does not depend on message arrival order", "statement": "The master's product equals the sum of the per-process products for every order in which the slaves' messages arrive, and equals the serial solver's product with the summed matrix.", "quantifier": "every number of processes, every arrival order", "why_tests_cant": "Arrival orders are scheduler dependent.", "anchors": ["include/qlpeps/utility/conjugate_gradient_solver.h:MatrixMultiplyVectorMaster"]}
{"id": "C41", "title": "The stochastic-reconfiguration matrix is Hermitian positive semidefinite plus shift and independent of the sample partition", "statement": "Applying SRSMatrix to a vector gives (covariance of O + shift) v: the operator is self-adjoint, <v,Sv> >= shift*<v,v>, and the result depends only on the multiset of samples, not on how they are distributed over equally loaded processes.", "quantifier": "every set of samples, every vector, every number of processes", "why_tests_cant": "All sample sets and dimensions.", "anchors": ["include/qlpeps/optimizer/stochastic_reconfiguration_smatrix.h:SRSMatrix"]}
{"id": "C42", "title": "The MinSR ring exchange fills every block exactly once without deadlock", "statement": "In the ring construction of the T matrix each process receives, over the rounds, each other process's samples exactly once, the received block is stored in the columns of the process it originates from, and the blocking send/receive order cannot deadlock.", "quantifier": "every number of processes >= 1", "why_tests_cant": "Process counts are unbounded and deadlock is schedule dependent.", "anchors": ["include/qlpeps/optimizer/minsr_tmatrix.h:MinSRTMatrix"]}
{"id": "C43", "title": "The MinSR matrix is the centred Gram matrix of the samples", "statement": "The four-term centring formula yields T_ij = <O_i - mean, O_j - mean>/N_s, hence T is Hermitian positive semidefinite and annihilates the constant vector.", "quantifier": "every set of samples in any inner-product space", "why_tests_cant": "Algebraic identity over all samples.", "anchors": ["include/qlpeps/optimizer/minsr_tmatrix.h:MinSRTMatrix"]}
{"id": "C44", "title": "Regularised pseudo-inverse never amplifies more than its cutoff allows", "statement": "Both cutoff modes map every eigenvalue to a finite value with |lambda * f(lambda)| <= 1; hard cutoff maps |lambda|<=cutoff to zero and others to the exact inverse; soft cutoff is bounded by a constant over the cutoff.", "quantifier": "every eigenvalue list and nonnegative cutoffs, including all-zero spectra", "why_tests_cant": "Continuum of spectra.", "anchors": ["include/qlpeps/optimizer/minsr_eigensolve.h:ApplyPseudoInverseCutoff"]}
{"id": "C45", "title": "Sampling is distributed so that the requested total is met with minimal excess", "statement": "With P processes each takes ceil(total/P) samples: the total taken is at least the request and exceeds it by less than P.", "quantifier": "every request and number of processes", "why_tests_cant": "All values.", "anchors": ["include/qlpeps/algorithm/vmc_update/monte_carlo_engine.h:MonteCarloEngine"]}
{"id": "C46", "title": "Energy evaluation on open lattices counts every bond of the model exactly once", "statement": "The bond traversal of the square-lattice solvers evaluates every horizontal, vertical and (if enabled) both diagonal bonds exactly once, with sites inside the lattice; the local energy is the sum of these bond energies and the onsite energy; a sample with a vanishing trace is refused.", "quantifier": "every lattice with at least two rows and two columns, every model and sample (on a single row or column the evaluation is undefined, which is proved as a disagreement)", "why_tests_cant": "Lattice sizes are unbounded.", "anchors": ["include/qlpeps/algorithm/vmc_update/model_solvers/base/bond_traversal_mixin.h:BondTraversalMixin", "include/qlpeps/algorithm/vmc_update/model_solvers/base/square_nnn_energy_solver.h:SquareNNNModelEnergySolver"]}
{"id": "C47", "title": "Energy evaluation on periodic lattices counts every bond exactly once", "statement": "On a torus the periodic solvers enumerate each nearest (and next-nearest) neighbour pair exactly once.", "quantifier": "every torus size of at least 3 x 3 (for sides of length two each pair is counted twice)", "why_tests_cant": "Sizes are unbounded; wrap-around duplicates appear only for short sides.", "anchors": ["include/qlpeps/algorithm/vmc_update/model_solvers/square_spin_onehalf_j1j2_xxz_pbc.h:EvaluateObservables", "include/qlpeps/algorithm/vmc_update/model_solvers/heisenberg_square_pbc.h"]}
{"id": "C48", "title": "Local energy of the spin-1/2 XXZ and J1-J2 solvers is an exact estimator of the Hamiltonian", "statement": "For every wave function, the |psi|^2-weighted sum of the local energy returned by the XXZ, J1-J2, periodic and triangular energy solvers equals <psi|H|psi> for the Hamiltonian with the given couplings and pinning field, the contraction being exact.", "quantifier": "every lattice size, couplings, wave function", "why_tests_cant": "Identity over an exponentially large configuration space and all wave functions.", "anchors": ["include/qlpeps/algorithm/vmc_update/model_solvers/square_spin_onehalf_xxz_obc.h:EvaluateBondEnergy", "include/qlpeps/algorithm/vmc_update/model_solvers/square_spin_onehalf_j1j2_xxz_obc.h"]}
{"id": "C49", "title": "Local energy of the transverse-field Ising solvers is an exact estimator of the Hamiltonian", "statement": "The weighted average of the solver's local energy equals the expectation value of -sum sz sz - h sum sx.", "quantifier": "every lattice size, field and wave function", "why_tests_cant": "Identity over all wave functions.", "anchors": ["include/qlpeps/algorithm/vmc_update/model_solvers/transverse_field_ising_square_obc.h", "include/qlpeps/algorithm/vmc_update/model_solvers/transverse_field_ising_square_pbc.h"]}
{"id": "C50", "title": "Hubbard local energies average to the Hubbard Hamiltonian", "statement": "For every many-fermion state with exact amplitudes, the local energies returned for the samples, weighted with |amplitude|^2, sum to the expectation value of -t sum_<ij>s (c+_is c_js + h.c.) + U sum n_up n_dn - mu sum n, with the correct fermion signs; the bond energy only involves configurations with the same numbers of up and down electrons.", "quantifier": "every state, all couplings, every lattice with at least two rows, every contraction order in which the two sites of a bond are adjacent", "why_tests_cant": "Signs must be right for every pair of local states and every number of electrons in between; tests check a few small lattices.", "anchors": ["include/qlpeps/algorithm/vmc_update/model_solvers/square_hubbard_model.h:EvaluateBondEnergy", "include/qlpeps/algorithm/vmc_update/model_solvers/square_hubbard_model.h:EvaluateTotalOnsiteEnergy", "include/qlpeps/algorithm/vmc_update/model_solvers/base/square_nnn_energy_solver.h:CalEnergyAndHolesImpl"]}
{"id": "C51", "title": "t-J local energies average to the t-J Hamiltonian, with or without a pinned singlet bond", "statement": "For every state without double occupancy the local energies, weighted with |amplitude|^2, sum to the expectation value of -t sum hopping - t2 sum diagonal hopping + J sum (S.S - n n/4) + V sum n n - mu sum n, plus delta (Delta+ + Delta) on the pinned bond whichever way round its sites are given; a pinning field is accepted exactly for nearest neighbours, and a pinned bond outside the lattice yields an error, not an energy.", "quantifier": "every state without double occupancy, all couplings, every lattice with at least two rows (and columns, with diagonals)", "why_tests_cant": "As above; the pinned bond has a third code path with its own signs.", "anchors": ["include/qlpeps/algorithm/vmc_update/model_solvers/square_tJ_model.h:EvaluateBondEnergy", "include/qlpeps/algorithm/vmc_update/model_solvers/square_tJ_model.h:EvaluateNNNEnergy", "include/qlpeps/algorithm/vmc_update/model_solvers/square_tJ_model.h:SetSingletPairPinningField"]}
{"id": "C52", "title": "Spinless-fermion local energies average to the t-t2-V Hamiltonian", "statement": "For every state the local energies, weighted with |amplitude|^2, sum to the expectation value of -t sum_<ij>(c+c+h.c.) - t2 sum_<<ij>>(c+c+h.c.) + V sum_<ij> n n.", "quantifier": "every state, all couplings, every lattice with at least two rows and columns", "why_tests_cant": "As above.", "anchors": ["include/qlpeps/algorithm/vmc_update/model_solvers/square_spinless_fermion.h:EvaluateBondEnergy", "include/qlpeps/algorithm/vmc_update/model_solvers/square_spinless_fermion.h:EvaluateNNNEnergy"]}
{"id": "C53", "title": "Measured energy equals optimized energy", "statement": "For every model solver, whenever EvaluateObservables returns an energy for a sample, it is the local energy used for optimization on the same sample, the sum over the same bonds. (The triangular J1-J2 solver never returns one: it fails on every lattice.)", "quantifier": "every solver, lattice size and couplings", "why_tests_cant": "The two code paths are independent loops; agreement must hold for all sizes.", "anchors": ["include/qlpeps/algorithm/vmc_update/model_solvers/base/square_nnn_model_measurement_solver.h:EvaluateObservables", "include/qlpeps/algorithm/vmc_update/model_solvers/spin_onehalf_triangle_heisenbergJ1J2_sqrpeps.h:EvaluateObservables", "include/qlpeps/algorithm/vmc_update/model_solvers/spin_onehalf_triangle_heisenbergJ1J2_sqrpeps.h:CalEnergyAndHolesImpl"]}
{"id": "C54", "title": "Declared observable shapes match the emitted data so dumping never fails", "statement": "For every observable a solver emits and declares with a shape, the number of values emitted equals the product of the declared shape and no declared dimension is zero, so DumpData does not throw.", "quantifier": "every solver, lattice size", "why_tests_cant": "Ranges over all lattice sizes and registries.", "anchors": ["include/qlpeps/algorithm/vmc_update/monte_carlo_peps_measurer_impl.h:DumpData", "include/qlpeps/algorithm/vmc_update/model_solvers/spin_onehalf_triangle_heisenberg_sqrpeps.h:DescribeObservables", "include/qlpeps/algorithm/vmc_update/model_solvers/square_spin_onehalf_xxz_obc.h:DescribeObservables"]}
{"id": "C55", "title": "Packed all-to-all correlators are stored at the documented index", "statement": "The value of the correlator of sites i<=j is stored at flat index i*N - i*(i-1)/2 + (j-i); this numbers the pairs i<=j without gaps or repetitions, so the documented formula recovers every pair.", "quantifier": "every number of sites", "why_tests_cant": "All sizes.", "anchors": ["include/qlpeps/algorithm/vmc_update/model_solvers/square_spin_onehalf_xxz_obc.h:SzSz_all2all", "include/qlpeps/algorithm/vmc_update/monte_carlo_peps_measurer_impl.h:DumpPackedUpperTriIndexMap_"]}
{"id": "C56", "title": "Exact summation does not depend on the number of processes", "statement": "Striping configurations over processes assigns every configuration to exactly one process, and the resulting energy and gradient equal those of the single-process sum.", "quantifier": "every number of processes and configurations", "why_tests_cant": "All process counts.", "anchors": ["include/qlpeps/algorithm/vmc_update/exact_summation_energy_evaluator.h:ExactSumEnergyEvaluatorMPI"]}
{"id": "C57", "title": "The fixed-occupancy configuration generator lists every configuration exactly once", "statement": "GenerateAllPermutationConfigs returns, without repetition, all configurations with the prescribed number of sites in each local state.", "quantifier": "every occupancy list and lattice size", "why_tests_cant": "All sizes.", "anchors": ["include/qlpeps/algorithm/vmc_update/exact_summation_energy_evaluator.h:GenerateAllPermutationConfigs"]}
{"id": "C58", "title": "The binary configuration generator lists every configuration exactly once", "statement": "GenerateAllBinaryConfigs(Lx,Ly) returns each of the 2^(Lx*Ly) assignments of {0,1} to the sites exactly once.", "quantifier": "every lattice size (below the word size)", "why_tests_cant": "All sizes.", "anchors": ["include/qlpeps/algorithm/vmc_update/exact_summation_measurer.h:GenerateAllBinaryConfigs"]}
{"id": "C59", "title": "Monte-Carlo energy gradient is the covariance of local energy and log-derivative", "statement": "The gradient returned by the Monte-Carlo evaluator equals the sample covariance of E_loc* and O*: in particular adding a constant to the Hamiltonian does not change it and a parameter with constant O has zero gradient.", "quantifier": "every sample set and number of processes", "why_tests_cant": "All sample sets; the defect shows only when the sample count is not a multiple of the bin size.", "anchors": ["include/qlpeps/algorithm/vmc_update/mc_energy_grad_evaluator.h:MCEnergyGradEvaluator"]}
{"id": "C60", "title": "TRG size validation accepts exactly the supported sizes", "statement": "The engine accepts a linear size for TRG iff it is of the form 2^k or 3*2^k.", "quantifier": "every size", "why_tests_cant": "All sizes.", "anchors": ["include/qlpeps/algorithm/vmc_update/monte_carlo_engine.h:IsTRGSupportedLinearSize_"]}
{"id": "C61", "title": "Suwa-Todo update is rejection free whenever possible", "statement": "If SuwaTodoStateUpdate returns the state it was called with, then that state has the largest weight and carries more than half of the total weight; with no dominant state every call moves.", "quantifier": "every nonnegative weight list, positive-weight current state and random number in [0,1)", "why_tests_cant": "All weight lists and random numbers; a missing swap of the largest weight to the front still passes balance tests.", "anchors": ["include/qlpeps/vmc_basic/monte_carlo_tools/suwa_todo_update.h:SuwaTodoStateUpdate"]}
{"id": "C62", "title": "The walker's stored amplitude is always the amplitude of its stored configuration", "statement": "Starting from a walker whose amplitude is that of its configuration, every sweep of every updater ends with a walker whose stored amplitude is the wave-function value of the stored configuration.", "quantifier": "every wave function, lattice size, random-number stream and updater, provided trial traces are exact", "why_tests_cant": "All sweeps; a stale amplitude after one rejected move only biases later acceptance ratios.", "anchors": ["include/qlpeps/vmc_basic/configuration_update_strategies/square_nn_updater.h:TwoSiteNNUpdateLocalImpl", "include/qlpeps/vmc_basic/wave_function_component.h:UpdateLocal"]}
{"id": "C63", "title": "Every local Monte-Carlo update leaves |psi|^2 invariant", "statement": "For the exchange, full-space, Hubbard U(1)xU(1) and three-site updates, one local update maps the distribution |psi|^2 on any finite closed set of configurations to itself; hence so does any sequence of them.", "quantifier": "every wave function, bond, and finite configuration set closed under the update's proposals", "why_tests_cant": "A statement about the probability law over all configurations and random numbers.", "anchors": ["include/qlpeps/vmc_basic/configuration_update_strategies/square_nn_updater.h", "include/qlpeps/vmc_basic/configuration_update_strategies/square_3site_updater.h"]}
{"id": "C64", "title": "Iterating over a matrix visits every element exactly once", "statement": "A range-for loop over a configuration (or any DuoMatrix) with at least one row and one column visits every element exactly once, in row-major order.", "quantifier": "every shape", "why_tests_cant": "All shapes; the increment logic has three boundary cases.", "anchors": ["include/qlpeps/two_dim_tn/framework/duomatrix.h:DuoMatrix::Iterator"]}
{"id": "C65", "title": "The Jastrow dress's particle densities always match the walker's configuration", "statement": "If the stored particle densities agree with the t-J configuration (one particle on spin-up/down sites, none on empty sites) before a Jastrow-dressed exchange, the exchange does not abort and they agree afterwards; the exchange permutes the contents of its two sites and nothing else.", "quantifier": "every coupling matrix, amplitude, random number, pair of distinct sites and t-J configuration", "why_tests_cant": "A stale density would silently bias all later acceptance ratios; must hold after any history of updates.", "anchors": ["include/qlpeps/vmc_basic/configuration_update_strategies/square_nn_updater.h:MCUpdateSquareNNExchangeJastrowDressedTJ", "include/qlpeps/vmc_basic/wave_function_component.h:JastrowDress"]}
{"id": "C66", "title": "Checkpoints are written on schedule and hold the state the next evaluation uses", "statement": "With checkpointing every n iterations to a path, a checkpoint labelled i is written exactly after the completed, non-stopping iterations i > 0 divisible by n, and it holds the updated state: the state the next main-path evaluation receives.", "quantifier": "every evaluator, spike history, crash point between checkpoints and checkpoint interval", "why_tests_cant": "All histories of retries and rollbacks; a checkpoint of the wrong state is only noticed after a restart.", "anchors": ["include/qlpeps/optimizer/optimizer_impl.h:IterativeOptimize", "include/qlpeps/optimizer/optimizer_impl.h:SaveCheckpoint_", "include/qlpeps/optimizer/optimizer_params.h:CheckpointParams"]}
{"id": "C67", "title": "With rollback disabled the optimizer terminates for every evaluator", "statement": "With spike rollback disabled (the default) IterativeOptimize ends after at most max_iterations * (redo_mc_max_retries + 1) main-path evaluations, whatever energies, errors, gradients and update failures occur.", "quantifier": "every evaluator, update rule, callback and every other setting", "why_tests_cant": "Non-termination cannot be observed by a finite test.", "anchors": ["include/qlpeps/optimizer/optimizer_impl.h:IterativeOptimize", "include/qlpeps/optimizer/optimizer_params.h:SpikeRecoveryParams"]}
{"id": "C68", "title": "The step-size selectors pick the best candidate and never increase the step afterwards", "statement": "The initial selector evaluates lr, 2lr, ..., k*lr and picks the candidate of lowest energy (the smallest such step); the periodic selector evaluates the current and the halved step and halves exactly when the half step is lower (early phase) or lower by more than the larger error bar (late phase). After the first iteration the step never increases, stays positive and is the initial one divided by a power of two; at other iterations it is unchanged and no extra evaluation happens. For SGD the candidate evaluated is the state the update then reaches.", "quantifier": "every evaluator (also stateful), configuration and sequence of attempts", "why_tests_cant": "All evaluators and histories of attempts, including repeated attempts of one iteration.", "anchors": ["include/qlpeps/optimizer/optimizer_impl.h:IterativeOptimize", "include/qlpeps/optimizer/optimizer_params.h:InitialStepSelectorParams", "include/qlpeps/optimizer/optimizer_params.h:PeriodicStepSelectorParams"]}
{"id": "C69", "title": "Conjugate gradient on a positive semidefinite system never fails and ends within the dimension", "statement": "For a self-adjoint positive definite operator (or a positive semidefinite one whose range contains the residual of the initial guess) the conjugate-gradient solver never reports an indefinite matrix or a breakdown, and in exact arithmetic it performs at most as many iterations as the dimension of the space (the rank of the operator).", "quantifier": "every finite-dimensional real or complex inner-product space, operator, right-hand side, initial guess and parameters", "why_tests_cant": "All operators and dimensions; the two failure reasons abort the whole optimization.", "anchors": ["include/qlpeps/utility/conjugate_gradient_solver.h:ConjugateGradientSolver"]}
{"id": "C70", "title": "The MinSR direction never points uphill and solves the stochastic-reconfiguration equation of least norm", "statement": "Given a correct eigendecomposition of the sample Gram matrix, the direction delta computed by MinSR satisfies Re<g,delta> >= 0 for the estimated gradient g whatever the cutoffs; if the hard cutoff keeps all nonzero eigenvalues, delta solves S delta = g exactly and has the least norm among all solutions.", "quantifier": "every set of samples and energies in any real or complex inner-product space, every cutoff", "why_tests_cant": "All sample sets and spectra, including rank-deficient ones.", "anchors": ["include/qlpeps/optimizer/optimizer_impl.h:CalculateMinSRDirection_", "include/qlpeps/optimizer/minsr_eigensolve.h"]}
{"id": "C71", "title": "The stochastic-reconfiguration solve never aborts the optimization in exact arithmetic", "statement": "For the S matrix of any sample set with non-negative diagonal shift (zero included) and the gradient estimated from the same samples, the conjugate-gradient solve never ends with the indefinite-matrix or breakdown outcome, for which the optimizer throws, whatever the initial guess.", "quantifier": "every sample set, shift >= 0, initial guess and solver parameters", "why_tests_cant": "All sample sets, in particular rank-deficient ones without shift.", "anchors": ["include/qlpeps/optimizer/optimizer_impl.h:CalculateNaturalGradient", "include/qlpeps/optimizer/stochastic_reconfiguration_smatrix.h:SRSMatrix", "include/qlpeps/utility/conjugate_gradient_solver.h"]}
{"id": "C72", "title": "The exact-summation gradient is the derivative of the energy it reports", "statement": "With an exactly contracted state, nonzero amplitudes on the listed configurations, a Hermitian Hamiltonian between them and exact local energies, the energy returned by the exact-summation evaluator is the expectation value of the state, and moving the tensors along any direction v changes that expectation value at the rate 2 Re<v, gradient>, for every number of processes.", "quantifier": "every lattice graph, tensor values, physical and bond dimensions, direction, Hamiltonian, list of configurations and number of processes", "why_tests_cant": "A finite-difference test checks single directions of single states; a wrong conjugation or a missing covariance term passes on real or symmetric states.", "anchors": ["include/qlpeps/algorithm/vmc_update/exact_summation_energy_evaluator.h:ExactSumEnergyEvaluatorMPI"]}
{"id": "C73", "title": "Exact-summation measurement does not depend on the number of processes", "statement": "If every configuration yields the same observables with the same numbers of values, the exact-summation measurement returns exactly those observables, every value being the |Psi|^2-average over all configurations, for every number of processes including more processes than configurations; an empty list of configurations or a non-positive total weight is refused.", "quantifier": "every evaluator, list of configurations and number of processes", "why_tests_cant": "All process counts, in particular idle ranks which must still take part in the reductions.", "anchors": ["include/qlpeps/algorithm/vmc_update/exact_summation_measurer.h"]}
{"id": "C74", "title": "Pair-correlation coordinates list every bond pair once", "statement": "The coordinate table of the singlet pair correlation contains every pair of a (selected) horizontal reference bond and a horizontal bond in a lower row exactly once, ignores selections outside the lattice, and has exactly as many lines as the declared number of values.", "quantifier": "every lattice size and every selection of reference bonds", "why_tests_cant": "All sizes and all lists of reference bonds.", "anchors": ["include/qlpeps/algorithm/vmc_update/model_solvers/base/singlet_pair_correlation_measurement_mixin.h:GenerateSCPairCorrIndexMapping", "include/qlpeps/algorithm/vmc_update/model_solvers/base/singlet_pair_correlation_measurement_mixin.h:ComputeNumSCPairs"]}
{"id": "C75", "title": "The particle-number histogram is a probability distribution", "statement": "If the particle table covers all states, every sample contributes a single one at its total particle number, inside the declared number of bins, so the reported distribution is the rank-averaged fraction of samples per particle number and sums to one; an uncovered state raises an exception instead of being miscounted.", "quantifier": "every particle table, configuration, number of samples and ranks", "why_tests_cant": "The bin bound must hold for every configuration and table.", "anchors": ["include/qlpeps/algorithm/vmc_update/monte_carlo_peps_measurer.h:MakeParticleNumberDistributionSample", "include/qlpeps/algorithm/vmc_update/monte_carlo_peps_measurer.h:CountConfiguredParticles", "include/qlpeps/algorithm/vmc_update/monte_carlo_peps_measurer_impl.h:GatherStatistic_"]}
{"id": "C76", "title": "Three-site sweeps use current amplitudes", "statement": "Any number of sweeps with the three-site exchange updater with the caching contractor gives the same configuration, amplitude, random-number use and acceptance count as with a contractor that recomputes everything from scratch; no cache access is out of range on lattices with at least three rows and columns.", "quantifier": "every lattice of at least 3x3, tensor contents, truncating or exact contraction, initial configuration, random stream and number of sweeps", "why_tests_cant": "The stale-cache risk depends on the whole history of accepted and rejected moves.", "anchors": ["include/qlpeps/vmc_basic/configuration_update_strategies/square_3site_updater.h", "include/qlpeps/two_dim_tn/tensor_network_2d/bmps/bmps_contractor.h"]}
{"id": "C77", "title": "Energy and measurement traversals see every bond once, with current amplitudes", "statement": "A traversal of all bonds by an energy or measurement solver shows every nearest-neighbour bond (and every hole, diagonal, sqrt(5) link and row correlation requested) exactly once, each with the amplitude of the current network with the tensors in question replaced, and leaves no outdated environment behind; it is abandoned exactly when the amplitude at the start of some row or column is zero.", "quantifier": "every lattice of at least 2x2, network, plan of what to visit, cache state left by earlier operations, zero-amplitude test", "why_tests_cant": "Sliding environments are reused between bonds, diagonals, correlations and both directions; a stale one shows only for particular histories.", "anchors": ["include/qlpeps/algorithm/vmc_update/model_solvers/base/bond_traversal_mixin.h", "include/qlpeps/algorithm/vmc_update/model_solvers/base/square_nnn_energy_solver.h", "include/qlpeps/two_dim_tn/tensor_network_2d/bmps/impl/bmps_contractor_trace.h"]}
{"id": "C78", "title": "State arithmetic is linear algebra on all tensor entries", "statement": "Adding, subtracting, negating and scaling states, in place or not, acts on every tensor of every site as vector arithmetic, whichever components are default-constructed; the inner product and squared norm are those of the vector of all tensor entries.", "quantifier": "every lattice size, physical dimension, tensor contents, pattern of default components and scalar", "why_tests_cant": "Default components take separate branches in every operator, in all combinations.", "anchors": ["include/qlpeps/two_dim_tn/tps/split_index_tps.h:operator+", "include/qlpeps/two_dim_tn/tps/split_index_tps.h:operator*", "include/qlpeps/two_dim_tn/tps/split_index_tps_impl.h:NormSquare"]}
{"id": "C79", "title": "State arithmetic keeps the boundary condition", "statement": "The result of adding, subtracting, negating or scaling states with the same boundary condition has that boundary condition.", "quantifier": "every operator, lattice and boundary condition", "why_tests_cant": "Must hold for every operator and both boundary conditions; the engine later rejects a state with the wrong one.", "anchors": ["include/qlpeps/two_dim_tn/tps/split_index_tps.h:operator+", "include/qlpeps/two_dim_tn/tps/split_index_tps_impl.h:CreateInitializedResult_", "include/qlpeps/two_dim_tn/tps/split_index_tps_impl.h:ApplyBinaryOp_"]}
{"id": "C80", "title": "Rescaling site tensors leaves the physical state alone", "statement": "Normalising all sites, scaling them to a given largest entry, and normalising the amplitudes over all processes to order one bring every site (or the largest amplitude) exactly to the promised value and divide the amplitude of every configuration by one common positive number.", "quantifier": "every state without a vanishing site, every amplitude function homogeneous in each site tensor, every set of configurations held by the processes", "why_tests_cant": "A wrong power or a site missed or scaled twice changes ratios only for particular sizes and tensors.", "anchors": ["include/qlpeps/two_dim_tn/tps/split_index_tps_impl.h:NormalizeAllSite", "include/qlpeps/two_dim_tn/tps/split_index_tps_impl.h:ScaleMaxAbsForAllSite", "include/qlpeps/algorithm/vmc_update/monte_carlo_engine.h:NormalizeStateOrder1"]}
{"id": "C81", "title": "Start-up gives every process a valid configuration or stops", "statement": "After a successful start-up every process holds a configuration whose wave function was constructed with a legal amplitude; processes that had one keep it, the others take that of the first valid process and are marked as not warmed up. Start-up succeeds exactly when all configurations are valid, or rescue is enabled and at least one is.", "quantifier": "every number of processes, set of initial configurations, pattern of construction failures and illegal amplitudes, rescue setting", "why_tests_cant": "All failure patterns over all processes.", "anchors": ["include/qlpeps/algorithm/vmc_update/monte_carlo_engine.h:EnsureConfigurationValidity", "include/qlpeps/algorithm/vmc_update/monte_carlo_engine.h:TryConstructWavefunction_"]}
{"id": "C82", "title": "A dumped state loads back unchanged, and an interrupted dump never loads as a different state", "statement": "After Dump returns, Load on that path returns true and restores lattice, boundary condition and all tensors; if the program dies during Dump, or a file cannot be written, a later Load returns false or gives the dumped state.", "quantifier": "every state, every previous content of the directory, every crash point and set of failing writes", "why_tests_cant": "All crash points and all previous directory contents.", "anchors": ["include/qlpeps/two_dim_tn/tps/split_index_tps_impl.h:Dump", "include/qlpeps/two_dim_tn/tps/split_index_tps_impl.h:Load", "include/qlpeps/two_dim_tn/tps/split_index_tps_impl.h:DumpTen"]}
{"id": "C83", "title": "State transfer between processes is lossless and leaves the communicator in step", "statement": "Receiving a sent state, or taking part in a broadcast, gives the sender's lattice, boundary condition and tensors (default ones included), and consumes exactly the messages or collective calls of the sender.", "quantifier": "every state with the same number of components at every site, every pattern of default tensors, everything sent afterwards", "why_tests_cant": "A mismatch in the number of collective calls hangs the program for particular patterns of default tensors only.", "anchors": ["include/qlpeps/two_dim_tn/tps/split_index_tps_impl.h:MPI_Send", "include/qlpeps/two_dim_tn/tps/split_index_tps_impl.h:MPI_Recv", "include/qlpeps/two_dim_tn/tps/split_index_tps_impl.h:MPI_Bcast"]}
{"id": "C84", "title": "A nearest-neighbour simple-update sweep evolves with exactly the given Hamiltonian", "statement": "The local Hamiltonians whose exponentials one sweep applies add up, as operators on the whole lattice, to the sum of all two-site terms over all bonds plus all on-site terms; every bond is visited exactly once.", "quantifier": "open and periodic lattices of any size at least 2 x 2, uniform or per-bond two-site terms, any on-site terms, every matrix element", "why_tests_cant": "Tests use small open lattices and compare converged energies; a wrong coordination weight on one edge or a missed bond on a torus changes the energy only slightly.", "anchors": ["include/qlpeps/algorithm/simple_update/square_lattice_nn_simple_update.h:SetEvolveGate_", "include/qlpeps/algorithm/simple_update/square_lattice_nn_simple_update.h:SimpleUpdateSweep_", "include/qlpeps/algorithm/simple_update/square_lattice_nn_simple_update.h:ConstructBondHamiltonian"]}
{"id": "C85", "title": "A next-nearest-neighbour simple-update sweep evolves with exactly the given Hamiltonian", "statement": "The triangle Hamiltonians one sweep applies add up, as operators on the whole lattice, to the nearest-neighbour terms over all bonds, the next-nearest-neighbour terms over both diagonals of all plaquettes, and the on-site terms.", "quantifier": "open and periodic lattices of any size at least 2 x 2, any two-site terms, any on-site terms, every matrix element", "why_tests_cant": "Each term is spread over up to twelve triangles with boundary-dependent weights; energies of a few small models cannot tell a misplaced weight.", "anchors": ["include/qlpeps/algorithm/simple_update/square_lattice_nnn_simple_update.h:ConstructTriHamiltonian", "include/qlpeps/algorithm/simple_update/square_lattice_nnn_simple_update.h:SetEvolveGate_", "include/qlpeps/algorithm/simple_update/square_lattice_nnn_simple_update.h:SimpleUpdateSweep_"]}
{"id": "C86", "title": "The triangular-lattice sweep covers every bond of the triangular lattice", "statement": "Each half sweep acts on every vertical, horizontal and diagonal bond of the open triangular lattice exactly once and on no other pair of sites.", "quantifier": "every lattice size, both boundary conditions of the PEPS", "why_tests_cant": "Coverage at every size and boundary is not visible in converged energies of one size.", "anchors": ["include/qlpeps/algorithm/simple_update/triangle_nn_on_sqr_peps_simple_update.h:SimpleUpdateSweep_"]}
{"id": "C87", "title": "A loop-update sweep covers every plaquette once, in passes of disjoint plaquettes", "statement": "One sweep projects every plaquette exactly once; for every lattice the constructor accepts, plaquettes projected in the same pass share no site.", "quantifier": "every lattice size and boundary condition", "why_tests_cant": "Disjointness on a torus depends on parity of both lengths; tests use one or two sizes.", "anchors": ["include/qlpeps/algorithm/loop_update/loop_update_impl.h:LoopUpdateSweep_", "include/qlpeps/algorithm/loop_update/loop_update_impl.h:LoopUpdateExecutor"]}
{"id": "C88", "title": "A simple-update or loop-update run stops at the first converged sweep and reports exactly what it did", "statement": "With an advanced stop, the run ends with the first sweep at which the last `patience` sweeps all had energy changes within the hybrid tolerance, weights of unchanged dimensions within the relative tolerance, and the minimal number of sweeps reached; otherwise it executes all its steps. The summary, the per-sweep metrics and the observer's calls describe exactly the executed sweeps.", "quantifier": "every sequence of sweep results (energies, weights, dimensions), every configuration, number of steps and patience; NaN results included", "why_tests_cant": "Off-by-one errors in patience, streak resets or the first comparison only show for particular sequences of energies; tests run a handful.", "anchors": ["include/qlpeps/algorithm/simple_update/simple_update_impl.h:Execute", "include/qlpeps/algorithm/simple_update/simple_update_impl.h:ValidateAdvancedStopConfig_", "include/qlpeps/algorithm/simple_update/simple_update_impl.h:ComputeMaxRelativeLambdaDrift_", "include/qlpeps/algorithm/loop_update/loop_update_impl.h:Execute"]}
{"id": "C89", "title": "The evolution gate is the imaginary-time exponential of the local Hamiltonian", "statement": "For a local Hamiltonian on any number of sites the evolution gate, with incoming legs first, equals exp(-tau H) up to an error bounded by the Taylor tolerance times exp(tau |H|) - 1, and the zero Hamiltonian gives exactly the identity.", "quantifier": "any number of sites and any local dimensions, every real or complex Hamiltonian and time step with tau |H| <= 100 (a bound by the last term kept holds without that limit)", "why_tests_cant": "The order of the series depends on the Hamiltonian; tests look at a few energies, not at the gate for every Hamiltonian.", "anchors": ["include/qlpeps/algorithm/simple_update/simple_update_impl.h:TaylorExpMatrix", "include/qlpeps/consts.h:kMaxTaylorExpansionOrder"]}
{"id": "C90", "title": "The sum of tensor product states is the superposition of their wave functions", "statement": "For states on the same lattice, WaveFunctionSum gives a tensor product state whose amplitude is, for every configuration, the weighted sum of the amplitudes of its arguments; bond dimensions add inside the lattice and external bonds keep dimension one.", "quantifier": "every lattice size, boundary condition, bond dimensions, tensors, list of states, coefficients and configuration", "why_tests_cant": "The sum over all bonds is exponentially large; tests can compare a few amplitudes of small lattices, and a sign error appears only for coefficients of particular sign on lattices of particular parity.", "anchors": ["include/qlpeps/two_dim_tn/tps/tps_impl.h:WaveFunctionSum", "include/qlpeps/two_dim_tn/tps/tps_impl.h:GetExpandIndices_"]}
{"id": "C91", "title": "A projection that truncates nothing applies its gate exactly", "statement": "NearestNeighborSiteProject in either orientation and the four three-site triangle projections: if the call reports truncation error zero and no surrounding weight is below the inversion tolerance, then the wave function of the PEPS after the call, times the reported norm, is the gate applied to the wave function before the call, amplitude by amplitude. In particular the bond weights absorbed on the way are removed again exactly and no other site changes.", "quantifier": "every lattice size, boundary condition, site, bond dimensions, tensors, weights, gate and configuration; every QR and SVD that reproduce their argument", "why_tests_cant": "Amplitudes are exponentially large sums over all bonds; a weight that is absorbed and not removed again, or a transposed leg, leaves shapes, norms and truncation errors plausible and shows only for states with non-uniform weights.", "anchors": ["include/qlpeps/two_dim_tn/peps/square_lattice_peps_projection_impl.h:NearestNeighborSiteProject", "include/qlpeps/two_dim_tn/peps/square_lattice_peps_projection_impl.h:UpperRightTriangleProject", "include/qlpeps/two_dim_tn/peps/square_lattice_peps_projection_impl.h:UpperLeftTriangleProject", "include/qlpeps/two_dim_tn/peps/square_lattice_peps_projection_impl.h:LowerRightTriangleProject", "include/qlpeps/two_dim_tn/peps/square_lattice_peps_projection_impl.h:LowerLeftTriangleProject"]}
{"id": "C92", "title": "A history of lossless projections is the product of its gates", "statement": "After any sequence of projections that truncate nothing, the wave function times the product of all reported norms is the product of all the gates, in the order of the calls, applied to the initial wave function.", "quantifier": "every lattice, every finite sequence of bond and triangle projections, in any order and overlap", "why_tests_cant": "Errors that cancel in one projection (for example a weight stored on the wrong bond) only show in a later projection on a neighbouring bond; the number of histories is unbounded.", "anchors": ["include/qlpeps/two_dim_tn/peps/square_lattice_peps_projection_impl.h:NearestNeighborSiteProject", "include/qlpeps/two_dim_tn/peps/square_lattice_peps_projection_impl.h:UpperRightTriangleProject", "include/qlpeps/two_dim_tn/peps/square_lattice_peps_projection_impl.h:UpperLeftTriangleProject", "include/qlpeps/two_dim_tn/peps/square_lattice_peps_projection_impl.h:LowerRightTriangleProject", "include/qlpeps/two_dim_tn/peps/square_lattice_peps_projection_impl.h:LowerLeftTriangleProject"]}
{"id": "C93", "title": "The local energy of a projection is an expectation value", "statement": "If a Hamiltonian term is passed to a projection, the energy returned is real and lies between any lower and upper bound of the term's spectrum, for every state, even if the projection truncates; without a Hamiltonian none is returned.", "quantifier": "every lattice, PEPS, gate, truncation and Hermitian two-site or three-site term", "why_tests_cant": "A violation (wrong leg order, missing normalisation) depends on the state; tests compare energies of a few states with a tolerance.", "anchors": ["include/qlpeps/two_dim_tn/peps/square_lattice_peps_projection_impl.h:EvaluateTwoSiteEnergy", "include/qlpeps/two_dim_tn/peps/square_lattice_peps_projection_impl.h:EvaluateThreeSiteEnergy", "include/qlpeps/two_dim_tn/peps/square_lattice_peps_projection_impl.h:NearestNeighborSiteProject", "include/qlpeps/two_dim_tn/peps/square_lattice_peps_projection_impl.h:UpperRightTriangleProject", "include/qlpeps/two_dim_tn/peps/square_lattice_peps_projection_impl.h:UpperLeftTriangleProject", "include/qlpeps/two_dim_tn/peps/square_lattice_peps_projection_impl.h:LowerRightTriangleProject", "include/qlpeps/two_dim_tn/peps/square_lattice_peps_projection_impl.h:LowerLeftTriangleProject"]}
{"id": "C94", "title": "Converting a weighted PEPS to a tensor product state keeps the wave function", "statement": "ToTPS splits every bond weight evenly between the two ends of the bond. A PEPS without negative weights, and with weight one on the bonds that leave an open lattice, becomes a tensor product state on the same lattice with the same wave function, amplitude by amplitude. The program exits if, and only if, some weight is negative.", "quantifier": "every lattice size, boundary condition, bond dimension, site tensors, non-negative weights and configuration", "why_tests_cant": "A weight absorbed on one end only, or absorbed on the wrong leg, gives a valid tensor product state with another wave function; it shows only in amplitudes, which are exponentially large sums.", "anchors": ["include/qlpeps/two_dim_tn/peps/square_lattice_peps_basic_impl.h:ToTPS", "include/qlpeps/two_dim_tn/peps/square_lattice_peps.h:SquareLatticePEPS"]}
{"id": "C95", "title": "Initialisation gives exactly the requested product state", "statement": "After Initial(activates) the wave function is the basis state given by activates, whatever the PEPS held before: amplitude one for that configuration and zero for all others, with bond dimension one everywhere. Indices on the two sides of every bond carry the same charge, every site tensor conserves charge, and the charge of the configuration leaves an open lattice through the last row's east index; on a torus the last tensor holds it.", "quantifier": "every lattice size, boundary condition, physical index of every site, choice of basis state and previous contents", "why_tests_cant": "The charges are accumulated along columns and then along the last row; a wrong sign or a missing contribution appears only for particular configurations and sizes.", "anchors": ["include/qlpeps/two_dim_tn/peps/square_lattice_peps_basic_impl.h:Initial"]}
{"id": "C96", "title": "From initialisation to a tensor product state", "statement": "A PEPS initialised as a product state and changed by any sequence of projections, with any truncation, can be converted to a tensor product state: the conversion never exits. If nothing is truncated, the wave function of the result times the product of the reported norms is the product of the gates applied to the initial basis state.", "quantifier": "every lattice, initial configuration and finite sequence of bond and triangle projections in any order", "why_tests_cant": "The guarantee is about whole histories: negative or external weights could only appear after particular sequences of projections.", "anchors": ["include/qlpeps/two_dim_tn/peps/square_lattice_peps_basic_impl.h:Initial", "include/qlpeps/two_dim_tn/peps/square_lattice_peps_basic_impl.h:ToTPS", "include/qlpeps/two_dim_tn/peps/square_lattice_peps_projection_impl.h:NearestNeighborSiteProject", "include/qlpeps/two_dim_tn/peps/square_lattice_peps_projection_impl.h:UpperRightTriangleProject", "include/qlpeps/two_dim_tn/peps/square_lattice_peps_projection_impl.h:UpperLeftTriangleProject", "include/qlpeps/two_dim_tn/peps/square_lattice_peps_projection_impl.h:LowerRightTriangleProject", "include/qlpeps/two_dim_tn/peps/square_lattice_peps_projection_impl.h:LowerLeftTriangleProject"]}
{"id": "C97", "title": "A stored PEPS can be loaded again", "statement": "If Dump(path) of a PEPS returned true, a later Load(path) into any PEPS of the same size and boundary condition returns true and gives an equal PEPS, whatever it held before, whether or not memory was released, and however the directory is spelled. Dump returns true if, and only if, every file was written; Load returns true if, and only if, every file can be read; dumps in other directories do not interfere.", "quantifier": "every lattice size, boundary condition, contents, path, previous contents of the disk and of the loading object, and pattern of write failures", "why_tests_cant": "File names are built from positions and paths; a collision or a missing separator shows only for particular paths, sizes and stale directories.", "anchors": ["include/qlpeps/two_dim_tn/peps/square_lattice_peps_basic_impl.h:Dump", "include/qlpeps/two_dim_tn/peps/square_lattice_peps_basic_impl.h:Load", "include/qlpeps/two_dim_tn/framework/ten_matrix.h:DumpTen", "include/qlpeps/two_dim_tn/framework/ten_matrix.h:LoadTen"]}
{"id": "C98", "title": "A stored tensor product state can be loaded into any object", "statement": "If all files of a TPS dump were written, Load into any TPS, whatever its size, boundary condition and contents, returns true and gives an equal TPS including size and boundary condition. A file that could not be opened is not reported by Dump; Load then returns false, or takes the tensor an earlier dump left there.", "quantifier": "every size, boundary condition, contents, path, previous contents of the disk and of the loading object, and set of files that cannot be opened", "why_tests_cant": "Depends on stale files, failing writes and the interplay of metadata and object size; tests use a clean directory and an object of the right size.", "anchors": ["include/qlpeps/two_dim_tn/tps/tps_impl.h:Dump", "include/qlpeps/two_dim_tn/tps/tps_impl.h:Load", "include/qlpeps/two_dim_tn/tps/tps.h:GenTPSTenName", "include/qlpeps/two_dim_tn/framework/ten_matrix.h:DumpTen", "include/qlpeps/two_dim_tn/framework/ten_matrix.h:LoadTen"]}
{"id": "C99", "title": "Without truncation the boundary-MPS contraction is exact", "statement": "If the compression of the boundary MPS discards nothing, then on every open lattice and for all site tensors: the amplitude after Init and EvaluateAmplitude, the trace at every nearest-neighbour bond, at every three consecutive sites and at every single site, all equal the full contraction of the network (the sum over all bond values of the product of the site tensors). The hole punched at a site, contracted with any tensor of the shape of the site tensor, is the full contraction with that tensor put at the site. Monte-Carlo sweeps with the contractor therefore act exactly like sweeps with a contractor that knows the wave function.", "quantifier": "every lattice size, all bond dimensions and elements of the site tensors, every bond, triple and site, every exact QR and SVD, every updater and number of sweeps", "why_tests_cant": "A test compares single amplitudes of small networks; leg orders, reversed boundary MPS and the gauge of the factorizations differ with the side, the position and the size.", "anchors": ["include/qlpeps/one_dim_tn/boundary_mps/bmps_impl.h:MultiplyMPO", "include/qlpeps/one_dim_tn/boundary_mps/bmps_impl.h:RightCanonicalizeTruncate", "include/qlpeps/two_dim_tn/tensor_network_2d/bmps/impl/bmps_contractor_grow.h:GrowFullBTen", "include/qlpeps/two_dim_tn/tensor_network_2d/bmps/impl/bmps_contractor_grow.h:PunchHole", "include/qlpeps/two_dim_tn/tensor_network_2d/bmps/impl/bmps_contractor_trace.h:ReplaceNNSiteTrace", "include/qlpeps/two_dim_tn/tensor_network_2d/bmps/impl/bmps_contractor_trace.h:ReplaceTNNSiteTrace", "include/qlpeps/two_dim_tn/tensor_network_2d/bmps/impl/bmps_contractor_trace.h:ReplaceOneSiteTrace", "include/qlpeps/vmc_basic/wave_function_component.h:EvaluateAmplitude"]}
{"id": "C100", "title": "Splitting the physical index of a TPS loses nothing", "statement": "Converting a TPS to a split-index TPS gives, at every site, one component per physical state whose elements are those of the site tensor with that state. Grouping the components again gives back the tensors, and splitting a grouped tensor gives back the components (followed by zero components if the physical space is larger). The network projected to a configuration has as its full contraction the amplitude of the configuration in the TPS; initialising a contractor on it and evaluating gives that amplitude when nothing is truncated.", "quantifier": "every lattice, all bond and physical dimensions (which may vary from site to site), all elements, every configuration, every previous content of the contractor", "why_tests_cant": "Tests compare one or two tensors; positions of legs and unit vectors go wrong only for some states or unequal dimensions.", "anchors": ["include/qlpeps/two_dim_tn/tps/split_index_tps_impl.h:FromTPS", "include/qlpeps/two_dim_tn/tps/split_index_tps.h:GroupIndices", "include/qlpeps/two_dim_tn/tensor_network_2d/tensor_network_2d.h:TensorNetwork2D"]}
{"id": "C101", "title": "Bond-dimension queries report the dimensions of the bonds", "statement": "GetMaxBondDimension is the largest dimension of a bond; GetAllInnerBondDimensions lists the dimension of every bond between two sites exactly once; GetMinMaxBondDimension returns their smallest and largest; the uniformity queries of TPS, split-index TPS and PEPS hold exactly if all bonds between sites have the same dimension.", "quantifier": "every lattice, open or periodic, all dimensions of bonds", "why_tests_cant": "Tests query a few uniform states; the wrong answers are on chains and on states with one deviating bond.", "anchors": ["include/qlpeps/two_dim_tn/tps/split_index_tps_impl.h:GetMaxBondDimension", "include/qlpeps/two_dim_tn/tps/split_index_tps_impl.h:GetAllInnerBondDimensions", "include/qlpeps/two_dim_tn/tps/split_index_tps_impl.h:GetMinMaxBondDimension", "include/qlpeps/two_dim_tn/tps/split_index_tps_impl.h:IsBondDimensionEven", "include/qlpeps/two_dim_tn/tps/tps_impl.h:GetMaxBondDimension", "include/qlpeps/two_dim_tn/tps/tps_impl.h:IsBondDimensionUniform", "include/qlpeps/two_dim_tn/peps/square_lattice_peps_basic_impl.h:GetMinMaxBondDim", "include/qlpeps/two_dim_tn/peps/square_lattice_peps_basic_impl.h:GetMaxBondDim", "include/qlpeps/two_dim_tn/peps/square_lattice_peps_basic_impl.h:IsBondDimensionUniform"]}
{"id": "C102", "title": "Without truncation a solver sees exact amplitudes during a whole traversal", "statement": "If the compression of the boundary MPS discards nothing, then during a traversal of all bonds of an open lattice every amplitude shown to a solver is exact: the amplitudes of rows and columns equal the full contraction of the network; the traces with replaced tensors on bonds, on both diagonals of every plaquette, on links of length sqrt(5), on single sites and along a row equal the full contraction with these tensors replaced; every hole contracted with a tensor gives the full contraction with that tensor in its place. The traversal fails for a zero amplitude exactly if the full contraction is reported as zero. Every bond, diagonal, link and hole asked for is shown exactly once.", "quantifier": "every open lattice with at least two rows and columns (three rows for sqrt(5) links), all bond dimensions and elements, all replacing tensors, every selection of terms, every content of the caches that is not out of date", "why_tests_cant": "Tests compare a few traces on small lattices with stored numbers; leg orders of the two-row environments and the moving window go wrong at particular columns and bond dimensions.", "anchors": ["include/qlpeps/two_dim_tn/tensor_network_2d/bmps/impl/bmps_contractor_trace.h:ReplaceNNNSiteTrace", "include/qlpeps/two_dim_tn/tensor_network_2d/bmps/impl/bmps_contractor_trace.h:ReplaceSqrt5DistTwoSiteTrace", "include/qlpeps/two_dim_tn/tensor_network_2d/bmps/impl/bmps_contractor_grow.h:GrowBTen2Step", "include/qlpeps/algorithm/vmc_update/model_solvers/base/bond_traversal_mixin.h:TraverseAllBonds", "include/qlpeps/algorithm/vmc_update/model_solvers/base/square_nnn_energy_solver.h:CalEnergyAndHolesImpl"]}
{"id": "C103", "title": "Without truncation the energy solvers return the local energy of the tensor product state", "statement": "If the compression of the boundary MPS discards nothing, the energy solvers on open lattices, run on the contractor of a sample, return the local energy for the wave function whose amplitude is the full contraction of the projected network; the amplitude of the sample, once per row and (where columns are visited) per column; and, if asked for, one hole per site whose conjugate contracted with the tensor of any local state is the amplitude with this site in that state. Exchange models fail with a zero amplitude exactly if the amplitude of the sample is zero. The caches are left without outdated entries. The |psi|^2-weighted sum of the returned energies is the expectation value of the Hamiltonian in this wave function.", "quantifier": "every open lattice with at least two columns and rows (one row for the Ising solver, three for triangular J1-J2), all bond dimensions, tensors and couplings, every sample, every content of the caches that is not out of date, with or without holes", "why_tests_cant": "Tests compare energies of a few optimised states with exact diagonalisation to a tolerance; the claim joins contraction, traversal and formulas for all tensors and samples.", "anchors": ["include/qlpeps/algorithm/vmc_update/model_solvers/base/square_nnn_energy_solver.h:CalEnergyAndHolesImpl", "include/qlpeps/algorithm/vmc_update/model_solvers/transverse_field_ising_square_obc.h:CalEnergyAndHolesImplParsed", "include/qlpeps/algorithm/vmc_update/model_solvers/spin_onehalf_triangle_heisenbergJ1J2_sqrpeps.h:CalEnergyAndHolesImpl", "include/qlpeps/algorithm/vmc_update/model_solvers/square_spin_onehalf_xxz_obc.h:EvaluateBondEnergy"]}
{"id": "C104", "title": "Exact summation computes the energy and its gradient from the tensor product state", "statement": "If the compression of the boundary MPS discards nothing, exact summation over a list of distinct configurations of nonzero amplitude, which the Hamiltonian does not connect with others, run from the tensor product state through projection, contraction, traversal and energy solver to the reduction over processes, succeeds. It returns <psi|H|psi>/<psi|psi> for the wave function psi of the state, restricted to the list. The returned gradient g is the exact derivative: along every direction v in the space of states the energy changes at the rate 2 Re <v, g>. Both are independent of the number of processes.", "quantifier": "every open lattice of sufficient size, all bond dimensions and complex tensors, all real couplings of the XXZ, J1-J2, triangular, triangular J1-J2 and transverse-field Ising models, every closed list of configurations, every direction, every number of processes", "why_tests_cant": "Tests compare energies and finite-difference gradients of small states; the claim is an identity of derivatives for all states and directions.", "anchors": ["include/qlpeps/algorithm/vmc_update/exact_summation_energy_evaluator.h:ExactSumEnergyEvaluatorMPI", "include/qlpeps/algorithm/vmc_update/model_solvers/base/square_nnn_energy_solver.h:CalEnergyAndHolesImpl", "include/qlpeps/algorithm/vmc_update/model_solvers/transverse_field_ising_square_obc.h:CalEnergyAndHolesImplParsed"]}
{"id": "C105", "title": "Whole Monte Carlo sweeps sample the squared wave function", "statement": "Let the random numbers the updaters draw be independent and uniform in [0,1). If the configuration is distributed according to |psi|^2 before any number of sweeps of an updater (exchange, full-space, Hubbard, three-site exchange), it is so distributed after them; and from every configuration of nonzero amplitude the run ends, with probability one, without undefined behaviour in a configuration of nonzero amplitude. If the compression of the boundary MPS discards nothing this holds for the sweeps on the boundary-MPS contractor with its caches, psi being the full contraction of the network. For the periodic updater it holds for every sequence of bonds drawn.", "quantifier": "every open lattice of sufficient size, all tensors, every finite set of configurations closed under the moves of the updater, every number of sweeps, every state of the caches that is not out of date", "why_tests_cant": "A test sees some finite runs with pseudo-random numbers; invariance of a distribution under all runs is a statement about a probability measure on infinite sequences.", "anchors": ["include/qlpeps/vmc_basic/configuration_update_strategies/square_nn_updater.h:MCUpdateSquareNNUpdateBaseOBC", "include/qlpeps/vmc_basic/configuration_update_strategies/square_nn_updater.h:MCUpdateSquareNNExchangeOBC", "include/qlpeps/vmc_basic/configuration_update_strategies/square_nn_updater.h:MCUpdateSquareNNFullSpaceUpdateOBC", "include/qlpeps/vmc_basic/configuration_update_strategies/square_hubbard_u1u1_updater.h:MCUpdateSquareNNHubbardU1U1OBC", "include/qlpeps/vmc_basic/configuration_update_strategies/square_3site_updater.h:MCUpdateSquareTNN3SiteExchange", "include/qlpeps/vmc_basic/configuration_update_strategies/square_nn_updater.h:MCUpdateSquareNNExchangePBC"]}
{"id": "C106", "title": "In equilibrium the Monte Carlo estimates are unbiased, and the bias of the gradient is a covariance", "statement": "Let the random numbers of every rank be independent and uniform in [0,1), let its configuration at the start be distributed according to |psi|^2 on a set of configurations neither the updater nor the Hamiltonian leaves, and let the compression of the boundary MPS discard nothing. Then the evaluator, running sweeps and energy solver in turns on one contractor with its caches, returns a result with probability one. The expectation of the energy is <psi|H|psi>/<psi|psi>. For every direction v in the space of states, twice the real part of the expectation of <v, Ostar_mean> is the derivative of ln <psi|psi>. If no amplitude is zero, twice the real part of the expectation of <v, gradient> plus the covariance of the energy and <v, Ostar_mean> is the derivative of the energy.", "quantifier": "every open lattice of sufficient size, all bond dimensions and tensors, all real couplings of the XXZ, J1-J2, triangular, triangular J1-J2 and transverse-field Ising models, the exchange, full-space and three-site updaters, every number of ranks, of samples and of sweeps between samples, every direction", "why_tests_cant": "A test sees finite runs with error bars; unbiasedness is an identity between an expectation over all random streams and a quotient of sums over all configurations.", "anchors": ["include/qlpeps/algorithm/vmc_update/mc_energy_grad_evaluator.h:Evaluate", "include/qlpeps/algorithm/vmc_update/monte_carlo_engine.h:StepSweep", "include/qlpeps/vmc_basic/configuration_update_strategies/square_nn_updater.h:MCUpdateSquareNNExchangeOBC"]}
{"id": "C107", "title": "Exchanges of single bonds connect all configurations of a composition; whole exchange sweeps need not", "statement": "If no amplitude in the sector vanishes, exchange updates of bonds of the lattice, each with positive acceptance probability, lead from every configuration to every other one with the same number of sites in each local state, and to no others. Sweeps visit the bonds in a fixed order and accept every exchange that does not lower the modulus of the amplitude, so the sampler built from them need not be ergodic: when all amplitudes have the same modulus every sweep applies one fixed permutation of the sites whatever the random numbers, and on the 2 x 2 lattice the sweeps never leave the Neel configuration.", "quantifier": "every lattice, every pair of configurations of the same composition, every amplitude function without zeros (connectedness); every lattice, random stream and number of sweeps (determinism on flat states)", "why_tests_cant": "Reachability ranges over all histories of accepted moves, and the failure of ergodicity is a statement about every random stream and every number of sweeps; a finite run that does not move may simply be unlucky.", "anchors": ["include/qlpeps/vmc_basic/configuration_update_strategies/square_nn_updater.h:MCUpdateSquareNNExchangeOBC", "include/qlpeps/vmc_basic/configuration_update_strategies/square_nn_updater.h:MCUpdateSquareNNUpdateBaseOBC"]}
{"id": "C108", "title": "The TRG contractor accepts exactly the sizes it can contract", "statement": "TRGContractor::Init succeeds on a network if and only if it is periodic and square with linear size 2^k or 3*2^k, whatever the contractor was used for before. Every other network ends in std::invalid_argument; the internal consistency checks (std::logic_error) never fire.", "quantifier": "every network, every size, every previous state of the contractor", "why_tests_cant": "The multi-scale geometry is built for every size; a test can build it for a few sizes only.", "anchors": ["include/qlpeps/two_dim_tn/tensor_network_2d/trg/trg_contractor_impl.h:Init", "include/qlpeps/two_dim_tn/tensor_network_2d/trg/trg_contractor_impl.h:BuildTopology_", "include/qlpeps/two_dim_tn/tensor_network_2d/trg/trg_contractor_impl.h:ValidateTopologyConsistency_", "include/qlpeps/two_dim_tn/tensor_network_2d/trg/trg_contractor_impl.h:ChildSplitType_"]}
{"id": "C109", "title": "Trial updates of the TRG contractor give the amplitudes of a contraction from scratch", "statement": "After Init and Trace, every amplitude returned by BeginTrialWithReplacement, EvaluateReplacement and Trace is bit for bit the one a new contractor would compute from scratch for the network asked for, whatever trials were committed or dropped before, for any number of replaced sites (also repeated ones), and none of these calls fails. This holds with any truncation.", "quantifier": "every supported lattice size, every network, every sequence of trials, commits, evaluations and traces, every splitting function (any truncation)", "why_tests_cant": "The caches of all scales are rewritten incrementally; an error shows only after particular histories of accepted and rejected updates, and with truncation there is no independent value to compare with.", "anchors": ["include/qlpeps/two_dim_tn/tensor_network_2d/trg/trg_contractor_impl.h:Trace", "include/qlpeps/two_dim_tn/tensor_network_2d/trg/trg_contractor_impl.h:BeginTrialWithReplacement", "include/qlpeps/two_dim_tn/tensor_network_2d/trg/trg_contractor_impl.h:PropagateReplacements_", "include/qlpeps/two_dim_tn/tensor_network_2d/trg/trg_contractor_impl.h:CommitTrial", "include/qlpeps/two_dim_tn/tensor_network_2d/trg/trg_contractor_impl.h:EvaluateReplacement", "include/qlpeps/two_dim_tn/tensor_network_2d/trg/trg_contractor.h:ClearCache"]}
{"id": "C110", "title": "TRG contraction without truncation is exact", "statement": "If no singular value is discarded, TRGContractor::Trace returns the exact value of the periodic network, the sum over all bond values of the product of all tensor elements, for every supported linear size (final 1x1, 2x2 and 3x3 contraction included); and so do trials and evaluations for the modified networks after any history.", "quantifier": "every supported size 2^k or 3*2^k, all tensors and bond dimensions that fit together, every exact factorization, every history of trials", "why_tests_cant": "The value must come out for every size and all tensors; a test compares a few small networks with an enumeration that is out of reach beyond them.", "anchors": ["include/qlpeps/two_dim_tn/tensor_network_2d/trg/trg_contractor_impl.h:SplitNode_", "include/qlpeps/two_dim_tn/tensor_network_2d/trg/trg_contractor_impl.h:ContractPlaquetteCore_", "include/qlpeps/two_dim_tn/tensor_network_2d/trg/trg_contractor_impl.h:ContractDiamondCore_", "include/qlpeps/two_dim_tn/tensor_network_2d/trg/trg_contractor_impl.h:ContractFinal1x1_", "include/qlpeps/two_dim_tn/tensor_network_2d/trg/trg_contractor_impl.h:ContractFinal2x2_", "include/qlpeps/two_dim_tn/tensor_network_2d/trg/trg_contractor_impl.h:ContractFinal3x3_", "include/qlpeps/two_dim_tn/tensor_network_2d/trg/trg_contractor_impl.h:Trace"]}
{"id": "C111", "title": "TRG holes reproduce the amplitude", "statement": "After Init, Trace and any history of trials, commits, evaluations and further calls of Trace, PunchAllHoles succeeds on every supported periodic network of more than one site; every hole has the shape of the tensor at its site, and the contraction of hole and tensor is the amplitude Trace returns, even if singular values were discarded.", "quantifier": "every supported size above 1, all tensors that fit together, every truncation and every history, every site", "why_tests_cant": "The identity must hold at every site of every network for all caches a sampler can leave behind; tests compare a few 4x4 networks right after Trace.", "anchors": ["include/qlpeps/two_dim_tn/tensor_network_2d/trg/trg_contractor_impl.h:PunchAllHoles", "include/qlpeps/two_dim_tn/tensor_network_2d/trg/trg_contractor_impl.h:PunchAllHolesImpl_", "include/qlpeps/two_dim_tn/tensor_network_2d/trg/trg_contractor_impl.h:LinearSplitAdjointToHole_", "include/qlpeps/two_dim_tn/tensor_network_2d/trg/trg_contractor_impl.h:PunchAllHoleFinal2x2_", "include/qlpeps/two_dim_tn/tensor_network_2d/trg/trg_contractor_impl.h:PunchAllHoleFinal3x3_"]}
{"id": "C112", "title": "TRG holes are the environments of the tensors", "statement": "Without truncation, the hole PunchAllHoles returns for a site is the environment of the tensor there: its contraction with any tensor of the same shape is the value of the network with the tensor at that site replaced by that one, i.e. the hole is the derivative of the amplitude by the tensor, which is what the gradients of periodic VMC take it for.", "quantifier": "every supported size, all tensors that fit together, every tensor put into the hole, every site", "why_tests_cant": "Tests contract the hole only with the tensor it belongs to, which cannot tell the environment from any other tensor with the same overlap; the claim is about all directions.", "anchors": ["include/qlpeps/two_dim_tn/tensor_network_2d/trg/trg_contractor_impl.h:PunchAllHoles", "include/qlpeps/two_dim_tn/tensor_network_2d/trg/trg_contractor_impl.h:LinearSplitAdjointToHole_", "include/qlpeps/two_dim_tn/tensor_network_2d/trg/trg_contractor_impl.h:PunchAllHolesImpl_", "include/qlpeps/algorithm/vmc_update/model_solvers/heisenberg_square_pbc.h:CalEnergyAndHolesImpl"]}
{"id": "C113", "title": "Periodic simulations on the TRG contractor sample what it computes", "statement": "Let the random numbers be independent and uniform. A simulation with periodic boundaries, made of the constructor of a wave-function component on the TRG contractor and any number of sweeps of the exchange or full-space updater, leaves |psi|^2 invariant, where psi(c) is the amplitude a new TRG contractor returns for the configuration c; from every configuration of nonzero amplitude it ends, with probability one, without error in a configuration of nonzero amplitude. This holds whatever the truncation discards.", "quantifier": "every supported side, all tensors, every truncation, every sequence of bonds drawn, every number of sweeps, every finite set of configurations closed under the moves", "why_tests_cant": "The contractor answers trials from caches patched along the run; that the chain has one fixed weight function is a claim about all histories and all random sequences.", "anchors": ["include/qlpeps/vmc_basic/wave_function_component.h:BeginTrial", "include/qlpeps/vmc_basic/wave_function_component.h:AcceptTrial", "include/qlpeps/vmc_basic/wave_function_component.h:EvaluateAmplitude", "include/qlpeps/vmc_basic/configuration_update_strategies/square_nn_updater.h:MCUpdateSquareNNExchangePBC", "include/qlpeps/vmc_basic/configuration_update_strategies/square_nn_updater.h:MCUpdateSquareNNFullSpaceUpdatePBC", "include/qlpeps/two_dim_tn/tensor_network_2d/trg/trg_contractor_impl.h:BeginTrialWithReplacement", "include/qlpeps/two_dim_tn/tensor_network_2d/trg/trg_contractor_impl.h:CommitTrial"]}
{"id": "C114", "title": "Local energies of the periodic XXZ solvers on the TRG contractor", "statement": "After any history of updates and evaluations, the energy the periodic XXZ, J1-J2 and Heisenberg solvers return depends on the configuration alone, the amplitude reported is the one a new contractor returns, and the energies averaged with |psi|^2 give the expectation of the Hamiltonian on the torus in the state psi the contractor computes, whatever it truncates. Asking for holes changes neither energy nor component; each hole is the conjugate of a tensor of the shape of the site tensor whose contraction with it is the amplitude.", "quantifier": "every supported side of at least 2, all tensors, every truncation, every history of updates and evaluations, all couplings and pinning fields, all configurations", "why_tests_cant": "The claim is an identity between sums over all configurations, for all cache histories.", "anchors": ["include/qlpeps/algorithm/vmc_update/model_solvers/square_spin_onehalf_j1j2_xxz_pbc.h:CalEnergyAndHolesImpl", "include/qlpeps/algorithm/vmc_update/model_solvers/heisenberg_square_pbc.h:CalEnergyAndHolesImpl", "include/qlpeps/two_dim_tn/tensor_network_2d/trg/trg_contractor_impl.h:EvaluateReplacement"]}
{"id": "C115", "title": "Local energies of the periodic transverse-field Ising solver", "statement": "The energies the periodic transverse-field Ising solver returns, averaged with |psi|^2, give the expectation of the Ising Hamiltonian on the torus in the state psi the TRG contractor computes.", "quantifier": "every supported side, all tensors that fit together, every field, every configuration, every history", "why_tests_cant": "Tests of the solver use small lattices and optimised states; the claim is for every state and size.", "anchors": ["include/qlpeps/algorithm/vmc_update/model_solvers/transverse_field_ising_square_pbc.h:CalEnergyAndHolesImpl", "include/qlpeps/two_dim_tn/tensor_network_2d/trg/trg_contractor_impl.h:PunchAllHoles"]}
{"id": "C116", "title": "Lowest state and files of an optimization", "statement": "When VmcOptimize (or the first Execute of an executor) returns, the reported minimum energy and lowest state belong to one accepted evaluation (or no accepted energy was below DBL_MAX), and no accepted evaluation has a lower energy. After every Execute the dumped final and lowest states are the ones returned, and the last trajectory file lists the returned trajectories line by line.", "quantifier": "every evaluator, update rule and stop callback, every engine, every configuration of the optimizer with retries and rollbacks, NaN energies included", "why_tests_cant": "Two callbacks and the loop keep three copies of the minimum; that they agree is a claim about all sequences of energies, retries and rollbacks.", "anchors": ["include/qlpeps/algorithm/vmc_update/vmc_peps_optimizer_impl.h:Execute", "include/qlpeps/algorithm/vmc_update/vmc_peps_optimizer_impl.h:DumpData", "include/qlpeps/algorithm/vmc_update/vmc_peps_optimizer_impl.h:WriteEnergyTrajectoryCsv_", "include/qlpeps/api/vmc_api.h:VmcOptimize"]}
{"id": "C117", "title": "Completeness of the returned trajectory", "statement": "The trajectory VmcOptimize returns, and the trajectory file, hold the energy, error and gradient norm of every accepted evaluation, in order.", "quantifier": "every evaluator, update rule and stop callback, every way in which the loop can end", "why_tests_cant": "The claim ranges over all ways in which the loop can end.", "anchors": ["include/qlpeps/algorithm/vmc_update/vmc_peps_optimizer_impl.h:Execute", "include/qlpeps/optimizer/optimizer_impl.h:IterativeOptimize", "include/qlpeps/api/vmc_api.h:VmcOptimizeResult"]}
{"id": "C118", "title": "Minimum over repeated runs of one executor", "statement": "After any number of Execute calls on one executor, GetMinEnergy and GetLowestState belong to the lowest energy in GetEnergyTrajectory.", "quantifier": "all sequences of runs on one executor", "why_tests_cant": "It is a claim about all histories of one object.", "anchors": ["include/qlpeps/algorithm/vmc_update/vmc_peps_optimizer_impl.h:Execute", "include/qlpeps/algorithm/vmc_update/vmc_peps_optimizer.h:GetMinEnergy", "include/qlpeps/algorithm/vmc_update/vmc_peps_optimizer.h:GetLowestState"]}
{"id": "C119", "title": "Progress file during an optimization", "statement": "With checkpoints enabled the trajectory file is rewritten after exactly the reported iterations i > 0 that every_n_steps divides, and at the end; the file written after iteration i has exactly the lines 0 to i with the energies, errors and gradient norms of these iterations.", "quantifier": "every evaluator, update rule, engine, every_n_steps and number of iterations", "why_tests_cant": "The claim ranges over all lengths and all patterns of retries.", "anchors": ["include/qlpeps/algorithm/vmc_update/vmc_peps_optimizer_impl.h:Execute", "include/qlpeps/algorithm/vmc_update/vmc_peps_optimizer_impl.h:WriteEnergyTrajectoryCsv_"]}
{"id": "C120", "title": "Consistency summary of the amplitudes of one configuration", "statement": "For amplitudes of one configuration above the numerical floors, the reported mean is the mean after a global sign has been chosen for each amplitude so that none is opposite to the largest one, and the relative error is the largest deviation from that mean over its magnitude. The error is zero exactly if all amplitudes agree up to sign.", "quantifier": "every list of real or complex amplitudes whose largest entry exceeds 1e-14 and length * 2^-52", "why_tests_cant": "The claim ranges over all lists of amplitudes.", "anchors": ["include/qlpeps/algorithm/vmc_update/psi_consistency.h:ComputePsiConsistencySummaryAligned"]}
{"id": "C121", "title": "The consistency error does not depend on normalisation or order", "statement": "The relative error of the amplitudes of a configuration does not change when the state is multiplied by a constant or when the amplitudes are listed in another order.", "quantifier": "every list of amplitudes, every non-zero constant, every permutation", "why_tests_cant": "The claim ranges over all scales; a test fixes one normalisation.", "anchors": ["include/qlpeps/algorithm/vmc_update/psi_consistency.h:ComputePsiConsistencySummaryAligned"]}
{"id": "C122", "title": "Emergency stop of a measurement on several processes", "statement": "A measurement always ends, on all processes and without deadlock, whenever and wherever SIGINT or SIGTERM arrive. All processes then have taken the same number of samples, the first of their own chains; all requested ones if no signal arrived; and after a signal no process takes more than one further sample.", "quantifier": "every number of processes, every number of samples, every solver and engine, every interleaving, every set of signals at any time", "why_tests_cant": "The claim is about all schedules of all processes and all times at which a signal can arrive.", "anchors": ["include/qlpeps/algorithm/vmc_update/monte_carlo_peps_measurer_impl.h:Measure_", "include/qlpeps/algorithm/vmc_update/monte_carlo_peps_measurer_impl.h:GatherStatistic_", "include/qlpeps/algorithm/vmc_update/monte_carlo_peps_measurer_impl.h:DumpData", "include/qlpeps/algorithm/vmc_update/monte_carlo_peps_measurer_impl.h:DumpMetadata_", "include/qlpeps/base/mpi_signal_guard.h:MPISignalGuard"]}
{"id": "C123", "title": "Statistics of a measurement on several processes", "statement": "When a measurement returns, complete or stopped by a signal, the master's statistics of every observable are, entry by entry, the averages over exactly the samples all processes have collected, and the number of samples in the metadata is the number of these samples.", "quantifier": "every number of processes and samples, every engine, every solver with a fixed list of observables, every set of signals", "why_tests_cant": "The claim is about all schedules and all times at which a run can be stopped.", "anchors": ["include/qlpeps/algorithm/vmc_update/monte_carlo_peps_measurer_impl.h:Measure_", "include/qlpeps/algorithm/vmc_update/monte_carlo_peps_measurer_impl.h:GatherStatistic_", "include/qlpeps/algorithm/vmc_update/monte_carlo_peps_measurer_impl.h:DumpMetadata_"]}
{"id": "C124", "title": "Rows of psi.csv", "statement": "Row k of the file psi.csv of a process is the consistency summary of the amplitudes that were computed for sample k.", "quantifier": "every solver that computes amplitudes, every engine, every run", "why_tests_cant": "The claim ranges over all solvers and runs.", "anchors": ["include/qlpeps/algorithm/vmc_update/monte_carlo_peps_measurer_impl.h:MeasureSample_", "include/qlpeps/algorithm/vmc_update/model_measurement_solver.h:EvaluatePsiSummary", "include/qlpeps/algorithm/vmc_update/model_solvers/transverse_field_ising_square_obc.h:EvaluateObservables", "include/qlpeps/algorithm/vmc_update/model_solvers/spin_onehalf_triangle_heisenbergJ1J2_sqrpeps.h:EvaluateObservables"]}
{"id": "C125", "title": "Consistency warnings", "statement": "Each measurer prints a warning for exactly the first max_warnings samples whose error exceeds the threshold, on the ranks that are to report.", "quantifier": "every run of every measurer in a process", "why_tests_cant": "It is a claim about all histories of a process.", "anchors": ["include/qlpeps/algorithm/vmc_update/monte_carlo_peps_measurer_impl.h:MeasureSample_", "include/qlpeps/algorithm/vmc_update/psi_consistency.h:PsiConsistencyWarningParams"]}
{"id": "C126", "title": "Acceptance rates printed by a measurement", "statement": "The acceptance rates printed at the end are the averages of the rates of the sweeps that were made.", "quantifier": "every run, complete or stopped by a signal", "why_tests_cant": "It needs a signal at an arbitrary time.", "anchors": ["include/qlpeps/algorithm/vmc_update/monte_carlo_peps_measurer_impl.h:Measure_"]}
{"id": "C127", "title": "Structure factor of the XXZ and triangular solvers", "statement": "The observable SpSm_cross that the XXZ and the triangular Heisenberg solver report for a sample contains, for every pair of sites in different rows, the local estimator of the product of a raising operator at the upper and a lowering operator at the lower site, that is the ratio of the amplitudes of the flipped and of the sampled configuration.", "quantifier": "every lattice, every state, every sample", "why_tests_cant": "The claim ranges over all lattices, states and samples.", "anchors": ["include/qlpeps/algorithm/vmc_update/model_solvers/base/structure_factor_measurement_mixin.h:MeasureStructureFactor", "include/qlpeps/algorithm/vmc_update/model_solvers/square_spin_onehalf_xxz_obc.h:EvaluateObservables", "include/qlpeps/algorithm/vmc_update/model_solvers/spin_onehalf_triangle_heisenberg_sqrpeps.h:EvaluateObservables"]}
{"id": "C128", "title": "Structure factor with complete lower boundaries", "statement": "If the boundary MPS from below are complete before the structure factor is measured, every pair of sites in different rows is recorded exactly once, with the amplitude of the flipped configuration, or zero where the operators annihilate the configuration; nothing fails and no access is out of range.", "quantifier": "every lattice, every state and configuration of spins one half, every content of the caches that is not out of date, factorizations without truncation", "why_tests_cant": "The claim ranges over all lattices, states, configurations and cache contents.", "anchors": ["include/qlpeps/algorithm/vmc_update/model_solvers/base/structure_factor_measurement_mixin.h:MeasureStructureFactor"]}
{"id": "C129", "title": "Walkers over the boundary MPS", "statement": "A walker taken from a contractor with current caches holds, after any number of EvolveSteps, the boundary MPS of the rows it has passed. After any history of operations on its boundary tensors in the row in front of it, a trace of one or two sites with replaced tensors either fails or is the amplitude of the network with these tensors; after InitBTenLeft and InitBTenRight every column of the window can be traced.", "quantifier": "every lattice, every truncation, every number of steps, every history of operations, every column, every replacement", "why_tests_cant": "The claim is about all histories.", "anchors": ["include/qlpeps/two_dim_tn/tensor_network_2d/bmps/impl/bmps_walker.h:EvolveStep", "include/qlpeps/two_dim_tn/tensor_network_2d/bmps/impl/bmps_walker.h:InitBTenLeft", "include/qlpeps/two_dim_tn/tensor_network_2d/bmps/impl/bmps_walker.h:InitBTenRight", "include/qlpeps/two_dim_tn/tensor_network_2d/bmps/impl/bmps_walker.h:GrowBTenLeftStep", "include/qlpeps/two_dim_tn/tensor_network_2d/bmps/impl/bmps_walker.h:GrowBTenRightStep", "include/qlpeps/two_dim_tn/tensor_network_2d/bmps/impl/bmps_walker.h:ShiftBTenWindow", "include/qlpeps/two_dim_tn/tensor_network_2d/bmps/impl/bmps_walker.h:TraceWithBTen", "include/qlpeps/two_dim_tn/tensor_network_2d/bmps/impl/bmps_walker.h:TraceWithTwoSiteBTen", "include/qlpeps/two_dim_tn/tensor_network_2d/bmps/impl/bten_operations.h:CreateVacuumBTenLeft"]}
{"id": "C130", "title": "One solution of the MinSR equations", "statement": "The solution of the MinSR equations is the same on all processes and does not depend on whether the replicated or the distributed solver computes it, on the number of processes, on the process grid or the block size, or on the eigenvectors the numerical library returns. No access is out of range as long as the block of the matrix on each process has at most 2^31 elements; beyond that the distributed solver overflows.", "quantifier": "every Hermitian matrix, every right-hand side, every tolerance, every number of processes and samples, every process grid, every result the library may return", "why_tests_cant": "The claim ranges over all grids and all choices of eigenvectors; a test runs one library on few processes, mostly below the threshold of the distributed solver.", "anchors": ["include/qlpeps/optimizer/minsr_eigensolve.h:MinSREigenSolveDispatch", "include/qlpeps/optimizer/minsr_eigensolve.h:ReplicatedEigenSolveReal", "include/qlpeps/optimizer/minsr_eigensolve.h:ReplicatedEigenSolveComplex", "include/qlpeps/optimizer/minsr_scalapack.h:ScaLAPACKEigenSolveReal", "include/qlpeps/optimizer/minsr_scalapack.h:ScaLAPACKEigenSolveComplex", "include/qlpeps/optimizer/minsr_scalapack.h:BlockCyclicLocalToGlobal"]}
{"id": "C131", "title": "MinSR direction on several processes", "statement": "The direction assembled on the master equals the MinSR direction of the samples of all processes together, whatever the schedule of the exchange, the solver and the grid. Its inner product with the estimated gradient is not negative. If the hard cutoff removes zero eigenvalues only, it is the solution of least norm of the stochastic-reconfiguration equation.", "quantifier": "every number of processes and samples, all samples and energies, every schedule of the exchange, every solver, grid and tolerance", "why_tests_cant": "The claim ranges over all schedules, samples and process numbers.", "anchors": ["include/qlpeps/optimizer/optimizer_impl.h:CalculateMinSRDirection_", "include/qlpeps/optimizer/minsr_eigensolve.h:MinSREigenSolveDispatch"]}
{"id": "C132", "title": "Loop projections apply their gates", "statement": "LocalSquareLoopProject changes the PEPS into one whose wave function, times the returned norm, is the four-site gate applied to the wave function before, whenever nothing is cut off: the full environment truncation reports no error and no weight below the inversion tolerances is treated as zero. This holds whatever eigenvectors the iterative search for the gauge finds. Tensors and weights outside the square are not changed.", "quantifier": "every lattice with open or periodic boundaries, every square, every PEPS and gate of any bond dimensions, every result of the eigenvector search, every number of rounds", "why_tests_cant": "The claim ranges over all states, gates and dominant eigenvectors; a test compares one gate on one state with an energy.", "anchors": ["include/qlpeps/two_dim_tn/peps/square_lattice_peps_projection4_impl.h:LocalSquareLoopProject", "include/qlpeps/two_dim_tn/peps/square_lattice_peps_projection4_impl.h:PatSquareLocalLoopProjector_", "include/qlpeps/two_dim_tn/peps/square_lattice_peps_projection4_impl.h:WeightedTraceGaugeFixing", "include/qlpeps/two_dim_tn/peps/square_lattice_peps_projection4_impl.h:FullEnvironmentTruncate"]}
{"id": "C133", "title": "Energy of a loop projection", "statement": "The second number LocalSquareLoopProject returns is the real part of the mean value of the gate in the square with the weights around it, also when the projection truncates. Hence the energy the executor adds for a first-order gate 1 - tau H lies between the bounds of H, and for an exponential gate between the bounds of the exponent.", "quantifier": "every lattice, square, PEPS and gate, every time step, every truncation", "why_tests_cant": "The claim ranges over all states and gates; it is an inequality for the whole spectrum.", "anchors": ["include/qlpeps/two_dim_tn/peps/square_lattice_peps_projection4_impl.h:LocalSquareLoopProject", "include/qlpeps/algorithm/loop_update/loop_update_impl.h:LoopUpdateSweep_"]}
{"id": "C134", "title": "Sweeps of the loop update", "statement": "A sweep of the loop update applies the gates of all plaquettes, each exactly once, in an order that depends on the lattice only: the product of the norms times the final wave function is the product of the gates applied to the initial one when nothing is cut off, the energy E0 it reports is the sum of the energies of its projections, and the energy estimated from the norm is minus the logarithm of that product over tau; the last two hold also when the projections truncate.", "quantifier": "every lattice of even sizes with periodic or of any size with open boundaries, all gates, every PEPS, every result of the eigenvector search", "why_tests_cant": "The claim ranges over all lattices, states and gates.", "anchors": ["include/qlpeps/algorithm/loop_update/loop_update_impl.h:LoopUpdateSweep_", "include/qlpeps/two_dim_tn/peps/square_lattice_peps_projection4_impl.h:LocalSquareLoopProject"]}
{"id": "C135", "title": "Results of the Arnoldi solver", "statement": "What ArnoldiSolver returns is the dominant Ritz pair of a Krylov space of the initial vector with fewer dimensions than elements and iterations; unless it warns, the residual is at most the requested error times the norm of the map. For complex elements it always returns, given two elements and two iterations. With a single element it ends the process.", "quantifier": "every linear map, every initial vector of any size, all parameters, every result LAPACK may return", "why_tests_cant": "The claim ranges over all maps and vectors; the tests run a few random tensors.", "anchors": ["include/qlpeps/two_dim_tn/peps/arnoldi_solver.h:ArnoldiSolver", "include/qlpeps/two_dim_tn/peps/arnoldi_solver.h:HeiMatDiag"]}
{"id": "C136", "title": "Results of the power method", "statement": "PowerMethod returns the normalized image of the initial vector under a power of the map. It warns exactly when it has used all iterations without convergence; otherwise the vector is an eigenvector up to the square root of twice the tolerance, times the norm of the map. Hermitian and positive initial matrices stay so under maps that keep them so.", "quantifier": "every linear map, every initial vector, all parameters", "why_tests_cant": "The claim ranges over all maps and vectors.", "anchors": ["include/qlpeps/two_dim_tn/peps/square_lattice_peps_projection4_impl.h:PowerMethod"]}
{"id": "C137", "title": "Overlaps of the replica test", "statement": "ReplicaTest starts all processes from the configuration of process 0. The file of each process holds, for every sweep, the overlap of its configuration after this sweep with that of the preceding process in the ring after its sweep of the same number, however the processes are scheduled and whatever MPI buffers. The master reports the average acceptance rates after every tenth of the samples.", "quantifier": "every number of processes and samples, every schedule, every choice of buffered messages, every engine and overlap function", "why_tests_cant": "The order in which processes send and receive differs from run to run; the claim ranges over all of them.", "anchors": ["include/qlpeps/algorithm/vmc_update/monte_carlo_peps_measurer_impl.h:ReplicaTest", "include/qlpeps/algorithm/vmc_update/monte_carlo_peps_measurer_impl.h:SynchronizeConfiguration_", "include/qlpeps/vmc_basic/configuration.h:MPI_Sendrecv"]}
{"id": "C138", "title": "The replica test ends for every number of samples", "statement": "ReplicaTest returns on all processes, for every number of processes and samples, even if MPI buffers no message.", "quantifier": "every number of processes and samples, every schedule, every choice of buffered messages", "why_tests_cant": "Deadlocks depend on the schedule and on the buffering of MPI.", "anchors": ["include/qlpeps/algorithm/vmc_update/monte_carlo_peps_measurer_impl.h:ReplicaTest", "include/qlpeps/vmc_basic/configuration.h:MPI_Sendrecv"]}
{"id": "C139", "title": "Variational boundary MPS are the best for their tensors", "statement": "With the schemes VARIATION2Site and VARIATION1Site, MultiplyMPO of a boundary MPS of at least three tensors returns a boundary MPS on the outer legs of the row, whose tensors after the first one are orthonormal. Its first tensor is the one that brings the result closest to the exact product: every other first tensor gives a larger error. The squared norm of the result and the squared error add up to the squared norm of the exact product. With two tensors every scheme does the same as SVD_COMPRESS. Without tolerance or number of iterations the variational schemes throw.", "quantifier": "every boundary MPS and row of matching tensors of at least three sites, every side, every truncation, tolerance and number of iterations, every QR and SVD with the documented properties", "why_tests_cant": "The result depends on the tensors, on the truncation and on when the iterations stop; optimality is a statement about all other tensors.", "anchors": ["include/qlpeps/one_dim_tn/boundary_mps/bmps_impl.h:MultiplyMPO", "include/qlpeps/one_dim_tn/boundary_mps/bmps_impl.h:MultiplyMPO2SiteVariationalCompress_", "include/qlpeps/one_dim_tn/boundary_mps/bmps_impl.h:MultiplyMPO1SiteVariationalCompress_"]}
{"id": "C140", "title": "Variational boundary MPS are exact if the bond dimension suffices", "statement": "With the schemes VARIATION2Site and VARIATION1Site, no truncation error and a maximal bond dimension that suffices for every state of the outer legs, MultiplyMPO returns the exact product, for every number of iterations.", "quantifier": "every boundary MPS and row of matching tensors of at least three sites, every side, tolerance and number of iterations", "why_tests_cant": "A test compares the result for a few tensors; the claim is about all of them.", "anchors": ["include/qlpeps/one_dim_tn/boundary_mps/bmps_impl.h:MultiplyMPO", "include/qlpeps/one_dim_tn/boundary_mps/bmps_impl.h:MakeVariationalInitGuess_"]}
{"id": "C141", "title": "One-site iterations improve the boundary MPS", "statement": "With the scheme VARIATION1Site, the error of MultiplyMPO does not grow with the number of iterations that are allowed for.", "quantifier": "every boundary MPS and row of matching tensors of at least three sites, every side, truncation and tolerance, every two numbers of iterations", "why_tests_cant": "The error after each iteration depends on the tensors; a test sees only a few of them.", "anchors": ["include/qlpeps/one_dim_tn/boundary_mps/bmps_impl.h:MultiplyMPO", "include/qlpeps/one_dim_tn/boundary_mps/bmps_impl.h:MultiplyMPO1SiteVariationalCompress_"]}
{"id": "C142", "title": "Amplitudes and energies of a converted PEPS", "statement": "A PEPS on an open lattice that was started as a basis state and projected on by any sequence of gates without truncation is converted with ToSplitIndexTPS, projected on a configuration and contracted without truncation: the amplitude, times the product of the norms that the projections reported, is the one of the gates applied to the basis state. For every PEPS with nonnegative weights, and weight one on the bonds that leave the lattice, the amplitudes are those of the PEPS, and exact summation over a closed set of configurations returns the energy of the PEPS for the XXZ, J1-J2 and transverse-field Ising models.", "quantifier": "every lattice with at least two columns, every sequence of projections in its range, every configuration, every state of the contractor before Init, every set of configurations closed under the Hamiltonian, every number of processes", "why_tests_cant": "The statement joins simple update, conversion, projection, boundary MPS and energy solvers; a test sees a few gates on a few lattices.", "anchors": ["include/qlpeps/api/conversions.h:ToSplitIndexTPS", "include/qlpeps/api/conversions.h:ToTPS"]}
{"id": "C143", "title": "Contracting a row between a walker and the opposite boundary", "statement": "A walker that was taken from the upper boundary and evolved to a row contracts any row of tensors with the lower boundary below that row: without truncation ContractRow returns the value of the network in which the row was exchanged for these tensors. Empty boundaries, different lengths and any other pair of directions than up and down are rejected with an exception.", "quantifier": "every open lattice, every network and every row of tensors that fit, every number of steps of the walker, every contractor whose cached boundaries belong to the network", "why_tests_cant": "The overlap depends on all tensors and on the storage orders of three sequences, which a symmetric test network does not distinguish.", "anchors": ["include/qlpeps/two_dim_tn/tensor_network_2d/bmps/impl/bmps_walker.h:ContractRow", "include/qlpeps/two_dim_tn/tensor_network_2d/bmps/impl/bmps_walker.h:EvolveStep", "include/qlpeps/two_dim_tn/tensor_network_2d/bmps/impl/bmps_walker.h:GetWalker"]}
{"id": "C144", "title": "Truncation error of SVD_COMPRESS", "statement": "Multiplying a boundary MPS with a row under SVD_COMPRESS, with any truncation, returns a boundary MPS on the outer legs of the row with bonds no larger than the number of singular values that are kept. Its squared norm and the squared error add up to the squared norm of the exact product, and no other first tensor is closer to the exact product. If every singular value decomposition discards at most the part e of the weight (the truncation error of the parameters), the squared error is at most (N-1) e times the squared norm of the exact product for N tensors, and the overlap with the rest of the network changes by at most that much.", "quantifier": "every side, every boundary MPS and row that fit, every number of tensors and every dimension, every truncation of the factorizations, every state of the outer legs", "why_tests_cant": "The bound has to hold for every tensor and every sequence of truncations; a test compares one result with one number.", "anchors": ["include/qlpeps/one_dim_tn/boundary_mps/bmps_impl.h:MultiplyMPO", "include/qlpeps/one_dim_tn/boundary_mps/bmps_impl.h:MultiplyMPOSVDCompress_"]}
{"id": "C145", "title": "Traces along one row or column agree under any truncation", "statement": "With any truncation of the boundary MPS, all traces evaluated within one row (or one column) of an open network, on any bond, with three sites or with one site, give the same number, and the hole at any site of it, paired with a tensor, is the trace of the network with this tensor at the site. Amplitude ratios formed within one row are therefore ratios of the same approximation.", "quantifier": "every open lattice with at least two rows and columns, every network that fits, every truncation of the factorizations, every row, column and bond", "why_tests_cant": "The agreement is between approximations; a test with a finite bond dimension sees agreement up to a tolerance that also accepts small differences of approximations.", "anchors": ["include/qlpeps/two_dim_tn/tensor_network_2d/bmps/impl/bmps_contractor_trace.h:Trace", "include/qlpeps/two_dim_tn/tensor_network_2d/bmps/impl/bmps_contractor_trace.h:ReplaceNNSiteTrace", "include/qlpeps/two_dim_tn/tensor_network_2d/bmps/impl/bmps_contractor_trace.h:ReplaceTNNSiteTrace", "include/qlpeps/two_dim_tn/tensor_network_2d/bmps/impl/bmps_contractor_trace.h:ReplaceOneSiteTrace"]}
{"id": "C146", "title": "Error of the amplitude under truncation", "statement": "If every singular value decomposition discards at most the part e of the weight (the truncation error of the parameters), the trace evaluated in any row of an open network with R rows and C columns differs from its exact value by at most (R-1) sqrt((C-1) e) times the product of the bounds of the rows as maps between states of their vertical legs; for columns with R and C exchanged. In particular this holds for the amplitude computed at the start.", "quantifier": "every open lattice with at least two rows and columns, every network that fits, every truncation with the given truncation error, every row and column, every bound of the rows", "why_tests_cant": "The bound has to hold for every network and every sequence of truncations.", "anchors": ["include/qlpeps/two_dim_tn/tensor_network_2d/bmps/impl/bmps_contractor_trace.h:Trace", "include/qlpeps/one_dim_tn/boundary_mps/bmps_impl.h:MultiplyMPOSVDCompress_", "include/qlpeps/vmc_basic/wave_function_component.h:EvaluateAmplitude"]}
{"id": "C147", "title": "When the variational compressions end", "statement": "The one-site scheme returns the result of the first iteration, from the second on, in which the compared norm grew by at most the tolerance relative to itself, and the result of the last allowed iteration if there is none. The compared norm lies between the norms of the results before and after the iteration. With a positive tolerance the scheme ends by itself: from some number of allowed iterations on, allowing for more changes nothing. The two-site scheme returns the result of the first iteration, from the second on, after which the singular values between the second and the third tensor are as many as before and changed in total by less than the tolerance times the first of them.", "quantifier": "every side, every boundary MPS of at least three tensors and every row that fit, every truncation, every tolerance and every allowed number of iterations", "why_tests_cant": "Termination without the limit is a statement about infinitely many iterations.", "anchors": ["include/qlpeps/one_dim_tn/boundary_mps/bmps_impl.h:MultiplyMPO2SiteVariationalCompress_", "include/qlpeps/one_dim_tn/boundary_mps/bmps_impl.h:MultiplyMPO1SiteVariationalCompress_"]}
{"id": "C148", "title": "Canonical form after Centralize", "statement": "Take a boundary MPS from a constructor or from a multiplication with a row, whose state does not vanish, and call its members in any order. Calls with arguments in range succeed and keep the state (Reverse reverses it, GetEntanglementEntropy normalizes it). After any such history, Centralize to any tensor keeps the state and leaves all tensors before the target isometric from the left and all tensors after it isometric from the right.", "quantifier": "every length, every dimensions of the legs, every nonvanishing state, every sequence of calls of Centralize, LeftCanonicalize, RightCanonicalize, LeftCanonicalizeTen, RightCanonicalizeTen, RightCanonicalizeTruncate, GetEntanglementEntropy and Reverse, every target", "why_tests_cant": "Centralize skips tensors which are marked as isometric; whether the marks are right depends on the whole history of the object.", "anchors": ["include/qlpeps/one_dim_tn/boundary_mps/bmps_impl.h:Centralize", "include/qlpeps/one_dim_tn/boundary_mps/bmps_impl.h:LeftCanonicalize", "include/qlpeps/one_dim_tn/boundary_mps/bmps_impl.h:RightCanonicalize", "include/qlpeps/one_dim_tn/boundary_mps/bmps_impl.h:LeftCanonicalizeTen", "include/qlpeps/one_dim_tn/boundary_mps/bmps_impl.h:RightCanonicalizeTen", "include/qlpeps/one_dim_tn/boundary_mps/bmps_impl.h:RightCanonicalizeTruncate", "include/qlpeps/one_dim_tn/boundary_mps/bmps_impl.h:Reverse"]}
{"id": "C149", "title": "Entanglement entropies", "statement": "After any history of calls as in C148, GetEntanglementEntropy(n) returns for every bond the Renyi entropy of order n (von Neumann for n = 1) of the reduced density matrix of the normalized state on the tensors up to the bond. It leaves the object normalized.", "quantifier": "every length, every dimensions of the legs, every nonvanishing state, every history of calls as in C148, every order n, every bond", "why_tests_cant": "The entropies are those of the state only if the form of the object at every bond is canonical, which depends on the whole history.", "anchors": ["include/qlpeps/one_dim_tn/boundary_mps/bmps_impl.h:GetEntanglementEntropy", "include/qlpeps/one_dim_tn/boundary_mps/bmps_impl.h:RightCanonicalizeTenWithSVD_"]}
{"id": "C150", "title": "Truncating one bond of a boundary MPS", "statement": "After any history of calls as in C148, Centralize(i) followed by RightCanonicalizeTruncate(i) replaces the state by one whose Schmidt rank at this bond is the new bond dimension, which is at most the number of singular values SVD may keep. The squared norm lost is exactly the squared error; it is at most the part of the weight that SVD may discard; and if SVD keeps the largest singular values, no state with this Schmidt rank is closer. The object is left canonical about the tensor before the bond.", "quantifier": "every length, every dimensions of the legs, every nonvanishing state, every history of calls as in C148, every bond, every truncation parameters", "why_tests_cant": "Optimality is a statement about all competing states, and it holds only if the history left the object canonical at the bond.", "anchors": ["include/qlpeps/one_dim_tn/boundary_mps/bmps_impl.h:RightCanonicalizeTruncate", "include/qlpeps/one_dim_tn/boundary_mps/bmps_impl.h:Centralize"]}
{"id": "C151", "title": "The lattice of observables is a lattice of numbers", "statement": "After any history of Resize, assignments to sites, Add and Extract, reading a site of an ObservableMatrix gives what was last assigned to it plus what was added since, and the initial value (zero by default) after Resize; Flatten and Extract list the values of all the sites row by row; any access outside of the lattice throws and changes nothing; after Extract every access throws until the next Resize, although rows() and cols() still give the old lattice.", "quantifier": "every history of calls with any arguments, every lattice", "why_tests_cant": "The flat storage, the two dimensions and the bounds check must agree after every history; a test with a square lattice does not see a wrong stride.", "anchors": ["include/qlpeps/utility/observable_matrix.h:ObservableMatrix"]}
{"id": "C152", "title": "Warnings about inconsistent amplitudes", "statement": "If warnings are enabled, a rank that may print (every rank, or only the master one if so requested) prints one warning for each sample of Evaluate whose amplitudes deviate by more than the threshold, with the deviation, the mean and the first amplitudes of this very sample, until the maximal number of warnings is reached in the lifetime of the evaluator; the last of them is followed by one note that further ones are suppressed, and nothing is printed after it. Otherwise nothing is printed at all. Samples of the energy only cause no warning. The summary the energy solver returns is the one of the last sample for which the energy was computed, and vanishes before the first.", "quantifier": "every sequence of evaluations and of samples, every threshold and maximal number, every rank", "why_tests_cant": "Whether a warning is printed depends on all samples before it in the evaluation.", "anchors": ["include/qlpeps/algorithm/vmc_update/model_energy_solver.h:GetLastPsiConsistencySummary", "include/qlpeps/algorithm/vmc_update/model_energy_solver.h:CalEnergyAndHoles", "include/qlpeps/algorithm/vmc_update/psi_consistency.h:FormatPsiListTruncated", "include/qlpeps/algorithm/vmc_update/mc_energy_grad_evaluator.h:Evaluate"]}
{"id": "C153", "title": "SVD compression is almost the best one", "statement": "With SVD_COMPRESS and an SVD that keeps the D largest singular values, the squared error of MultiplyMPO on N tensors is at most N-1 times the squared error of any state whose Schmidt ranks are at most D, in particular of any boundary MPS with bonds of dimension at most D. The same holds with the bond dimensions of the result in place of D. On two tensors the result is therefore optimal.", "quantifier": "every length, every dimensions, every boundary MPS and transfer MPO on any side, every D, every competing state", "why_tests_cant": "It compares the result with all states of these ranks.", "anchors": ["include/qlpeps/one_dim_tn/boundary_mps/bmps_impl.h:MultiplyMPO", "include/qlpeps/one_dim_tn/boundary_mps/bmps_impl.h:MultiplyMPOSVDCompress_", "include/qlpeps/one_dim_tn/boundary_mps/bmps_impl.h:RightCanonicalizeTruncate"]}
{"id": "C154", "title": "Traces in different rows agree under truncation", "statement": "For every truncation, the traces of the boundary-MPS contractor give the same amplitude of a network in whichever row (or column) they are taken.", "quantifier": "every lattice, every network, every truncation that keeps the largest singular values, every two rows", "why_tests_cant": "Tests compare rows for bond dimensions large enough, where the traces agree; a counterexample needs an SVD of which the kept singular vectors differ between the rows.", "anchors": ["include/qlpeps/two_dim_tn/tensor_network_2d/bmps/impl/bmps_contractor_trace.h:Trace", "include/qlpeps/one_dim_tn/boundary_mps/bmps_impl.h:MultiplyMPO"]}
{"id": "C155", "title": "The amplitude stored during truncated sampling", "statement": "After any number of nearest-neighbour sweeps with a truncated contraction, the amplitude stored with the walker is the trace of the network of the stored configuration at some bond, computed from scratch; its error is that of one contraction and does not accumulate over the accepted moves. It is not in general the amplitude that evaluating the stored configuration anew gives.", "quantifier": "every contraction and truncation, every lattice with at least two rows and columns, every updater that stores the trace it accepted, every random stream, every number of sweeps", "why_tests_cant": "A test runs a few sweeps of one random stream at a bond dimension for which truncation does not matter.", "anchors": ["include/qlpeps/vmc_basic/configuration_update_strategies/square_nn_updater.h:MCUpdateSquareNNUpdateBaseOBC", "include/qlpeps/vmc_basic/wave_function_component.h:UpdateLocal", "include/qlpeps/two_dim_tn/tensor_network_2d/bmps/impl/bmps_contractor_trace.h:ReplaceNNSiteTrace"]}
{"id": "C156", "title": "The amplitude after three-site sweeps depends on the configuration only", "statement": "After at least one three-site sweep, from whatever amplitude it started and with any truncation, the stored amplitude is the trace of the network of the stored configuration in the last column. Two walkers with the same configuration have the same amplitude, whatever moves they made.", "quantifier": "every truncation by SVD and QR, every lattice with at least three rows and columns, every network, every updater that stores the trace it accepted, every random stream, every number of sweeps", "why_tests_cant": "It ranges over all histories of accepted and rejected moves and all truncations.", "anchors": ["include/qlpeps/vmc_basic/configuration_update_strategies/square_3site_updater.h:MCUpdateSquareTNN3SiteUpdateBase", "include/qlpeps/two_dim_tn/tensor_network_2d/bmps/impl/bmps_contractor_trace.h:ReplaceTNNSiteTrace"]}
{"id": "C157", "title": "What three-site sweeps sample under truncation", "statement": "With any truncation, a three-site exchange sweep is a sequence of moves line by line, and the moves within one row (or column) leave the distribution proportional to the squared trace in that row (column) invariant, whatever amplitude was stored before the line.", "quantifier": "every truncation by SVD and QR, every lattice with at least three rows and columns, every network, every finite set of configurations closed under the moves, every stored amplitude, independent uniform random numbers", "why_tests_cant": "Invariance is a statement about probabilities over all random streams and all configurations.", "anchors": ["include/qlpeps/vmc_basic/configuration_update_strategies/square_3site_updater.h:MCUpdateSquareTNN3SiteUpdateBase", "include/qlpeps/vmc_basic/configuration_update_strategies/square_3site_updater.h:MCUpdateSquareTNN3SiteExchange", "include/qlpeps/two_dim_tn/tensor_network_2d/bmps/impl/bmps_contractor_trace.h:ReplaceTNNSiteTrace"]}
{"id": "C158", "title": "Estimated gradients do not rescale site tensors", "statement": "Multiplying all tensors of one site by a number changes the state by a factor and its energy not at all. Whenever a Monte Carlo run contracts without truncation, what it returns respects this in every run, not only on average: the mean of O* has component one along the tensors of every site, the gradient has the same component along the tensors of all sites, and none if the number of samples per rank fills the energy bins. The gradient of exact summation has none, over any list of configurations. The S matrix multiplies these directions by the diagonal shift only, and neither the solution of the shifted equations nor the MinSR direction has a component along them.", "quantifier": "every lattice, state, updater, number of ranks, samples and sweeps between samples, every random stream that leads through configurations of nonzero amplitude (almost every one in equilibrium), every exact model solver; every list of samples, shift, right-hand side and spectrum for the S matrix and MinSR", "why_tests_cant": "The statement is about the result of every random run and every sample list.", "anchors": ["include/qlpeps/algorithm/vmc_update/mc_energy_grad_evaluator.h:MCEnergyGradEvaluator::Evaluate", "include/qlpeps/optimizer/stochastic_reconfiguration_smatrix.h:SRSMatrix", "include/qlpeps/optimizer/optimizer_impl.h:CalculateMinSRDirection_"]}
{"id": "C159", "title": "Optimizer steps do not shrink the tensors of a site", "statement": "If the gradients have no component along the tensors of a site (C158), plain gradient steps without weight decay add to the squared norm of the site's tensors exactly the squared lengths of the steps at the site, and steps with momentum never make it smaller. Weight decay multiplies it by the square of one minus learning rate times decay. Clipping by the global norm keeps the gradients free of such components; clipping element by element does not and can shrink a site, and so can Nesterov's momentum when the learning rate varies.", "quantifier": "every state, gradient, site, parameters and history of any length with nonnegative learning rates", "why_tests_cant": "Histories are unbounded and the gradients arbitrary.", "anchors": ["include/qlpeps/optimizer/optimizer_impl.h:SGDUpdate", "include/qlpeps/optimizer/optimizer_impl.h:IterativeOptimize", "include/qlpeps/two_dim_tn/tps/split_index_tps_impl.h:ClipByGlobalNorm", "include/qlpeps/two_dim_tn/tps/split_index_tps_impl.h:ElementWiseClipTo"]}
{"id": "C160", "title": "Rescaling the tensors of a site changes a Monte Carlo run only where it must", "statement": "Multiplying all tensors of one site by a nonzero number leaves the physical state as it is. Run with the same random numbers, the Monte Carlo evaluation visits the same configurations and returns the same energy; the mean of O* and the energy gradient are divided by the complex conjugate of the number at that site and are the same at every other site. So plain gradient steps depend on how the norm of the state is distributed over the sites.", "quantifier": "every state, lattice size, site, nonzero real or complex number, stream of random numbers, number of ranks and samples, for the three updaters", "why_tests_cant": "Holds for every random stream and every number; a test compares two runs.", "anchors": ["include/qlpeps/vmc_basic/configuration_update_strategies/square_nn_updater.h:MCUpdateSquareNNUpdateBaseOBC", "include/qlpeps/vmc_basic/configuration_update_strategies/square_3site_updater.h:MCUpdateSquareTNN3SiteExchange", "include/qlpeps/vmc_basic/monte_carlo_tools/suwa_todo_update.h:SuwaTodoStateUpdate", "include/qlpeps/algorithm/vmc_update/mc_energy_grad_evaluator.h:Evaluate"]}
{"id": "C161", "title": "Natural gradient steps do not depend on the scale of the tensors of a site, plain steps do", "statement": "If the tensors of a site are multiplied by a nonzero number, O* samples and gradient there are divided by its complex conjugate (C160). Without diagonal shift and normalization, every stochastic-reconfiguration step of the rescaled state is the rescaled step of the state. A plain gradient step instead has its learning rate at the site divided by the squared absolute value of the number. With a diagonal shift or with a normalized update the stochastic-reconfiguration step depends on the scale too; the length of a normalized step is the learning rate.", "quantifier": "every state, set of samples on any number of processes, gradient, site, nonzero real or complex number and learning rate", "why_tests_cant": "Ranges over all sample sets and all rescalings.", "anchors": ["include/qlpeps/optimizer/optimizer_impl.h:StochasticReconfigurationUpdate", "include/qlpeps/optimizer/optimizer_impl.h:CalculateNaturalGradient", "include/qlpeps/optimizer/optimizer_impl.h:SGDUpdate", "include/qlpeps/optimizer/stochastic_reconfiguration_smatrix.h:SRSMatrix"]}
{"id": "C162", "title": "Stochastic reconfiguration starts conjugate gradient from the state, which shrinks the tensors", "statement": "From its second iteration on, stochastic reconfiguration uses the updated state, not the last natural gradient, as initial guess of conjugate gradient. Conjugate gradient keeps the guess's component along every direction the matrix and the gradient do not see, however it ends. The tensors of a site are such a direction (C158): without diagonal shift the first step leaves the state's component along the site's tensors alone, and each later step multiplies it by one minus the learning rate, although the energy does not depend on it. With a positive shift and convergence the natural gradient's component there is at most the norm of the tensors times tolerance over shift, whatever the guess.", "quantifier": "every history of iterations of any length, samples on any number of processes, state, site, learning rates, solver parameters and way the solver ends", "why_tests_cant": "Ranges over histories of any length and all sample sets.", "anchors": ["include/qlpeps/optimizer/optimizer_impl.h:IterativeOptimize", "include/qlpeps/optimizer/optimizer_impl.h:StochasticReconfigurationUpdate", "include/qlpeps/optimizer/optimizer_impl.h:CalculateNaturalGradient", "include/qlpeps/utility/conjugate_gradient_solver.h:ConjugateGradientSolver"]}
{"id": "C163", "title": "Normalizing the state does not change what a run measures", "statement": "Before a run the engine multiplies all site tensors by one number that makes the largest amplitude of the ranks have absolute value one. If no rank has amplitude zero that number is positive, and with the same random numbers the Monte Carlo evaluation visits the same configurations and returns the same energy, and its gradient is divided by the number. More generally the tensors of every site may be multiplied by a nonzero number of the site: the mean of O* and the gradient are then divided, site by site, by the complex conjugate of the number of the site.", "quantifier": "every state, lattice size, family of nonzero real or complex numbers, list of nonzero amplitudes, stream of random numbers, number of ranks and samples, for the three updaters", "why_tests_cant": "Holds for every random stream and every family of numbers; a test compares two runs.", "anchors": ["include/qlpeps/algorithm/vmc_update/monte_carlo_engine.h:NormalizeStateOrder1", "include/qlpeps/algorithm/vmc_update/mc_energy_grad_evaluator.h:Evaluate"]}
{"id": "C164", "title": "Exact summation does not depend on how the norm of the state is distributed over the sites", "statement": "Multiply the tensors of every site by a nonzero number of the site. Exact summation over the same configurations returns the same energy, and the gradient of every site divided by the complex conjugate of the number of the site, on any number of processes.", "quantifier": "every state whose amplitudes on the listed configurations are nonzero, lattice size, list of distinct configurations not connected with others by the Hamiltonian, family of nonzero real or complex numbers and number of processes, for the XXZ, J1-J2, triangular, triangular J1-J2 and transverse-field Ising solvers", "why_tests_cant": "Holds for every state and every family of numbers; a test compares two states.", "anchors": ["include/qlpeps/algorithm/vmc_update/exact_summation_energy_evaluator.h:ExactSumEnergyEvaluatorMPI"]}
