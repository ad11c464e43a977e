{"id": "C01", "title": "Log-likelihood is the exact GP marginal likelihood", "statement": "For an instantaneous kernel and time-sorted coordinates, GaussianProcess.log_probability(y) equals -1/2 y^T (K+D)^{-1} y - 1/2 log det(K+D) - N/2 log 2pi, with K_ij = kernel(X_i,X_j) evaluated by the kernel itself and D the diagonal noise.", "quantifier": "every state dimension, every number N of data points, every sorted coordinate array, every y, every noise diagonal for which the innovation variances are positive, every kernel (leaf, sum, product)", "why_tests_cant": "tests compare against tinygp on a handful of fixed datasets of 50 points; exactness is a claim about every dataset and kernel", "anchors": ["src/smolgp/gp.py: GaussianProcess.log_probability, _compute_log_prob", "src/smolgp/solvers/kalman.py: kalman_filter", "src/smolgp/kernels/base.py: StateSpaceModel.evaluate"]}
{"id": "C02", "title": "Conditioned mean at the data is the exact GP posterior mean", "statement": "After gp.condition(y) the conditioned GP's loc at data point n equals [K (K+D)^{-1} y]_n.", "quantifier": "every dimension, N, sorted coordinates, y, positive noise, kernel with an invertible stationary covariance and exact process noise (sums and products of exported instantaneous classes other than oscillators of quality above 1/2, for which see C01, C97)", "why_tests_cant": "numerical tests sample a few datasets", "anchors": ["src/smolgp/gp.py: GaussianProcess.condition, ConditionedStates.project_at_data", "src/smolgp/solvers/rts.py: rts_smoother", "src/smolgp/solvers/solver.py: StateSpaceSolver.condition"]}
{"id": "C03", "title": "Conditioned variance at the data is the exact GP posterior variance", "statement": "After gp.condition(y) the conditioned GP's variance at data point n equals k(t_n,t_n) - K_n (K+D)^{-1} K_n^T.", "quantifier": "every dimension, N, sorted coordinates, y, positive noise, kernel with an invertible stationary covariance and exact process noise (sums and products of exported instantaneous classes other than oscillators of quality above 1/2, for which see C01, C97)", "why_tests_cant": "numerical tests sample a few datasets", "anchors": ["src/smolgp/gp.py: ConditionedStates.project_at_data", "src/smolgp/solvers/rts.py: rts_smoother"]}
{"id": "C04", "title": "Prediction at arbitrary test coordinates is exact GP regression", "statement": "condGP.predict(X_test, return_var=True) returns, for each test coordinate (before, between, at or after the data), mean k(t*,X)(K+D)^{-1}y and variance k(t*,t*) - k(t*,X)(K+D)^{-1}k(X,t*).", "quantifier": "every test coordinate, dimension, N>=1, sorted coordinates, y, positive noise, kernel with an invertible stationary covariance and exact process noise (sums and products of exported instantaneous classes other than oscillators of quality above 1/2, for which see C01, C97)", "why_tests_cant": "the three code paths (retrodict / interpolate / extrapolate) are selected per test point; tests use one grid", "anchors": ["src/smolgp/gp.py: GaussianProcess.predict", "src/smolgp/solvers/solver.py: StateSpaceSolver.predict"]}
{"id": "C05", "title": "Predicting at a data coordinate agrees with conditioning", "statement": "Predicting at a coordinate equal to a data coordinate returns the same mean and variance as the conditioned GP reports at that data point, including repeated coordinates and the first and last one.", "quantifier": "every data index, every dataset with sorted coordinates: kernels with exact process noise (sums and products of exported instantaneous classes other than oscillators of quality above 1/2, for which see C01, C97) and positive noise, repeats allowed; oscillators of any damping and any noise, at times observed once", "why_tests_cant": "ties in searchsorted and repeated coordinates form an unbounded family of boundary cases", "anchors": ["src/smolgp/solvers/solver.py: StateSpaceSolver.predict (k_nexts, cases)", "src/smolgp/gp.py: project_at_data"]}
{"id": "C06", "title": "Parallel filter equals sequential filter", "statement": "ParallelStateSpaceSolver and StateSpaceSolver give the same filtered/predicted means and covariances, innovations, innovation variances, and hence the same log_probability.", "quantifier": "every N>=1, dimension, data, noise > 0, positive semidefinite process noise, any observation model constant in the coordinate", "why_tests_cant": "the parallel algorithm regroups operations by a tree whose shape depends on N; a test runs one N", "anchors": ["src/smolgp/solvers/parallel/kalman.py: make_associative_params, _combine_per_pair, parallel_kalman_filter, postprocess"]}
{"id": "C07", "title": "Parallel smoother equals sequential smoother", "statement": "ParallelStateSpaceSolver and StateSpaceSolver give the same smoothed means and covariances, and so the same conditioned GP.", "quantifier": "every N>=1, dimension, kernel with positive semidefinite process noise, noise or process noise positive at each datum, predicted covariances invertible", "why_tests_cant": "tree shape depends on N", "anchors": ["src/smolgp/solvers/parallel/rts.py: make_associative_params, _combine_per_pair, parallel_rts_smoother"]}
{"id": "C08", "title": "Scan schedule independence", "statement": "The combination operators used by the parallel solvers are associative on the elements the solvers produce, so any bracketing chosen by associative_scan (forward or reverse) yields the sequential prefix (suffix) results.", "quantifier": "every bracketing, every list length, all filtering elements with symmetric positive semidefinite C and J; all smoothing elements", "why_tests_cant": "the number of bracketings is exponential in N", "anchors": ["src/smolgp/solvers/parallel/kalman.py: _combine_per_pair", "src/smolgp/solvers/parallel/rts.py: _combine_per_pair", "src/smolgp/solvers/integrated/parallel/kalman.py", "src/smolgp/solvers/integrated/parallel/rts.py"]}
{"id": "C09", "title": "Integrated solver: likelihood is exact for the augmented model", "statement": "For integrated kernels log_probability(y) equals the zero-mean multivariate normal log density of y whose covariance is that of the exposure averages z_n(end of exposure n)/delta_n in the augmented model with resets, plus the noise diagonal.", "quantifier": "every number of exposures, any overlap pattern between instruments, any input order, every augmented model with symmetric covariances and positive innovation variances (as for positive noise and positive semidefinite process noise)", "why_tests_cant": "unbounded interleavings of exposure starts and ends", "anchors": ["src/smolgp/solvers/integrated/kalman.py: integrated_kalman_filter", "src/smolgp/solvers/integrated/solver.py: IntegratedStateSpaceSolver"]}
{"id": "C10", "title": "Integrated solver: smoothing is exact for the augmented model", "statement": "After condition(y) the smoothed state at every exposure end (and pre-reset at every exposure start) is the exact conditional mean/covariance of the augmented state given all the data.", "quantifier": "every interleaving of starts and ends, every N, with invertible predicted covariances, the last event being the end of an exposure (as when all exposures have positive length)", "why_tests_cant": "unbounded interleavings", "anchors": ["src/smolgp/solvers/integrated/rts.py: integrated_rts_smoother"]}
{"id": "C11", "title": "Exposure-averaged data are modelled by the double-averaged kernel", "statement": "The covariance the integrated solver implies between two measurements is (1/(d_i d_j)) times the double integral of the latent kernel over the two exposures; between a measurement and the latent process it is the single average.", "quantifier": "every pair of exposures (disjoint, overlapping, nested, touching) of non-overlapping-per-instrument schedules, every kernel", "why_tests_cant": "an identity between integrals over a continuum of exposure geometries", "anchors": ["src/smolgp/kernels/integrated.py: IntegratedStateSpaceModel.transition_matrix, process_noise, reset_matrix, observation_matrix"]}
{"id": "C12", "title": "Parallel integrated filter equals sequential integrated filter", "statement": "ParallelIntegratedStateSpaceSolver and IntegratedStateSpaceSolver give the same log_probability and conditioned states for any exposures.", "quantifier": "every schedule of exposures including zero-length ones", "why_tests_cant": "depends on which event comes first in time and on tree shapes", "anchors": ["src/smolgp/solvers/integrated/parallel/kalman.py: make_associative_params", "src/smolgp/solvers/integrated/kalman.py"]}
{"id": "C13", "title": "Exposure event ordering", "statement": "The integrated solvers process events in non-decreasing time; every measurement contributes exactly one start and one end; at equal times ends precede starts; a measurement of positive length starts before it ends.", "quantifier": "every list of exposures", "why_tests_cant": "all permutations, ties and overlaps", "anchors": ["src/smolgp/solvers/integrated/solver.py: IntegratedStateSpaceSolver.__init__", "src/smolgp/solvers/integrated/parallel/solver.py: __init__"]}
{"id": "C14", "title": "Conditioned results come back in the order of the input data", "statement": "condition(y) reports, at position n, the projection of the smoothed state at the end of exposure n, whatever the order in which exposures were passed.", "quantifier": "every list of exposures in any order", "why_tests_cant": "all permutations", "anchors": ["src/smolgp/gp.py: ConditionedStates.project_at_data"]}
{"id": "C15", "title": "Input-order invariance for integrated data", "statement": "Permuting the measurements (X, y, diag together) leaves log_probability unchanged and permutes the conditioned means and variances accordingly, when exposure event times are distinct (up to end/start ties).", "quantifier": "every permutation of every dataset", "why_tests_cant": "N! permutations", "anchors": ["src/smolgp/solvers/integrated/solver.py", "src/smolgp/gp.py: project_at_data"]}
{"id": "C16", "title": "Covariances are symmetric positive semidefinite and variances non-negative", "statement": "Predicted, filtered and smoothed covariances are symmetric PSD, and all reported variances are >= 0.", "quantifier": "every dataset, dimension, PSD process noise, positive noise", "why_tests_cant": "for-all claim over data", "anchors": ["src/smolgp/solvers/kalman.py", "src/smolgp/solvers/rts.py", "src/smolgp/gp.py"]}
{"id": "C17", "title": "Data never increases uncertainty", "statement": "Filtered covariance <= predicted covariance, smoothed covariance <= filtered covariance (Loewner order), and posterior variance <= prior variance.", "quantifier": "every dataset with sorted coordinates and positive noise, kernels with exact process noise", "why_tests_cant": "for-all claim over data", "anchors": ["src/smolgp/solvers/kalman.py: step", "src/smolgp/solvers/rts.py: step"]}
{"id": "C18", "title": "Filter causality", "statement": "Predicted and filtered states, innovations and innovation variances at step k do not depend on coordinates, data or noise after step k (predicted: data at or after k), and the log-likelihood of the first k points is the partial sum.", "quantifier": "every k, every pair of datasets that agree up to k", "why_tests_cant": "for-all claim over futures", "anchors": ["src/smolgp/solvers/kalman.py: kalman_filter", "src/smolgp/solvers/integrated/kalman.py"]}
{"id": "C19", "title": "Posterior mean is linear in the data, covariance does not depend on it", "statement": "Conditioned/predicted means are linear functions of y and every covariance is independent of y.", "quantifier": "every pair of datasets and scalars", "why_tests_cant": "for-all claim", "anchors": ["src/smolgp/solvers/kalman.py", "src/smolgp/solvers/rts.py", "src/smolgp/solvers/solver.py"]}
{"id": "C20", "title": "Analytic transition matrices are the matrix exponential of the design matrix", "statement": "For Exp, Matern32, Matern52, SHO (all damping regimes), Cosine and the periodic terms, transition_matrix(t1,t2) = expm(F (t2-t1)).", "quantifier": "every parameter value and time lag (for SHO: every quality factor; the code switches to the critical formula within a tolerance window of 0.5)", "why_tests_cant": "an identity of analytic functions over continuous parameters; tests sample one parameter set", "anchors": ["src/smolgp/kernels/base.py: *.transition_matrix, *.design_matrix"]}
{"id": "C21", "title": "Transition semigroup", "statement": "transition_matrix(t,t) is the identity and transition_matrix(t1,t3) = transition_matrix(t2,t3) transition_matrix(t1,t2).", "quantifier": "all times, all kernels incl. sums, products, wrappers and integrated ones", "why_tests_cant": "continuous parameters", "anchors": ["src/smolgp/kernels/base.py: *.transition_matrix", "src/smolgp/kernels/integrated.py: transition_matrix"]}
{"id": "C22", "title": "Analytic process noise agrees with the stationary covariance", "statement": "process_noise(t1,t2) = Pinf - A Pinf A^T with A = transition_matrix(t1,t2); in particular it vanishes at zero lag.", "quantifier": "all parameters and lags, all kernels, sums and products (SHO underdamped up to the code's 1e-14 underflow cut)", "why_tests_cant": "continuous parameters", "anchors": ["src/smolgp/kernels/base.py: *.process_noise, *.stationary_covariance"]}
{"id": "C23", "title": "Stationarity (Lyapunov equation)", "statement": "F Pinf + Pinf F^T + L Qc L^T = 0 for every built-in kernel, sum and product.", "quantifier": "all parameters, all kernel trees", "why_tests_cant": "continuous parameters", "anchors": ["src/smolgp/kernels/base.py: design_matrix, stationary_covariance, noise, noise_effect_matrix"]}
{"id": "C24", "title": "Kernel values have the documented closed form", "statement": "kernel(t1,t2) equals the documented covariance function of |t1-t2| (Exp, Matern32, Matern52, SHO, Cosine), is symmetric, stationary, and k(t,t)=sigma^2.", "quantifier": "all parameters, all pairs of times", "why_tests_cant": "continuous parameters", "anchors": ["src/smolgp/kernels/base.py: StateSpaceModel.evaluate, evaluate_diag"]}
{"id": "C25", "title": "Kernel evaluation is symmetric", "statement": "kernel(X1,X2) = kernel(X2,X1) for every pair of coordinates accepted by the kernel.", "quantifier": "every kernel, including ones whose observation model depends on the coordinate", "why_tests_cant": "for-all coordinates", "anchors": ["src/smolgp/kernels/base.py: StateSpaceModel.evaluate"]}
{"id": "C26", "title": "Covariance matrices are positive semidefinite", "statement": "For every kernel tree built from the built-in kernels, the matrix kernel(X_i,X_j) is symmetric PSD.", "quantifier": "every tree, every finite set of coordinates in any order", "why_tests_cant": "for-all finite point sets", "anchors": ["src/smolgp/kernels/base.py: evaluate, Sum, Product"]}
{"id": "C27", "title": "Sums and products of kernels mean sums and products of covariance functions", "statement": "(k1+k2)(x,x') = k1(x,x')+k2(x,x') and (k1*k2)(x,x') = k1(x,x') k2(x,x') for arbitrarily nested trees, and dimensions add / multiply.", "quantifier": "every kernel tree, every pair of coordinates", "why_tests_cant": "unbounded nesting depth", "anchors": ["src/smolgp/kernels/base.py: Sum, Product"]}
{"id": "C28", "title": "Scalar multiples of kernels", "statement": "c*kernel is a kernel with covariance function c*k whose state-space matrices (Pinf, Q) are consistent, so filtering with it is exact.", "quantifier": "every positive scalar and kernel", "why_tests_cant": "for-all", "anchors": ["src/smolgp/kernels/base.py: Scale, Wrapper, __mul__, __rmul__"]}
{"id": "C29", "title": "Periodic kernel", "statement": "ExpSineSquared is periodic with the given period, symmetric, bounded by its zero-lag value, its automatic order follows the length scale, and error_bound() bounds its deviation from sigma^2 exp(-Gamma sin^2(pi r)).", "quantifier": "all parameters and lags", "why_tests_cant": "continuous parameters", "anchors": ["src/smolgp/kernels/base.py: ExpSineSquared, PeriodicTerm"]}
{"id": "C30", "title": "Every exported kernel can be filtered", "statement": "For every kernel exported by smolgp.kernels, building a GP and calling log_probability does not raise, with each solver documented as compatible.", "quantifier": "every kernel class and kernel tree, every solver", "why_tests_cant": "combinatorial", "anchors": ["src/smolgp/kernels/base.py: Constant.transition_matrix, Exp.transition_matrix", "src/smolgp/solvers/parallel/kalman.py: make_first_params (Phi(0,0))"]}
{"id": "C31", "title": "Van Loan helpers compute the documented integrals", "statement": "Q_from_VanLoan, Phibar_from_VanLoan and VanLoan return the integrals in their documentation.", "quantifier": "every F, L, Qc, dt and dimension", "why_tests_cant": "continuous parameters, any dimension", "anchors": ["src/smolgp/helpers.py: Q_from_VanLoan, Phibar_from_VanLoan, VanLoan"]}
{"id": "C32", "title": "Augmented model of integrated kernels", "statement": "The augmented transition matrix is expm(F_aug dt) and the augmented process noise is the integral of expm(F_aug s) L_aug Qc L_aug^T expm(F_aug s)^T.", "quantifier": "every base kernel, number of instruments, lag", "why_tests_cant": "continuous parameters", "anchors": ["src/smolgp/kernels/integrated.py: transition_matrix, process_noise, integrated_transition_matrix, integrated_process_noise"]}
{"id": "C33", "title": "IntegratedSHO analytic formulas", "statement": "IntegratedSHO's closed-form integrated transition matrix and process noise equal the generic numerical definitions.", "quantifier": "all omega, quality, sigma, dt (up to the code's 1e-14 cut)", "why_tests_cant": "continuous parameters", "anchors": ["src/smolgp/kernels/integrated.py: IntegratedSHO"]}
{"id": "C34", "title": "Resets touch only their own instrument", "statement": "Starting an exposure on instrument i zeroes the i-th integral state and leaves the latent state and the other instruments unchanged; resets are idempotent and commute.", "quantifier": "every dimension, number of instruments, state, instrument id (in and out of range)", "why_tests_cant": "for-all", "anchors": ["src/smolgp/kernels/integrated.py: reset_matrix", "src/smolgp/kernels/base.py: reset_matrix, Sum.reset_matrix"]}
{"id": "C35", "title": "Observation model selects exposure average or latent value", "statement": "With positive exposure the measurement is z_inst/delta; with zero exposure (or bare times) it is the latent value, and nothing else.", "quantifier": "every exposure, instrument and state", "why_tests_cant": "for-all", "anchors": ["src/smolgp/kernels/integrated.py: observation_matrix"]}
{"id": "C36", "title": "Power spectral density", "statement": "psd(omega) is real, non-negative, even, additive over sums and matches the closed form of each kernel.", "quantifier": "all frequencies where F + i omega is invertible, all kernels", "why_tests_cant": "continuous parameters", "anchors": ["src/smolgp/kernels/base.py: psd"]}
{"id": "C37", "title": "Component names are made unique", "statement": "After constructing a GP from a sum of kernels, all component names are pairwise distinct and components whose names were already distinct are unchanged.", "quantifier": "every kernel tree and naming", "why_tests_cant": "unbounded trees and string collisions", "anchors": ["src/smolgp/gp.py: assign_unique_kernel_names"]}
{"id": "C38", "title": "GP construction succeeds for every kernel tree", "statement": "Constructing a GP never fails because of kernel names, for any tree of sums and products.", "quantifier": "every kernel tree", "why_tests_cant": "unbounded trees", "anchors": ["src/smolgp/gp.py: assign_unique_kernel_names._rename"]}
{"id": "C39", "title": "Component means add up to the total mean", "statement": "The means returned per component (get_all_component_means / get_all_components) sum to the total conditioned/predicted mean.", "quantifier": "every kernel tree whose component names are distinct, every dataset", "why_tests_cant": "unbounded trees", "anchors": ["src/smolgp/gp.py: get_all_component_means, PredictedStates.get_all_components", "src/smolgp/kernels/base.py: observation_model, Sum.observation_model, Product.observation_model"]}
{"id": "C40", "title": "Component selection isolates the component", "statement": "Requesting a component by name gives the contribution of that component only; a list of names gives the sum of their contributions; unknown names give zero.", "quantifier": "every tree with distinct component names, every name", "why_tests_cant": "unbounded trees", "anchors": ["src/smolgp/kernels/base.py: observation_model", "src/smolgp/gp.py: get_component_mean, PredictedStates.get_component"]}
{"id": "C41", "title": "Component extraction splits exactly the sums", "statement": "extract_leaf_kernels returns the summands of the top-level sum in order, never splitting a product (and with all=True splits both).", "quantifier": "every tree", "why_tests_cant": "unbounded trees", "anchors": ["src/smolgp/kernels/base.py: extract_leaf_kernels", "src/smolgp/kernels/dense.py: extract_leaf_kernels"]}
{"id": "C42", "title": "Conditioning state machine", "statement": "predict without y before conditioning fails, component queries before conditioning fail, predict(X,y) on an unconditioned GP equals condition(y) followed by predict(X); a conditioned GP ignores y.", "quantifier": "every call sequence", "why_tests_cant": "all call histories", "anchors": ["src/smolgp/gp.py: GaussianProcess.predict, get_component_mean, get_all_component_means"]}
{"id": "C43", "title": "condition with test coordinates", "statement": "gp.condition(y, X_test) returns the conditioned GP evaluated at X_test.", "quantifier": "every X_test, solver, dataset", "why_tests_cant": "for-all; every branch", "anchors": ["src/smolgp/gp.py: GaussianProcess.condition", "src/smolgp/solvers/solver.py: predict"]}
{"id": "C44", "title": "The mean function is honoured", "statement": "With a mean function mu, log_probability(y) is the density of y - mu(X) and predictions include mu.", "quantifier": "every mean function", "why_tests_cant": "for-all", "anchors": ["src/smolgp/gp.py: GaussianProcess.__init__, log_probability, condition, predict"]}
{"id": "C45", "title": "Automatic solver choice", "statement": "A kernel whose sum contains an integrated component gets the integrated solver and requires tuple coordinates; otherwise a state-space kernel gets StateSpaceSolver; the documented coordinate formats are accepted.", "quantifier": "every kernel tree and coordinate format", "why_tests_cant": "unbounded trees", "anchors": ["src/smolgp/gp.py: GaussianProcess.__init__"]}
{"id": "C46", "title": "log_probability is total", "statement": "log_probability returns a finite number when all innovation variances are positive and -inf otherwise, never NaN or +inf.", "quantifier": "every innovation sequence", "why_tests_cant": "for-all", "anchors": ["src/smolgp/gp.py: _compute_log_prob"]}
{"id": "C47", "title": "Dense integrated SHO kernel is the double average", "statement": "IntegratedSHOKernel.evaluate equals the average of the SHO kernel over both exposures, in every geometric case.", "quantifier": "all parameters and exposure geometries", "why_tests_cant": "continuous parameters", "anchors": ["src/smolgp/kernels/dense.py: IntegratedSHOKernel"]}
{"id": "C48", "title": "Generic Matern kernel", "statement": "Matern(nu=1/2, 3/2, 5/2) has the same design matrix, noise and observation model as Exp, Matern32, Matern52, and its design matrix has characteristic polynomial (x+lambda)^d for every d.", "quantifier": "every half-integer nu", "why_tests_cant": "every dimension", "anchors": ["src/smolgp/kernels/base.py: Matern"]}
{"id": "C49", "title": "Block view", "statement": "block_view(A,b)[i,j] is the (i,j) b-by-b block of A and the function fails exactly when b does not divide the shape.", "quantifier": "every shape and block size", "why_tests_cant": "for-all", "anchors": ["src/smolgp/helpers.py: block_view"]}
{"id": "C50", "title": "Time-translation invariance", "statement": "Shifting all coordinates by a constant leaves log_probability unchanged and shifts predictions accordingly.", "quantifier": "every shift, dataset, kernel", "why_tests_cant": "for-all", "anchors": ["src/smolgp/solvers/kalman.py", "src/smolgp/solvers/rts.py", "src/smolgp/solvers/solver.py"]}
{"id": "C51", "title": "Noise-free interpolation", "statement": "With zero noise at a data point the conditioned mean there equals the datum and the variance is zero.", "quantifier": "every kernel, every dataset of instants or exposures whose log_probability is finite, sequential and integrated solvers", "why_tests_cant": "for-all", "anchors": ["src/smolgp/solvers/kalman.py", "src/smolgp/solvers/integrated/kalman.py", "src/smolgp/gp.py"]}
{"id": "C52", "title": "Direct solver use", "statement": "solver.condition(y) with default arguments returns the conditioned states for every solver.", "quantifier": "every solver, dataset", "why_tests_cant": "for-all", "anchors": ["src/smolgp/solvers/parallel/solver.py: ParallelStateSpaceSolver.condition", "src/smolgp/solvers/solver.py: condition"]}
{"id": "C53", "title": "Mixed kernels treat the instantaneous part at the measurement coordinate", "statement": "In a sum of an integrated and an instantaneous kernel, the instantaneous component of measurement n is its value at the coordinate t_n.", "quantifier": "every mixed kernel, every exposure", "why_tests_cant": "for-all", "anchors": ["src/smolgp/solvers/integrated/solver.py", "src/smolgp/kernels/base.py: Sum"]}
{"id": "C54", "title": "Conditioning keeps component names", "statement": "gp.condition(y).gp has the same component names as gp.", "quantifier": "every kernel tree and use_unique_names setting", "why_tests_cant": "unbounded trees", "anchors": ["src/smolgp/gp.py: GaussianProcess.condition, assign_unique_kernel_names"]}
{"id": "C55", "title": "Integrated prediction with exposures", "statement": "Predicting an integrated measurement (t*, delta*>0, inst) on a conditioned GP returns the posterior of the exposure average over [t*-delta*/2, t*+delta*/2].", "quantifier": "every test exposure", "why_tests_cant": "continuum of geometries", "anchors": ["src/smolgp/solvers/integrated/solver.py: predict", "src/smolgp/gp.py: predict"]}
{"id": "C56", "title": "Simultaneous exposure starts", "statement": "Conditioning works for any exposure schedule in which exposures on the same instrument do not overlap, including exposures on different instruments that start at the same time.", "quantifier": "every schedule", "why_tests_cant": "ties", "anchors": ["src/smolgp/solvers/integrated/rts.py: solve(P_pred_next)"]}
{"id": "C57", "title": "Conditioning works for any number of data", "statement": "gp.condition(y) succeeds for every number of measurements, including a single one.", "quantifier": "every dataset length", "why_tests_cant": "for-all lengths", "anchors": ["src/smolgp/gp.py: GaussianProcess.condition (squeeze), __init__"]}
{"id": "C58", "title": "Latent prediction from exposures", "statement": "On a GP conditioned on exposure-averaged data, predicting at a plain time (exposure zero) returns the exact posterior mean and variance of the underlying process at that time given the averages, before, between, after or inside exposures.", "quantifier": "every schedule of exposures of positive length with distinct start times and no same-instrument overlap, every test time, every sum of integrated Exp, Matern and non-underdamped SHO kernels", "why_tests_cant": "continuum of schedules and times", "anchors": ["src/smolgp/solvers/integrated/solver.py: predict", "src/smolgp/gp.py: predict", "src/smolgp/kernels/integrated.py: observation_model"]}
{"id": "C59", "title": "Predicted states, observation models and derivatives", "statement": "predict(X_test, return_full_state=True) returns the exact posterior mean and covariance of the state vector at each test time; predict(X_test, observation_model=h) returns the exact posterior mean and variance of the linear functionals h of the state; with the row that reads the derivative (H F, the second state component of the Matern and SHO kernels) the predicted mean is the time derivative of the predicted curve and the variance is the posterior variance of the derivative process.", "quantifier": "every valid instantaneous kernel (derivatives: those without Exp), every sorted dataset, test time, functional, sequential and parallel solver", "why_tests_cant": "continuum of test times and functionals; derivatives", "anchors": ["src/smolgp/gp.py: predict, PredictedStates", "src/smolgp/solvers/solver.py: predict", "src/smolgp/kernels/base.py: design_matrix, observation_model"]}
{"id": "C60", "title": "Stored mean and variance", "statement": "loc and variance are the prior mean and variance at the coordinates before conditioning and the posterior mean and variance after condition(y); after condition(y, kernel=k) they are those of component k while the likelihood remains that of the whole model.", "quantifier": "every valid kernel, dataset, component", "why_tests_cant": "for-all", "anchors": ["src/smolgp/gp.py: GaussianProcess.loc, variance, condition"]}
{"id": "C61", "title": "Only the covariance function matters", "statement": "log_probability, the conditioned mean and variance and the predictions are those of dense Gaussian-process regression with the covariance function of the kernel; hence two kernels with equal covariance functions (sums and products reordered or bracketed differently) and any two solvers give equal results, and predict() without coordinates on a conditioned GP returns the posterior at the data.", "quantifier": "every sum and product of Exp, Matern32, Matern52, Cosine, ExpSineSquared and SHO of quality at most 1/2 with positive scales and nonzero amplitudes, with the sequential solver and (without Exp) the parallel one, at sorted instants; every sum of IntegratedExp, IntegratedMatern32, IntegratedMatern52 and IntegratedSHO of quality at most 1/2, with both integrated solvers (the parallel one without IntegratedExp), for exposures with different starts and without overlap on the same instrument; data of any size with positive noise, every test time", "why_tests_cant": "unbounded trees, datasets and test times", "anchors": ["src/smolgp/gp.py: GaussianProcess.__init__, log_probability, condition, predict", "src/smolgp/kernels/base.py: Sum, Product", "src/smolgp/solvers/solver.py", "src/smolgp/solvers/parallel/solver.py", "src/smolgp/solvers/integrated/solver.py"]}
{"id": "C62", "title": "Extrapolation returns to the prior", "statement": "For damped kernels, instantaneous or integrated, the predicted mean tends to zero and the predicted variance to the prior variance as the test time goes to minus or plus infinity.", "quantifier": "every damped kernel (IntegratedCosine is not damped), dataset with positive noise, solver; all test times beyond some bound; kernels, coordinates and solvers as in C61", "why_tests_cant": "a limit", "anchors": ["src/smolgp/gp.py: predict", "src/smolgp/solvers/solver.py: predict", "src/smolgp/solvers/integrated/solver.py: predict"]}
{"id": "C63", "title": "Predicted curves are continuous", "statement": "The predicted mean and variance at time t are fixed continuous functions of t: the result for one test time does not depend on which other times are asked for, and there are no jumps at data times or at the ends of exposures, where the code changes branch.", "quantifier": "every valid kernel, instantaneous or integrated (other than IntegratedCosine), dataset with positive noise, solver, all lists of test times; kernels, coordinates and solvers as in C61", "why_tests_cant": "continuity on the real line", "anchors": ["src/smolgp/solvers/solver.py: predict", "src/smolgp/solvers/integrated/solver.py: predict", "src/smolgp/gp.py: predict"]}
{"id": "C64", "title": "Periodic kernels give periodic predictions", "statement": "If the covariance function has period p (Cosine, ExpSineSquared and their sums and products), predictions at t and t + n p agree for every integer n, however far beyond the data.", "quantifier": "every kernel with periodic covariance, dataset of instants with positive noise, integer, test times", "why_tests_cant": "infinitely many periods", "anchors": ["src/smolgp/kernels/base.py: Cosine, ExpSineSquared", "src/smolgp/gp.py: predict"]}
{"id": "C65", "title": "More data and less noise never increase the variance", "statement": "If a second dataset contains the coordinates of the first with no larger noise variances, then every predicted variance of the second GP is at most that of the first, whatever the measured values.", "quantifier": "every pair of such datasets, valid kernel, solver, test time; kernels, coordinates and solvers as in C61", "why_tests_cant": "all pairs of datasets", "anchors": ["src/smolgp/gp.py: condition, predict", "src/smolgp/solvers/kalman.py", "src/smolgp/solvers/rts.py"]}
{"id": "C66", "title": "Repeated measurements combine by inverse variance", "statement": "Replacing repeated measurements at the same coordinate by their inverse-variance weighted mean with the combined variance leaves every prediction unchanged and changes log_probability by a number that does not depend on the kernel.", "quantifier": "every grouping of repeats, kernel, solver, dataset with positive noise; kernels, coordinates and solvers as in C61", "why_tests_cant": "ties; all groupings", "anchors": ["src/smolgp/gp.py: log_probability, condition, predict", "src/smolgp/solvers/kalman.py", "src/smolgp/solvers/solver.py: predict (searchsorted with ties)"]}
{"id": "C67", "title": "Redundant data change nothing", "statement": "Adding measurements which equal the predicted mean at their times leaves the predicted mean unchanged everywhere, whatever noise is assigned to them.", "quantifier": "every dataset, set of added times, noise, kernel, solver, test time; kernels, coordinates and solvers as in C61", "why_tests_cant": "all datasets", "anchors": ["src/smolgp/gp.py: condition, predict"]}
{"id": "C68", "title": "Units and origin of time", "statement": "Changing the units and the origin of time, and the units of the values, with the kernel parameters and the noise converted accordingly, multiplies means by c and variances by c^2, and changes log_probability by -N log|c|.", "quantifier": "every unit a > 0, c /= 0 and origin b, kernel tree, dataset, solver, test times", "why_tests_cant": "continuous symmetry", "anchors": ["src/smolgp/kernels/base.py: Exp, Matern32, Matern52, SHO, Cosine, ExpSineSquared, Constant, Scale, Sum, Product", "src/smolgp/kernels/integrated.py", "src/smolgp/gp.py"]}
{"id": "C69", "title": "Results are continuous in the data; short exposures become instantaneous", "statement": "log_probability and predictions are continuous functions of the coordinates, exposure lengths, noise variances, values and test times, also where the events change order; as all exposures shrink to zero the integrated kernel gives the results of the instantaneous kernel.", "quantifier": "every family of datasets converging to a dataset with positive noise, valid kernel, solver; kernels, coordinates and solvers as in C61", "why_tests_cant": "limits; changes of event order", "anchors": ["src/smolgp/solvers/integrated/solver.py", "src/smolgp/solvers/integrated/kalman.py", "src/smolgp/solvers/integrated/rts.py", "src/smolgp/kernels/integrated.py", "src/smolgp/gp.py"]}
{"id": "C70", "title": "Bounded effect of the oscillator's noise cut-off", "statement": "For an oscillator with quality above 1/2, and for sums and products containing such oscillators, log_probability is finite and within theta (y^T G^-1 y + N) of the exact log density, and the conditioned mean and variance at datum i are within 2 theta sqrt(R_i y^T G^-1 y) and 2 theta R_i of the exact ones, and predictions at any other time within 2 theta s sqrt(y^T G^-1 y) and 2 theta s^2, s = |sigma| + sqrt(r/N), where G is the exact data covariance and theta = 2e-14 N^2 / (min(1, omega^2) r) for one oscillator and noise variances at least r.", "quantifier": "every oscillator with quality above 1/2 and outside the window around 1/2 treated as critical, tree containing oscillators, sorted dataset with noise at least r > 0 for which theta is small", "why_tests_cant": "error bound over all datasets and parameters", "anchors": ["src/smolgp/kernels/base.py: SHO.process_noise", "src/smolgp/solvers/kalman.py", "src/smolgp/solvers/rts.py", "src/smolgp/gp.py: log_probability, condition, predict", "src/smolgp/solvers/solver.py: StateSpaceSolver.predict"]}
{"id": "C71", "title": "Textbook regression", "statement": "For a kernel expression built from Exp, Matern32, Matern52, Cosine, SHO and ExpSineSquared by sums and products, with kappa its covariance function and K[i,j] = kappa(|t_i - t_j|) + noise_i [i=j], log_probability(y) is -y^T K^-1 y/2 - log det K/2 - N log(2 pi)/2 and the conditioned and predicted means and variances are k^T K^-1 y and kappa(0) - k^T K^-1 k; noise_i is the scalar diag, diag[i], or the square root of the machine precision if diag is absent. For integrated kernels the entries of K and k are double and single averages of kappa over the exposures.", "quantifier": "every such expression, sorted times or disjoint exposures of positive length with distinct starts, data, test times, noise and supported solver", "why_tests_cant": "unbounded trees, datasets and parameters", "anchors": ["src/smolgp/gp.py: GaussianProcess.__init__, _default_diag, log_probability, condition, predict", "src/smolgp/kernels/base.py", "src/smolgp/kernels/integrated.py"]}
{"id": "C72", "title": "Nearby covariance functions give nearby results", "statement": "If a covariance function is within delta of that of the kernel then log_probability, the conditioned mean and variance and the predictions are within explicit multiples of N delta / r of those of dense regression with that function, r being the least noise variance; in particular, for trees with ExpSineSquared of a given order, the results are this close to those of the exact exponential-sine-squared covariance.", "quantifier": "every supported kernel, instantaneous or integrated, every continuous function within delta, dataset with N delta <= r/2, test times; kernels, coordinates and solvers as in C61", "why_tests_cant": "error bound over all datasets and parameters", "anchors": ["src/smolgp/kernels/base.py: ExpSineSquared", "src/smolgp/gp.py: log_probability, condition, predict"]}
{"id": "C73", "title": "Oscillators near critical damping", "statement": "The SHO kernel of any quality q is within 6e-6 sigma^2 of the oscillator covariance of that quality at all time differences, although qualities within allclose of 1/2 are replaced by 1/2, and depends on q without jumps across the three damping regimes: qualities q and q' give kernels within sigma^2 |q-q'|/(2 sqrt(q q')) + 1.2e-5 sigma^2. log_probability and predictions of an oscillator whose quality is replaced are within multiples of N 6e-6 sigma^2/r of those of its own quality.", "quantifier": "every frequency, quality, amplitude, dataset with noise at least r, test times, sequential and parallel solver", "why_tests_cant": "uniform bound over all times and parameters near a branch switch", "anchors": ["src/smolgp/kernels/base.py: SHO.transition_matrix, SHO.process_noise", "src/smolgp/gp.py: log_probability, condition, predict"]}
{"id": "C74", "title": "Bounded effect of the noise cut-off on exposure averages", "statement": "For an IntegratedSHO of quality above 1/2 and sums of integrated kernels containing such oscillators, with exposures that are zero or at least D long, log_probability is finite and within theta (y^T G^-1 y + N) of the exact log density of the exposure averages, and the conditioned mean and variance of exposure i are within 2 theta sqrt(R_i y^T G^-1 y) and 2 theta R_i of the exact ones, where G is the exact covariance of the data and theta = 2 N^2 1e-14 (1 + 1/omega + 1/D)^2 / r, summed over the oscillators, for noise variances at least r.", "quantifier": "every sum of integrated kernels, schedule without overlap on the same instrument, dataset with noise at least r > 0 for which theta is at most 1/2", "why_tests_cant": "error bound over all datasets, schedules and parameters", "anchors": ["src/smolgp/kernels/integrated.py: IntegratedSHO.integrated_process_noise", "src/smolgp/kernels/base.py: SHO.process_noise", "src/smolgp/solvers/integrated/kalman.py", "src/smolgp/solvers/integrated/rts.py", "src/smolgp/gp.py: log_probability, condition"]}
{"id": "C75", "title": "Likelihood and prediction fit together", "statement": "If the data of one GP are those of another with one more measurement, the difference of their log_probability is the log density of that measurement under the prediction of the GP without it (predicted variance plus noise variance R), and condition with all data moves the predicted mean mu and variance v at the measurement to mu + v/(v+R) (y - mu) and v R/(v+R). Consequently, with the conditioned mean m and variance v of any measurement (instantaneous or exposure), its prediction from all other data has mean (R m - v y)/(R - v) and variance R v/(R - v), and its share of log_probability is a normal log density of variance R^2/(R - v) at R (y - m)/(R - v).", "quantifier": "every supported kernel, solver, dataset with positive noise and every choice of the measurement left out, wherever it lies; kernels, coordinates and solvers as in C61", "why_tests_cant": "an identity between different API calls over all datasets and kernels", "anchors": ["src/smolgp/gp.py: log_probability, condition, predict", "src/smolgp/solvers/kalman.py", "src/smolgp/solvers/rts.py", "src/smolgp/solvers/solver.py: predict", "src/smolgp/solvers/integrated/solver.py"]}
{"id": "C76", "title": "Gradients", "statement": "log_probability and the predicted means and variances are differentiable in the parameters of the kernel and in the noise variances, with the textbook derivatives: a^T K' a/2 - tr(K^-1 K')/2 with a = K^-1 y for log_probability, and k'^T a - k^T K^-1 K' a and kappa'(0) - 2 k'^T K^-1 k + k^T K^-1 K' K^-1 k for the prediction, where primes are derivatives in the parameter; for exposures the entries of K' are averages of the derivative of the covariance function.", "quantifier": "every sum and product of the kernels whose parameters are differentiable functions of a variable, positive noise, sorted times or disjoint exposures, any supported solver, all test times", "why_tests_cant": "a limit in a continuous parameter, over all datasets and kernels", "anchors": ["src/smolgp/gp.py: log_probability, condition, predict", "src/smolgp/kernels/base.py", "src/smolgp/kernels/integrated.py", "src/smolgp/solvers/kalman.py"]}
{"id": "C77", "title": "What the results mean", "statement": "If a zero-mean Gaussian process with the covariance function of the kernel is measured at the coordinates of the data, at instants or averaged over exposures, with independent normal errors whose variances are the diagonal noise, then exp(log_probability(y)) is the probability density of the measurements (and integrates to one), and the mean and variance returned by predict, or stored by condition, are those of the conditional normal distribution of the process given the measurements: the mean is the conditional expectation and has the least mean square error of all estimates, the variance is that error, and mean +- z sqrt(variance) covers the process as often as +-z covers a standard normal variable. On average over such data no other kernel or noise gives a larger log_probability.", "quantifier": "every supported kernel and solver, dataset coordinates, positive noise, test time, and every probability space carrying such a process and errors; kernels, coordinates and solvers as in C61", "why_tests_cant": "a statement about distributions, not about single results", "anchors": ["src/smolgp/gp.py: log_probability, condition, predict", "src/smolgp/solvers/kalman.py", "src/smolgp/solvers/rts.py", "src/smolgp/solvers/solver.py", "src/smolgp/solvers/integrated/solver.py"]}
{"id": "C78", "title": "Arithmetic of kernels", "statement": "Python's sum of a list of kernels, and repeated use of *, give a kernel whose components are those of the list in order and with which log_probability is that of dense regression with the sum (product) of the covariance functions; math.prod of a list of kernels is their product; a kernel added to anything that is not a StateSpaceModel, other than 0 on the left, raises ValueError.", "quantifier": "every list of kernels, instantaneous or (sum) integrated, every dataset", "why_tests_cant": "unbounded lists", "anchors": ["src/smolgp/kernels/base.py: StateSpaceModel.__add__, __radd__, __mul__, __rmul__, Sum, Product, Scale"]}
{"id": "C79", "title": "Samples and covariance", "statement": "gp.sample(key, shape) draws from the process and gp.covariance is its covariance matrix, as in tinygp.", "quantifier": "every GP", "why_tests_cant": "distributions", "anchors": ["src/smolgp/gp.py: sample, _sample, covariance"]}
{"id": "C80", "title": "Logarithmic time, linear work", "statement": "The parallel solvers combine their elements, one per datum (two per exposure), in a pattern which depends on the number N of data only: at most 2 log2 N combinations in a row and at most 2N different ones, for the filter and for the smoother each (2 log2 N + 2 and 4N for exposures); every prefix is combined in its order.", "quantifier": "every number of data, kernel, dataset", "why_tests_cant": "asymptotic cost over all sizes", "anchors": ["src/smolgp/solvers/parallel/kalman.py", "src/smolgp/solvers/parallel/rts.py", "src/smolgp/solvers/integrated/parallel/kalman.py", "src/smolgp/solvers/integrated/parallel/rts.py", "src/smolgp/__init__.py"]}
{"id": "C81", "title": "Bounded influence of the data", "statement": "If one GP is conditioned on two data vectors, the squared difference of the predicted means at any time (and at the data) is at most the predicted variance times the sum of squared differences of the data divided by their noise variances; so one outlier moves a prediction by at most its size in units of its error times the predicted standard deviation. The conditioned variance at a datum is smaller than that datum's noise variance.", "quantifier": "every kernel, dataset, pair of data vectors, test time and solver; kernels, coordinates and solvers as in C61", "why_tests_cant": "an inequality over all data vectors and dataset sizes", "anchors": ["src/smolgp/gp.py: condition, predict", "src/smolgp/solvers/kalman.py", "src/smolgp/solvers/rts.py"]}
{"id": "C82", "title": "Many data determine the process", "statement": "Where at least M data of bounded noise lie within a distance delta of a test time, the predicted variance, and the mean square error of the predicted mean, are at most a given tolerance, with M and delta depending on the covariance function and the noise only; explicitly, n data of noise variance at most r within the lag over which the covariance function falls by eps give a variance of at most 2 eps + r/n.", "quantifier": "every kernel, tolerance, dataset containing such data, exposures, solver; kernels, coordinates and solvers as in C61", "why_tests_cant": "a limit statement uniform over all datasets", "anchors": ["src/smolgp/gp.py: condition, predict"]}
{"id": "C83", "title": "Bounds of the likelihood", "statement": "log_probability of N data is at most -1/2 sum log(2 pi R_i), and at least -1/2 sum (y_i^2/R_i + log(2 pi (k(0) + R_i))), whatever the correlations.", "quantifier": "every kernel, dataset and solver; kernels, coordinates and solvers as in C61", "why_tests_cant": "an inequality over all data vectors", "anchors": ["src/smolgp/gp.py: log_probability, _compute_log_prob"]}
{"id": "C84", "title": "Short and long time scales", "statement": "For instantaneous data at different times and a kernel whose covariance decays, as all time scales of the kernel shrink to zero log_probability tends to the sum of normal log densities of variance k(0) + R_i at the data, predictions between the data tend to mean 0 and variance k(0), and predictions at the time of datum i to k(0)/(k(0)+R_i) y_i and k(0) R_i/(k(0)+R_i). As the time scales of any kernel grow to infinity, log_probability tends to that of a constant of prior variance k(0), and predictions at every time to mean k(0) sum(y/R)/(1 + k(0) sum(1/R)) and variance k(0)/(1 + k(0) sum(1/R)).", "quantifier": "every kernel, dataset with positive noise, family of time scale factors with that limit, solver, test times; kernels, coordinates and solvers as in C61", "why_tests_cant": "limits in continuous parameters", "anchors": ["src/smolgp/kernels/base.py", "src/smolgp/kernels/integrated.py", "src/smolgp/gp.py: log_probability, condition, predict"]}
{"id": "C85", "title": "Data far apart do not influence each other", "statement": "When one of two sets of data is moved away in time, with a kernel whose covariance decays, log_probability of both together tends to the sum of those of each set alone, and predictions at a fixed time tend to those from the set that stays.", "quantifier": "every pair of datasets with positive noise, instants or exposures, decaying kernel, solver and family of shifts tending to infinity; kernels, coordinates and solvers as in C61", "why_tests_cant": "limits over unbounded shifts", "anchors": ["src/smolgp/gp.py: log_probability, condition, predict", "src/smolgp/solvers/kalman.py", "src/smolgp/solvers/rts.py", "src/smolgp/solvers/integrated/solver.py"]}
{"id": "C86", "title": "Kernels written by the user", "statement": "A subclass of StateSpaceModel which returns a drift matrix F, a positive definite stationary covariance P with -(FP + PF^T) positive semidefinite, and a constant observation row H, and inherits the other methods, gives the log_probability, conditioned values and predictions of dense regression with the covariance function H exp(F r) P H^T, with both solvers, alone and in sums and products with other kernels. The default process noise and the Van Loan alternative agree exactly when L Qc L^T balances the Lyapunov equation. A subclass of IntegratedStateSpaceModel around it gives the likelihood of exposure-averaged data.", "quantifier": "every state dimension, matrices with these properties, dataset and solver", "why_tests_cant": "all kernels a user may write", "anchors": ["src/smolgp/kernels/base.py: StateSpaceModel, Wrapper, Sum, Product", "src/smolgp/kernels/integrated.py: IntegratedStateSpaceModel"]}
{"id": "C87", "title": "Kernels of derivatives", "statement": "A Wrapper around a kernel without Exp components whose observation row is H F models the derivative of the process, and a row a H + b H F models a f + b f': log_probability, conditioned values and predictions are those of dense regression with the covariance function of the derivative (minus the second derivative of k), respectively a^2 k + b^2 times it. Matern52Derivative(order=1, 2) of the tutorial gives the closed forms for the first and second derivative.", "quantifier": "every kernel without Exp, coefficients, dataset and solver", "why_tests_cant": "derivatives over all kernels and data", "anchors": ["src/smolgp/kernels/base.py: Wrapper", "docs/tutorials/derivative.ipynb"]}
{"id": "C88", "title": "Observation rows which vary with time", "statement": "If observation_matrix(X) depends on the time of X - a time-dependent amplitude a(t), or values of the process in some data and derivatives in others - log_probability, conditioned values and predictions are those of dense regression with the covariance of h(s) x(s) and h(t) x(t) (for an amplitude a(s) a(t) k(s - t)), with every solver, and the kernel function is that covariance.", "quantifier": "every kernel, row as a function of time, dataset and test time", "why_tests_cant": "all functions of time", "anchors": ["src/smolgp/kernels/base.py: observation_matrix, observation_model, evaluate", "src/smolgp/solvers/kalman.py: kalman_filter", "src/smolgp/solvers/parallel/kalman.py: make_associative_params", "docs/tutorials/introssm.ipynb"]}
{"id": "C89", "title": "Innovations are independent prediction errors", "statement": "v and S returned by Kalman(y, return_v_S=True) of every solver are, datum by datum in the order of the data (for exposures, in the order in which they end), the error of predicting the datum from those before it and the variance of this error: the datum minus the mean predicted by a GP conditioned on the earlier data, and the predicted variance plus the noise variance. If the data come from the model, the v/sqrt(S) are independent standard normal variables, so the mean of the sum of v^2/S is the number of data. log_probability is the sum of the log densities of the v.", "quantifier": "every kernel, solver, dataset with positive noise and probability space carrying such data; kernels, coordinates and solvers as in C61", "why_tests_cant": "a statement about distributions over all datasets and solvers", "anchors": ["src/smolgp/solvers/kalman.py", "src/smolgp/solvers/parallel/kalman.py", "src/smolgp/solvers/integrated/kalman.py", "src/smolgp/solvers/integrated/parallel/kalman.py", "src/smolgp/gp.py: log_probability, _compute_log_prob"]}
{"id": "C90", "title": "Averages of the predicted curve", "statement": "Conditioning and predicting agree across exposures: the conditioned mean of an exposure is the average over that exposure of the means that predict returns at the instants in it, and its conditioned variance is at most the average of the predicted variances.", "quantifier": "every kernel, instantaneous or integrated, dataset with positive noise and solver; kernels, coordinates and solvers as in C61", "why_tests_cant": "an integral over a continuum of predictions", "anchors": ["src/smolgp/gp.py: condition, predict", "src/smolgp/solvers/integrated/solver.py: predict, condition"]}
{"id": "C91", "title": "Predicted curves are no rougher than the kernel", "statement": "The squared difference of the means predicted at two times is at most 2 (k(0) - k(|s - t|)) times the sum of y^2/R over the data, the square of a predicted mean is at most k(0) times that sum, and the squared difference of predicted standard deviations at two times is at most 2 (k(0) - k(|s - t|)).", "quantifier": "every kernel, dataset, solver and pair of test times; kernels, coordinates and solvers as in C61", "why_tests_cant": "an inequality over all pairs of times and all data", "anchors": ["src/smolgp/gp.py: condition, predict"]}
{"id": "C92", "title": "Effect of one measurement, and masking", "statement": "A further measurement of noise variance R, of which the GP without it predicts the mean m with variance v, moves each predicted mean by C/(v+R) (y - m) and lowers each predicted variance by C^2/(v+R), with the same C and C^2 <= v times that variance. As R grows without bound predictions tend to those without the measurement, and log_probability + log(2 pi R)/2 tends to the log_probability without it: giving a bad datum a huge error bar amounts to removing it.", "quantifier": "every kernel, dataset, further measurement (instant or exposure), noise, solver, test time; kernels, coordinates and solvers as in C61", "why_tests_cant": "limits, and all pairs of datasets", "anchors": ["src/smolgp/gp.py: log_probability, condition, predict", "src/smolgp/solvers/kalman.py", "src/smolgp/solvers/integrated/kalman.py"]}
{"id": "C93", "title": "The predicted curve is the smoothing spline of the kernel", "statement": "The predicted mean is sum w_n k(t, X_n) with weights w_n = (y_n - conditioned mean)/R_n. Among all curves sum a_k k(., c_k), with any number of centres c_k anywhere, it has the least sum of misfit sum (y - f)^2/R and roughness sum a_k a_l k(c_k, c_l), any curve with other values at the data has a larger one, and log_probability is -1/2 times this least sum plus a term which does not depend on y.", "quantifier": "every kernel, dataset with positive noise, solver; every finite family of centres and coefficients; kernels, coordinates and solvers as in C61", "why_tests_cant": "a minimum over an infinite-dimensional set of curves", "anchors": ["src/smolgp/gp.py: log_probability, condition, predict"]}
{"id": "C94", "title": "Direction of time, order of exposures and labels of instruments", "statement": "Reversing the direction of time (negating the times and listing the data in reverse) and moving its origin leaves log_probability unchanged and mirrors conditioned values and predictions. For integrated kernels the order in which exposures are listed and the numbers given to the instruments make no difference.", "quantifier": "every kernel, dataset with positive noise, permutation, shift, solver and test times; kernels, coordinates and solvers as in C61", "why_tests_cant": "a symmetry over all datasets which no step of the forward recursion has", "anchors": ["src/smolgp/gp.py", "src/smolgp/solvers/kalman.py", "src/smolgp/solvers/rts.py", "src/smolgp/solvers/integrated/solver.py", "src/smolgp/kernels/integrated.py"]}
{"id": "C95", "title": "Separated components are the posteriors of the parts", "statement": "When the data measure a sum of independent Gaussian processes, one for each component of the kernel, predict with components and get_component_mean return the mean and variance of the exact conditional distribution, given the data, of the sum of the named processes; their intervals contain it with the stated probability, and no other estimate has a smaller mean square error.", "quantifier": "every sum kernel with distinct component names none of which occurs inside another, choice of names, sorted data, test times, noise, sequential and parallel solver", "why_tests_cant": "a statement about the joint law of unobserved processes; tests see only the data", "anchors": ["src/smolgp/gp.py: ConditionedGP.predict, get_component_mean", "src/smolgp/kernels/base.py: extract_leaf_kernels, component names"]}
{"id": "C96", "title": "The predicted derivative is the posterior of the slope of the process", "statement": "For kernels without Exp, predict with the observation row that reads the derivative (the second state component of Matern32, Matern52 and SHO, the product rule for products) returns mean and variance of the exact conditional distribution, given the data, of the derivative of the path of the measured Gaussian process at the test time.", "quantifier": "every valid kernel without Exp and without critically clipped oscillators, sorted data, noise, test time, process whose paths are differentiable at the test time; sequential and parallel solver", "why_tests_cant": "a statement about paths of a process and limits of difference quotients", "anchors": ["src/smolgp/gp.py: ConditionedGP.predict(observation_model=...)", "src/smolgp/kernels/base.py: design_matrix, stationary_covariance", "src/smolgp/solvers/solver.py: StateSpaceSolver.predict"]}
{"id": "C97", "title": "Oscillators of any damping over resolved steps", "statement": "For sums and products of kernels with SHO components of any quality, when no entry of the process noise of an oscillator of quality above 1/2 over the steps between consecutive data (and, for a prediction, over the step from the last datum before the test time to it) is below 1e-14 without being zero, log_probability, condition and predict are exact regression with the closed forms of the covariance functions, and log_probability has the textbook derivatives with respect to all parameters and the noise where these entries are above 1e-14.", "quantifier": "every sum and product of the instantaneous kernels except Constant, sorted data with positive noise, test times, sequential and parallel solver (the latter without Exp), over such steps", "why_tests_cant": "exactness over all datasets whose steps avoid the cut-off; derivatives are limits", "anchors": ["src/smolgp/kernels/base.py: SHO.process_noise", "src/smolgp/gp.py: log_probability, condition, predict", "src/smolgp/solvers/kalman.py", "src/smolgp/solvers/rts.py", "src/smolgp/solvers/parallel/kalman.py", "src/smolgp/solvers/parallel/rts.py"]}
{"id": "C98", "title": "Conditioning further", "statement": "The GP returned by condition(y1) can be conditioned further: its condition(y2), with a second set of measurements at the same coordinates, returns mean and variance of the posterior given both sets.", "quantifier": "every supported kernel, dataset with positive noise, pair of data vectors and solver", "why_tests_cant": "all data vectors and kernels", "anchors": ["src/smolgp/gp.py: ConditionResult.gp, ConditionedGP, condition"]}
{"id": "C99", "title": "Exposure averages of oscillators of any damping, over resolved steps", "statement": "For sums of integrated kernels with IntegratedSHO components of any quality (outside the window around 1/2 that is treated as critical), when no entry of the noise which an oscillator of quality above 1/2 and its integrals accumulate over the steps between neighbouring exposure edges (and, for a prediction, between neighbours among the edges and the test time) is below 1e-14 without being zero, log_probability, condition and predict are exact regression on the exposure averages, with both integrated solvers.", "quantifier": "every such sum, schedule without overlap on the same instrument, positive noise, data; for condition and predict exposures of positive length with different starts; all test times over such steps", "why_tests_cant": "exactness over all schedules whose steps avoid the cut-off", "anchors": ["src/smolgp/kernels/integrated.py: IntegratedSHO.process_noise", "src/smolgp/kernels/base.py: SHO.process_noise", "src/smolgp/solvers/integrated/solver.py", "src/smolgp/solvers/integrated/kalman.py", "src/smolgp/solvers/integrated/rts.py", "src/smolgp/solvers/integrated/parallel/kalman.py", "src/smolgp/solvers/integrated/parallel/rts.py", "src/smolgp/gp.py: log_probability, condition, predict"]}
{"id": "C100", "title": "What holds for every kernel, exact or not", "statement": "For every kernel that runs, also where the answers are not exact regression (scaled kernels, oscillators with cut-off noise, overlapping exposures, data out of order): conditioned and predicted means, of the process and of components, are linear in the data and the variances do not depend on the data; shifting all times changes neither log_probability nor the conditioned values and shifts the predictions; a datum without noise is interpolated with variance zero when log_probability is finite.", "quantifier": "every kernel tree, instants and exposures in any order, noise, test coordinates, component; all four solvers, for interpolation the sequential and the integrated one", "why_tests_cant": "all kernels, data and shifts", "anchors": ["src/smolgp/gp.py: log_probability, condition, predict", "src/smolgp/solvers/parallel/*.py", "src/smolgp/solvers/integrated/parallel/*.py", "src/smolgp/solvers/kalman.py", "src/smolgp/solvers/rts.py", "src/smolgp/solvers/solver.py", "src/smolgp/solvers/integrated/kalman.py", "src/smolgp/solvers/integrated/rts.py", "src/smolgp/solvers/integrated/solver.py"]}
{"id": "C101", "title": "Both solvers agree wherever no system is singular", "statement": "Also where neither is exact (oscillators with cut-off noise, scaled kernels, times out of order, noise variances of any sign), the parallel solver returns the log_probability of the sequential solver when that is finite and no linear system which the parallel solver solves is singular; if no predicted covariance is singular, also the conditioned means and variances and all predictions, of the process and of components, and it interpolates data without noise. Positive noise and positive semidefinite process noise are enough for no system to be singular.", "quantifier": "every kernel tree without exposure kernels, times in any order, noise, data, test coordinates, component", "why_tests_cant": "all kernels and data for which the scan is regular, exact or not; a test compares the solvers on a few exact cases", "anchors": ["src/smolgp/solvers/parallel/kalman.py", "src/smolgp/solvers/parallel/rts.py", "src/smolgp/solvers/parallel/solver.py", "src/smolgp/solvers/kalman.py", "src/smolgp/solvers/rts.py", "src/smolgp/solvers/solver.py", "src/smolgp/gp.py: log_probability, condition, predict"]}
{"id": "C102", "title": "Both integrated solvers agree wherever no system is singular", "statement": "For exposures of which one begins before any ends (as when all have positive length), also where neither solver is exact (scaled kernels, oscillators with cut-off noise, overlaps on one instrument, noise variances of any sign), the parallel integrated solver returns the log_probability of the sequential integrated solver when that is finite and no linear system which the parallel solver solves is singular; if no predicted covariance is singular, also the conditioned means and variances and all predictions, of the process and of components, and it interpolates exposures measured without noise. Positive noise and positive semidefinite process noise over the steps between neighbouring exposure edges are enough for no system to be singular and for a finite log_probability. If a measurement of zero length comes first, the parallel solver ignores its value.", "quantifier": "every kernel tree, exposures in any order of which one begins before any ends, noise, data, test coordinates, component", "why_tests_cant": "all kernels and schedules for which the scan is regular, exact or not; a test compares the solvers on a few exact cases", "anchors": ["src/smolgp/solvers/integrated/parallel/kalman.py", "src/smolgp/solvers/integrated/parallel/rts.py", "src/smolgp/solvers/integrated/parallel/solver.py", "src/smolgp/solvers/integrated/kalman.py", "src/smolgp/solvers/integrated/rts.py", "src/smolgp/solvers/integrated/solver.py", "src/smolgp/gp.py: log_probability, condition, predict"]}
{"id": "C103", "title": "Forecasts and likelihood fit together for every kernel", "statement": "Also where the sequential solver is not exact (oscillators with cut-off noise, scaled kernels, earlier data out of order, noise variances of any sign): with one more measurement at the end, not earlier than any other, log_probability changes by the log density of the measurement under the forecast, that is the mean and variance which predict returns at its time, the variance plus the noise; if that variance is not positive the result is -inf. condition with the further measurement returns, at it, the forecast updated by Bayes' rule.", "quantifier": "every kernel tree without exposure kernels, data, noise, further measurement not earlier than the others", "why_tests_cant": "all kernels and datasets, also those for which no dense reference exists", "anchors": ["src/smolgp/gp.py: log_probability, condition, predict", "src/smolgp/solvers/kalman.py", "src/smolgp/solvers/solver.py: predict", "src/smolgp/solvers/rts.py"]}
