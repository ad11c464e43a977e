import json
P=[]
def p(title, statement, quantifier, why, anchors):
    P.append(dict(id=f"C{len(P)+1:02d}",title=title,statement=statement,quantifier=quantifier,why_tests_cant=why,anchors=anchors))
S="src/smolgp/"
p("Log-likelihood is the exact GP marginal likelihood",
  "For an instantaneous kernel and time-sorted coordinates, GaussianProcess.log_probability(y) equals -1/2 y^T (K+D)^{-1} y - 1/2 log det(K+D) - N/2 log 2pi, with K_ij = kernel(X_i,X_j) evaluated by the kernel itself and D the diagonal noise.",
  "every state dimension, every number N of data points, every sorted coordinate array, every y, every noise diagonal for which the innovation variances are positive, every kernel (leaf, sum, product)",
  "tests compare against tinygp on a handful of fixed datasets of 50 points; exactness is a claim about every dataset and kernel",
  [S+"gp.py: GaussianProcess.log_probability, _compute_log_prob", S+"solvers/kalman.py: kalman_filter", S+"kernels/base.py: StateSpaceModel.evaluate"])
p("Conditioned mean at the data is the exact GP posterior mean",
  "After gp.condition(y) the conditioned GP's loc at data point n equals [K (K+D)^{-1} y]_n.",
  "every dimension, N, sorted coordinates, y, positive noise, kernel with an invertible stationary covariance and exact process noise (sums and products of exported instantaneous classes other than oscillators of quality above 1/2, for which see C01, C97)",
  "numerical tests sample a few datasets", [S+"gp.py: GaussianProcess.condition, ConditionedStates.project_at_data", S+"solvers/rts.py: rts_smoother", S+"solvers/solver.py: StateSpaceSolver.condition"])
p("Conditioned variance at the data is the exact GP posterior variance",
  "After gp.condition(y) the conditioned GP's variance at data point n equals k(t_n,t_n) - K_n (K+D)^{-1} K_n^T.",
  "every dimension, N, sorted coordinates, y, positive noise, kernel with an invertible stationary covariance and exact process noise (sums and products of exported instantaneous classes other than oscillators of quality above 1/2, for which see C01, C97)",
  "numerical tests sample a few datasets", [S+"gp.py: ConditionedStates.project_at_data", S+"solvers/rts.py: rts_smoother"])
p("Prediction at arbitrary test coordinates is exact GP regression",
  "condGP.predict(X_test, return_var=True) returns, for each test coordinate (before, between, at or after the data), mean k(t*,X)(K+D)^{-1}y and variance k(t*,t*) - k(t*,X)(K+D)^{-1}k(X,t*).",
  "every test coordinate, dimension, N>=1, sorted coordinates, y, positive noise, kernel with an invertible stationary covariance and exact process noise (sums and products of exported instantaneous classes other than oscillators of quality above 1/2, for which see C01, C97)",
  "the three code paths (retrodict / interpolate / extrapolate) are selected per test point; tests use one grid", [S+"gp.py: GaussianProcess.predict", S+"solvers/solver.py: StateSpaceSolver.predict"])
p("Predicting at a data coordinate agrees with conditioning",
  "Predicting at a coordinate equal to a data coordinate returns the same mean and variance as the conditioned GP reports at that data point, including repeated coordinates and the first and last one.",
  "every data index, every dataset with sorted coordinates: kernels with exact process noise (sums and products of exported instantaneous classes other than oscillators of quality above 1/2, for which see C01, C97) and positive noise, repeats allowed; oscillators of any damping and any noise, at times observed once",
  "ties in searchsorted and repeated coordinates form an unbounded family of boundary cases", [S+"solvers/solver.py: StateSpaceSolver.predict (k_nexts, cases)", S+"gp.py: project_at_data"])
p("Parallel filter equals sequential filter",
  "ParallelStateSpaceSolver and StateSpaceSolver give the same filtered/predicted means and covariances, innovations, innovation variances, and hence the same log_probability.",
  "every N>=1, dimension, data, noise > 0, positive semidefinite process noise, any observation model constant in the coordinate",
  "the parallel algorithm regroups operations by a tree whose shape depends on N; a test runs one N", [S+"solvers/parallel/kalman.py: make_associative_params, _combine_per_pair, parallel_kalman_filter, postprocess"])
p("Parallel smoother equals sequential smoother",
  "ParallelStateSpaceSolver and StateSpaceSolver give the same smoothed means and covariances, and so the same conditioned GP.",
  "every N>=1, dimension, kernel with positive semidefinite process noise, noise or process noise positive at each datum, predicted covariances invertible",
  "tree shape depends on N", [S+"solvers/parallel/rts.py: make_associative_params, _combine_per_pair, parallel_rts_smoother"])
p("Scan schedule independence",
  "The combination operators used by the parallel solvers are associative on the elements the solvers produce, so any bracketing chosen by associative_scan (forward or reverse) yields the sequential prefix (suffix) results.",
  "every bracketing, every list length, all filtering elements with symmetric positive semidefinite C and J; all smoothing elements",
  "the number of bracketings is exponential in N", [S+"solvers/parallel/kalman.py: _combine_per_pair", S+"solvers/parallel/rts.py: _combine_per_pair", S+"solvers/integrated/parallel/kalman.py", S+"solvers/integrated/parallel/rts.py"])
p("Integrated solver: likelihood is exact for the augmented model",
  "For integrated kernels log_probability(y) equals the zero-mean multivariate normal log density of y whose covariance is that of the exposure averages z_n(end of exposure n)/delta_n in the augmented model with resets, plus the noise diagonal.",
  "every number of exposures, any overlap pattern between instruments, any input order, every augmented model with symmetric covariances and positive innovation variances (as for positive noise and positive semidefinite process noise)",
  "unbounded interleavings of exposure starts and ends", [S+"solvers/integrated/kalman.py: integrated_kalman_filter", S+"solvers/integrated/solver.py: IntegratedStateSpaceSolver"])
p("Integrated solver: smoothing is exact for the augmented model",
  "After condition(y) the smoothed state at every exposure end (and pre-reset at every exposure start) is the exact conditional mean/covariance of the augmented state given all the data.",
  "every interleaving of starts and ends, every N, with invertible predicted covariances, the last event being the end of an exposure (as when all exposures have positive length)",
  "unbounded interleavings", [S+"solvers/integrated/rts.py: integrated_rts_smoother"])
p("Exposure-averaged data are modelled by the double-averaged kernel",
  "The covariance the integrated solver implies between two measurements is (1/(d_i d_j)) times the double integral of the latent kernel over the two exposures; between a measurement and the latent process it is the single average.",
  "every pair of exposures (disjoint, overlapping, nested, touching) of non-overlapping-per-instrument schedules, every kernel",
  "an identity between integrals over a continuum of exposure geometries", [S+"kernels/integrated.py: IntegratedStateSpaceModel.transition_matrix, process_noise, reset_matrix, observation_matrix"])
p("Parallel integrated filter equals sequential integrated filter",
  "ParallelIntegratedStateSpaceSolver and IntegratedStateSpaceSolver give the same log_probability and conditioned states for any exposures.",
  "every schedule of exposures including zero-length ones",
  "depends on which event comes first in time and on tree shapes", [S+"solvers/integrated/parallel/kalman.py: make_associative_params", S+"solvers/integrated/kalman.py"])
p("Exposure event ordering",
  "The integrated solvers process events in non-decreasing time; every measurement contributes exactly one start and one end; at equal times ends precede starts; a measurement of positive length starts before it ends.",
  "every list of exposures", "all permutations, ties and overlaps", [S+"solvers/integrated/solver.py: IntegratedStateSpaceSolver.__init__", S+"solvers/integrated/parallel/solver.py: __init__"])
p("Conditioned results come back in the order of the input data",
  "condition(y) reports, at position n, the projection of the smoothed state at the end of exposure n, whatever the order in which exposures were passed.",
  "every list of exposures in any order", "all permutations", [S+"gp.py: ConditionedStates.project_at_data"])
p("Input-order invariance for integrated data",
  "Permuting the measurements (X, y, diag together) leaves log_probability unchanged and permutes the conditioned means and variances accordingly, when exposure event times are distinct (up to end/start ties).",
  "every permutation of every dataset", "N! permutations", [S+"solvers/integrated/solver.py", S+"gp.py: project_at_data"])
p("Covariances are symmetric positive semidefinite and variances non-negative",
  "Predicted, filtered and smoothed covariances are symmetric PSD, and all reported variances are >= 0.",
  "every dataset, dimension, PSD process noise, positive noise", "for-all claim over data", [S+"solvers/kalman.py", S+"solvers/rts.py", S+"gp.py"])
p("Data never increases uncertainty",
  "Filtered covariance <= predicted covariance, smoothed covariance <= filtered covariance (Loewner order), and posterior variance <= prior variance.",
  "every dataset with sorted coordinates and positive noise, kernels with exact process noise", "for-all claim over data", [S+"solvers/kalman.py: step", S+"solvers/rts.py: step"])
p("Filter causality",
  "Predicted and filtered states, innovations and innovation variances at step k do not depend on coordinates, data or noise after step k (predicted: data at or after k), and the log-likelihood of the first k points is the partial sum.",
  "every k, every pair of datasets that agree up to k", "for-all claim over futures", [S+"solvers/kalman.py: kalman_filter", S+"solvers/integrated/kalman.py"])
p("Posterior mean is linear in the data, covariance does not depend on it",
  "Conditioned/predicted means are linear functions of y and every covariance is independent of y.",
  "every pair of datasets and scalars", "for-all claim", [S+"solvers/kalman.py", S+"solvers/rts.py", S+"solvers/solver.py"])
p("Analytic transition matrices are the matrix exponential of the design matrix",
  "For Exp, Matern32, Matern52, SHO (all damping regimes), Cosine and the periodic terms, transition_matrix(t1,t2) = expm(F (t2-t1)).",
  "every parameter value and time lag (for SHO: every quality factor; the code switches to the critical formula within a tolerance window of 0.5)",
  "an identity of analytic functions over continuous parameters; tests sample one parameter set", [S+"kernels/base.py: *.transition_matrix, *.design_matrix"])
p("Transition semigroup",
  "transition_matrix(t,t) is the identity and transition_matrix(t1,t3) = transition_matrix(t2,t3) transition_matrix(t1,t2).",
  "all times, all kernels incl. sums, products, wrappers and integrated ones", "continuous parameters", [S+"kernels/base.py: *.transition_matrix", S+"kernels/integrated.py: transition_matrix"])
p("Analytic process noise agrees with the stationary covariance",
  "process_noise(t1,t2) = Pinf - A Pinf A^T with A = transition_matrix(t1,t2); in particular it vanishes at zero lag.",
  "all parameters and lags, all kernels, sums and products (SHO underdamped up to the code's 1e-14 underflow cut)", "continuous parameters", [S+"kernels/base.py: *.process_noise, *.stationary_covariance"])
p("Stationarity (Lyapunov equation)",
  "F Pinf + Pinf F^T + L Qc L^T = 0 for every built-in kernel, sum and product.",
  "all parameters, all kernel trees", "continuous parameters", [S+"kernels/base.py: design_matrix, stationary_covariance, noise, noise_effect_matrix"])
p("Kernel values have the documented closed form",
  "kernel(t1,t2) equals the documented covariance function of |t1-t2| (Exp, Matern32, Matern52, SHO, Cosine), is symmetric, stationary, and k(t,t)=sigma^2.",
  "all parameters, all pairs of times", "continuous parameters", [S+"kernels/base.py: StateSpaceModel.evaluate, evaluate_diag"])
p("Kernel evaluation is symmetric",
  "kernel(X1,X2) = kernel(X2,X1) for every pair of coordinates accepted by the kernel.",
  "every kernel, including ones whose observation model depends on the coordinate", "for-all coordinates", [S+"kernels/base.py: StateSpaceModel.evaluate"])
p("Covariance matrices are positive semidefinite",
  "For every kernel tree built from the built-in kernels, the matrix kernel(X_i,X_j) is symmetric PSD.",
  "every tree, every finite set of coordinates in any order", "for-all finite point sets", [S+"kernels/base.py: evaluate, Sum, Product"])
p("Sums and products of kernels mean sums and products of covariance functions",
  "(k1+k2)(x,x') = k1(x,x')+k2(x,x') and (k1*k2)(x,x') = k1(x,x') k2(x,x') for arbitrarily nested trees, and dimensions add / multiply.",
  "every kernel tree, every pair of coordinates", "unbounded nesting depth", [S+"kernels/base.py: Sum, Product"])
p("Scalar multiples of kernels",
  "c*kernel is a kernel with covariance function c*k whose state-space matrices (Pinf, Q) are consistent, so filtering with it is exact.",
  "every positive scalar and kernel", "for-all", [S+"kernels/base.py: Scale, Wrapper, __mul__, __rmul__"])
p("Periodic kernel",
  "ExpSineSquared is periodic with the given period, symmetric, bounded by its zero-lag value, its automatic order follows the length scale, and error_bound() bounds its deviation from sigma^2 exp(-Gamma sin^2(pi r)).",
  "all parameters and lags", "continuous parameters", [S+"kernels/base.py: ExpSineSquared, PeriodicTerm"])
p("Every exported kernel can be filtered",
  "For every kernel exported by smolgp.kernels, building a GP and calling log_probability does not raise, with each solver documented as compatible.",
  "every kernel class and kernel tree, every solver", "combinatorial", [S+"kernels/base.py: Constant.transition_matrix, Exp.transition_matrix", S+"solvers/parallel/kalman.py: make_first_params (Phi(0,0))"])
p("Van Loan helpers compute the documented integrals",
  "Q_from_VanLoan, Phibar_from_VanLoan and VanLoan return the integrals in their documentation.",
  "every F, L, Qc, dt and dimension", "continuous parameters, any dimension", [S+"helpers.py: Q_from_VanLoan, Phibar_from_VanLoan, VanLoan"])
p("Augmented model of integrated kernels",
  "The augmented transition matrix is expm(F_aug dt) and the augmented process noise is the integral of expm(F_aug s) L_aug Qc L_aug^T expm(F_aug s)^T.",
  "every base kernel, number of instruments, lag", "continuous parameters", [S+"kernels/integrated.py: transition_matrix, process_noise, integrated_transition_matrix, integrated_process_noise"])
p("IntegratedSHO analytic formulas",
  "IntegratedSHO's closed-form integrated transition matrix and process noise equal the generic numerical definitions.",
  "all omega, quality, sigma, dt (up to the code's 1e-14 cut)", "continuous parameters", [S+"kernels/integrated.py: IntegratedSHO"])
p("Resets touch only their own instrument",
  "Starting an exposure on instrument i zeroes the i-th integral state and leaves the latent state and the other instruments unchanged; resets are idempotent and commute.",
  "every dimension, number of instruments, state, instrument id (in and out of range)", "for-all", [S+"kernels/integrated.py: reset_matrix", S+"kernels/base.py: reset_matrix, Sum.reset_matrix"])
p("Observation model selects exposure average or latent value",
  "With positive exposure the measurement is z_inst/delta; with zero exposure (or bare times) it is the latent value, and nothing else.",
  "every exposure, instrument and state", "for-all", [S+"kernels/integrated.py: observation_matrix"])
p("Power spectral density",
  "psd(omega) is real, non-negative, even, additive over sums and matches the closed form of each kernel.",
  "all frequencies where F + i omega is invertible, all kernels", "continuous parameters", [S+"kernels/base.py: psd"])
p("Component names are made unique",
  "After constructing a GP from a sum of kernels, all component names are pairwise distinct and components whose names were already distinct are unchanged.",
  "every kernel tree and naming", "unbounded trees and string collisions", [S+"gp.py: assign_unique_kernel_names"])
p("GP construction succeeds for every kernel tree",
  "Constructing a GP never fails because of kernel names, for any tree of sums and products.",
  "every kernel tree", "unbounded trees", [S+"gp.py: assign_unique_kernel_names._rename"])
p("Component means add up to the total mean",
  "The means returned per component (get_all_component_means / get_all_components) sum to the total conditioned/predicted mean.",
  "every kernel tree whose component names are distinct, every dataset", "unbounded trees", [S+"gp.py: get_all_component_means, PredictedStates.get_all_components", S+"kernels/base.py: observation_model, Sum.observation_model, Product.observation_model"])
p("Component selection isolates the component",
  "Requesting a component by name gives the contribution of that component only; a list of names gives the sum of their contributions; unknown names give zero.",
  "every tree with distinct component names, every name", "unbounded trees", [S+"kernels/base.py: observation_model", S+"gp.py: get_component_mean, PredictedStates.get_component"])
p("Component extraction splits exactly the sums",
  "extract_leaf_kernels returns the summands of the top-level sum in order, never splitting a product (and with all=True splits both).",
  "every tree", "unbounded trees", [S+"kernels/base.py: extract_leaf_kernels", S+"kernels/dense.py: extract_leaf_kernels"])
p("Conditioning state machine",
  "predict without y before conditioning fails, component queries before conditioning fail, predict(X,y) on an unconditioned GP equals condition(y) followed by predict(X); a conditioned GP ignores y.",
  "every call sequence", "all call histories", [S+"gp.py: GaussianProcess.predict, get_component_mean, get_all_component_means"])
p("condition with test coordinates",
  "gp.condition(y, X_test) returns the conditioned GP evaluated at X_test.",
  "every X_test, solver, dataset", "for-all; every branch", [S+"gp.py: GaussianProcess.condition", S+"solvers/solver.py: predict"])
p("The mean function is honoured",
  "With a mean function mu, log_probability(y) is the density of y - mu(X) and predictions include mu.",
  "every mean function", "for-all", [S+"gp.py: GaussianProcess.__init__, log_probability, condition, predict"])
p("Automatic solver choice",
  "A kernel whose sum contains an integrated component gets the integrated solver and requires tuple coordinates; otherwise a state-space kernel gets StateSpaceSolver; the documented coordinate formats are accepted.",
  "every kernel tree and coordinate format", "unbounded trees", [S+"gp.py: GaussianProcess.__init__"])
p("log_probability is total",
  "log_probability returns a finite number when all innovation variances are positive and -inf otherwise, never NaN or +inf.",
  "every innovation sequence", "for-all", [S+"gp.py: _compute_log_prob"])
p("Dense integrated SHO kernel is the double average",
  "IntegratedSHOKernel.evaluate equals the average of the SHO kernel over both exposures, in every geometric case.",
  "all parameters and exposure geometries", "continuous parameters", [S+"kernels/dense.py: IntegratedSHOKernel"])
p("Generic Matern kernel",
  "Matern(nu=1/2, 3/2, 5/2) has the same design matrix, noise and observation model as Exp, Matern32, Matern52, and its design matrix has characteristic polynomial (x+lambda)^d for every d.",
  "every half-integer nu", "every dimension", [S+"kernels/base.py: Matern"])
p("Block view", "block_view(A,b)[i,j] is the (i,j) b-by-b block of A and the function fails exactly when b does not divide the shape.", "every shape and block size", "for-all", [S+"helpers.py: block_view"])
p("Time-translation invariance", "Shifting all coordinates by a constant leaves log_probability unchanged and shifts predictions accordingly.", "every shift, dataset, kernel", "for-all", [S+"solvers/kalman.py", S+"solvers/rts.py", S+"solvers/solver.py"])
p("Noise-free interpolation", "With zero noise at a data point the conditioned mean there equals the datum and the variance is zero.", "every kernel, every dataset of instants or exposures whose log_probability is finite, sequential and integrated solvers", "for-all", [S+"solvers/kalman.py", S+"solvers/integrated/kalman.py", S+"gp.py"])
p("Direct solver use", "solver.condition(y) with default arguments returns the conditioned states for every solver.", "every solver, dataset", "for-all", [S+"solvers/parallel/solver.py: ParallelStateSpaceSolver.condition", S+"solvers/solver.py: condition"])
p("Mixed kernels treat the instantaneous part at the measurement coordinate", "In a sum of an integrated and an instantaneous kernel, the instantaneous component of measurement n is its value at the coordinate t_n.", "every mixed kernel, every exposure", "for-all", [S+"solvers/integrated/solver.py", S+"kernels/base.py: Sum"])
p("Conditioning keeps component names", "gp.condition(y).gp has the same component names as gp.", "every kernel tree and use_unique_names setting", "unbounded trees", [S+"gp.py: GaussianProcess.condition, assign_unique_kernel_names"])
p("Integrated prediction with exposures", "Predicting an integrated measurement (t*, delta*>0, inst) on a conditioned GP returns the posterior of the exposure average over [t*-delta*/2, t*+delta*/2].", "every test exposure", "continuum of geometries", [S+"solvers/integrated/solver.py: predict", S+"gp.py: predict"])
p("Simultaneous exposure starts", "Conditioning works for any exposure schedule in which exposures on the same instrument do not overlap, including exposures on different instruments that start at the same time.", "every schedule", "ties", [S+"solvers/integrated/rts.py: solve(P_pred_next)"])
p("Conditioning works for any number of data", "gp.condition(y) succeeds for every number of measurements, including a single one.", "every dataset length", "for-all lengths", [S+"gp.py: GaussianProcess.condition (squeeze), __init__"])
p("Latent prediction from exposures", "On a GP conditioned on exposure-averaged data, predicting at a plain time (exposure zero) returns the exact posterior mean and variance of the underlying process at that time given the averages, before, between, after or inside exposures.", "every schedule of exposures of positive length with distinct start times and no same-instrument overlap, every test time, every sum of integrated Exp, Matern and non-underdamped SHO kernels", "continuum of schedules and times", [S+"solvers/integrated/solver.py: predict", S+"gp.py: predict", S+"kernels/integrated.py: observation_model"])
p("Predicted states, observation models and derivatives", "predict(X_test, return_full_state=True) returns the exact posterior mean and covariance of the state vector at each test time; predict(X_test, observation_model=h) returns the exact posterior mean and variance of the linear functionals h of the state; with the row that reads the derivative (H F, the second state component of the Matern and SHO kernels) the predicted mean is the time derivative of the predicted curve and the variance is the posterior variance of the derivative process.", "every valid instantaneous kernel (derivatives: those without Exp), every sorted dataset, test time, functional, sequential and parallel solver", "continuum of test times and functionals; derivatives", [S+"gp.py: predict, PredictedStates", S+"solvers/solver.py: predict", S+"kernels/base.py: design_matrix, observation_model"])
p("Stored mean and variance", "loc and variance are the prior mean and variance at the coordinates before conditioning and the posterior mean and variance after condition(y); after condition(y, kernel=k) they are those of component k while the likelihood remains that of the whole model.", "every valid kernel, dataset, component", "for-all", [S+"gp.py: GaussianProcess.loc, variance, condition"])
p("Only the covariance function matters", "log_probability, the conditioned mean and variance and the predictions are those of dense Gaussian-process regression with the covariance function of the kernel; hence two kernels with equal covariance functions (sums and products reordered or bracketed differently) and any two solvers give equal results, and predict() without coordinates on a conditioned GP returns the posterior at the data.", "every sum and product of Exp, Matern32, Matern52, Cosine, ExpSineSquared and SHO of quality at most 1/2 with positive scales and nonzero amplitudes, with the sequential solver and (without Exp) the parallel one, at sorted instants; every sum of IntegratedExp, IntegratedMatern32, IntegratedMatern52 and IntegratedSHO of quality at most 1/2, with both integrated solvers (the parallel one without IntegratedExp), for exposures with different starts and without overlap on the same instrument; data of any size with positive noise, every test time", "unbounded trees, datasets and test times", [S+"gp.py: GaussianProcess.__init__, log_probability, condition, predict", S+"kernels/base.py: Sum, Product", S+"solvers/solver.py", S+"solvers/parallel/solver.py", S+"solvers/integrated/solver.py"])
p("Extrapolation returns to the prior", "For damped kernels, instantaneous or integrated, the predicted mean tends to zero and the predicted variance to the prior variance as the test time goes to minus or plus infinity.", "every damped kernel (IntegratedCosine is not damped), dataset with positive noise, solver; all test times beyond some bound", "a limit", [S+"gp.py: predict", S+"solvers/solver.py: predict", S+"solvers/integrated/solver.py: predict"])
p("Predicted curves are continuous", "The predicted mean and variance at time t are fixed continuous functions of t: the result for one test time does not depend on which other times are asked for, and there are no jumps at data times or at the ends of exposures, where the code changes branch.", "every valid kernel, instantaneous or integrated (other than IntegratedCosine), dataset with positive noise, solver, all lists of test times", "continuity on the real line", [S+"solvers/solver.py: predict", S+"solvers/integrated/solver.py: predict", S+"gp.py: predict"])
p("Periodic kernels give periodic predictions", "If the covariance function has period p (Cosine, ExpSineSquared and their sums and products), predictions at t and t + n p agree for every integer n, however far beyond the data.", "every kernel with periodic covariance, dataset of instants with positive noise, integer, test times", "infinitely many periods", [S+"kernels/base.py: Cosine, ExpSineSquared", S+"gp.py: predict"])
p("More data and less noise never increase the variance", "If a second dataset contains the coordinates of the first with no larger noise variances, then every predicted variance of the second GP is at most that of the first, whatever the measured values.", "every pair of such datasets, valid kernel, solver, test time", "all pairs of datasets", [S+"gp.py: condition, predict", S+"solvers/kalman.py", S+"solvers/rts.py"])
p("Repeated measurements combine by inverse variance", "Replacing repeated measurements at the same coordinate by their inverse-variance weighted mean with the combined variance leaves every prediction unchanged and changes log_probability by a number that does not depend on the kernel.", "every grouping of repeats, kernel, solver, dataset with positive noise", "ties; all groupings", [S+"gp.py: log_probability, condition, predict", S+"solvers/kalman.py", S+"solvers/solver.py: predict (searchsorted with ties)"])
p("Redundant data change nothing", "Adding measurements which equal the predicted mean at their times leaves the predicted mean unchanged everywhere, whatever noise is assigned to them.", "every dataset, set of added times, noise, kernel, solver, test time", "all datasets", [S+"gp.py: condition, predict"])
p("Units and origin of time", "Changing the units and the origin of time, and the units of the values, with the kernel parameters and the noise converted accordingly, multiplies means by c and variances by c^2, and changes log_probability by -N log|c|.", "every unit a > 0, c /= 0 and origin b, kernel tree, dataset, solver, test times", "continuous symmetry", [S+"kernels/base.py: Exp, Matern32, Matern52, SHO, Cosine, ExpSineSquared, Constant, Scale, Sum, Product", S+"kernels/integrated.py", S+"gp.py"])
p("Results are continuous in the data; short exposures become instantaneous", "log_probability and predictions are continuous functions of the coordinates, exposure lengths, noise variances, values and test times, also where the events change order; as all exposures shrink to zero the integrated kernel gives the results of the instantaneous kernel.", "every family of datasets converging to a dataset with positive noise, valid kernel, solver", "limits; changes of event order", [S+"solvers/integrated/solver.py", S+"solvers/integrated/kalman.py", S+"solvers/integrated/rts.py", S+"kernels/integrated.py", S+"gp.py"])
p("Bounded effect of the oscillator's noise cut-off", "For an oscillator with quality above 1/2, and for sums and products containing such oscillators, log_probability is finite and within theta (y^T G^-1 y + N) of the exact log density, and the conditioned mean and variance at datum i are within 2 theta sqrt(R_i y^T G^-1 y) and 2 theta R_i of the exact ones, and predictions at any other time within 2 theta s sqrt(y^T G^-1 y) and 2 theta s^2, s = |sigma| + sqrt(r/N), where G is the exact data covariance and theta = 2e-14 N^2 / (min(1, omega^2) r) for one oscillator and noise variances at least r.", "every oscillator with quality above 1/2 and outside the window around 1/2 treated as critical, tree containing oscillators, sorted dataset with noise at least r > 0 for which theta is small", "error bound over all datasets and parameters", [S+"kernels/base.py: SHO.process_noise", S+"solvers/kalman.py", S+"solvers/rts.py", S+"gp.py: log_probability, condition, predict", "src/smolgp/solvers/solver.py: StateSpaceSolver.predict"])
p("Textbook regression", "For a kernel expression built from Exp, Matern32, Matern52, Cosine, SHO and ExpSineSquared by sums and products, with kappa its covariance function and K[i,j] = kappa(|t_i - t_j|) + noise_i [i=j], log_probability(y) is -y^T K^-1 y/2 - log det K/2 - N log(2 pi)/2 and the conditioned and predicted means and variances are k^T K^-1 y and kappa(0) - k^T K^-1 k; noise_i is the scalar diag, diag[i], or the square root of the machine precision if diag is absent. For integrated kernels the entries of K and k are double and single averages of kappa over the exposures.", "every such expression, sorted times or disjoint exposures of positive length with distinct starts, data, test times, noise and supported solver", "unbounded trees, datasets and parameters", [S+"gp.py: GaussianProcess.__init__, _default_diag, log_probability, condition, predict", S+"kernels/base.py", S+"kernels/integrated.py"])
p("Nearby covariance functions give nearby results", "If a covariance function is within delta of that of the kernel then log_probability, the conditioned mean and variance and the predictions are within explicit multiples of N delta / r of those of dense regression with that function, r being the least noise variance; in particular, for trees with ExpSineSquared of a given order, the results are this close to those of the exact exponential-sine-squared covariance.", "every supported kernel, instantaneous or integrated, every continuous function within delta, dataset with N delta <= r/2, test times", "error bound over all datasets and parameters", [S+"kernels/base.py: ExpSineSquared", S+"gp.py: log_probability, condition, predict"])
p("Oscillators near critical damping", "The SHO kernel of any quality q is within 6e-6 sigma^2 of the oscillator covariance of that quality at all time differences, although qualities within allclose of 1/2 are replaced by 1/2, and depends on q without jumps across the three damping regimes: qualities q and q' give kernels within sigma^2 |q-q'|/(2 sqrt(q q')) + 1.2e-5 sigma^2. log_probability and predictions of an oscillator whose quality is replaced are within multiples of N 6e-6 sigma^2/r of those of its own quality.", "every frequency, quality, amplitude, dataset with noise at least r, test times, sequential and parallel solver", "uniform bound over all times and parameters near a branch switch", [S+"kernels/base.py: SHO.transition_matrix, SHO.process_noise", S+"gp.py: log_probability, condition, predict"])
p("Bounded effect of the noise cut-off on exposure averages", "For an IntegratedSHO of quality above 1/2 and sums of integrated kernels containing such oscillators, with exposures that are zero or at least D long, log_probability is finite and within theta (y^T G^-1 y + N) of the exact log density of the exposure averages, and the conditioned mean and variance of exposure i are within 2 theta sqrt(R_i y^T G^-1 y) and 2 theta R_i of the exact ones, where G is the exact covariance of the data and theta = 2 N^2 1e-14 (1 + 1/omega + 1/D)^2 / r, summed over the oscillators, for noise variances at least r.", "every sum of integrated kernels, schedule without overlap on the same instrument, dataset with noise at least r > 0 for which theta is at most 1/2", "error bound over all datasets, schedules and parameters", [S+"kernels/integrated.py: IntegratedSHO.integrated_process_noise", S+"kernels/base.py: SHO.process_noise", S+"solvers/integrated/kalman.py", S+"solvers/integrated/rts.py", S+"gp.py: log_probability, condition"])
p("Likelihood and prediction fit together", "If the data of one GP are those of another with one more measurement, the difference of their log_probability is the log density of that measurement under the prediction of the GP without it (predicted variance plus noise variance R), and condition with all data moves the predicted mean mu and variance v at the measurement to mu + v/(v+R) (y - mu) and v R/(v+R). Consequently, with the conditioned mean m and variance v of any measurement (instantaneous or exposure), its prediction from all other data has mean (R m - v y)/(R - v) and variance R v/(R - v), and its share of log_probability is a normal log density of variance R^2/(R - v) at R (y - m)/(R - v).", "every supported kernel, solver, dataset with positive noise and every choice of the measurement left out, wherever it lies", "an identity between different API calls over all datasets and kernels", [S+"gp.py: log_probability, condition, predict", S+"solvers/kalman.py", S+"solvers/rts.py", S+"solvers/solver.py: predict", S+"solvers/integrated/solver.py"])
p("Gradients", "log_probability and the predicted means and variances are differentiable in the parameters of the kernel and in the noise variances, with the textbook derivatives: a^T K' a/2 - tr(K^-1 K')/2 with a = K^-1 y for log_probability, and k'^T a - k^T K^-1 K' a and kappa'(0) - 2 k'^T K^-1 k + k^T K^-1 K' K^-1 k for the prediction, where primes are derivatives in the parameter; for exposures the entries of K' are averages of the derivative of the covariance function.", "every sum and product of the kernels whose parameters are differentiable functions of a variable, positive noise, sorted times or disjoint exposures, any supported solver, all test times", "a limit in a continuous parameter, over all datasets and kernels", [S+"gp.py: log_probability, condition, predict", S+"kernels/base.py", S+"kernels/integrated.py", S+"solvers/kalman.py"])
p("What the results mean", "If a zero-mean Gaussian process with the covariance function of the kernel is measured at the coordinates of the data, at instants or averaged over exposures, with independent normal errors whose variances are the diagonal noise, then exp(log_probability(y)) is the probability density of the measurements (and integrates to one), and the mean and variance returned by predict, or stored by condition, are those of the conditional normal distribution of the process given the measurements: the mean is the conditional expectation and has the least mean square error of all estimates, the variance is that error, and mean +- z sqrt(variance) covers the process as often as +-z covers a standard normal variable. On average over such data no other kernel or noise gives a larger log_probability.", "every supported kernel and solver, dataset coordinates, positive noise, test time, and every probability space carrying such a process and errors", "a statement about distributions, not about single results", [S+"gp.py: log_probability, condition, predict", S+"solvers/kalman.py", S+"solvers/rts.py", S+"solvers/solver.py", S+"solvers/integrated/solver.py"])
p("Arithmetic of kernels", "Python's sum of a list of kernels, and repeated use of *, give a kernel whose components are those of the list in order and with which log_probability is that of dense regression with the sum (product) of the covariance functions; math.prod of a list of kernels is their product; a kernel added to anything that is not a StateSpaceModel, other than 0 on the left, raises ValueError.", "every list of kernels, instantaneous or (sum) integrated, every dataset", "unbounded lists", [S+"kernels/base.py: StateSpaceModel.__add__, __radd__, __mul__, __rmul__, Sum, Product, Scale"])
p("Samples and covariance", "gp.sample(key, shape) draws from the process and gp.covariance is its covariance matrix, as in tinygp.", "every GP", "distributions", [S+"gp.py: sample, _sample, covariance"])
p("Logarithmic time, linear work", "The parallel solvers combine their elements, one per datum (two per exposure), in a pattern which depends on the number N of data only: at most 2 log2 N combinations in a row and at most 2N different ones, for the filter and for the smoother each (2 log2 N + 2 and 4N for exposures); every prefix is combined in its order.", "every number of data, kernel, dataset", "asymptotic cost over all sizes", [S+"solvers/parallel/kalman.py", S+"solvers/parallel/rts.py", S+"solvers/integrated/parallel/kalman.py", S+"solvers/integrated/parallel/rts.py", S+"__init__.py"])
p("Bounded influence of the data", "If one GP is conditioned on two data vectors, the squared difference of the predicted means at any time (and at the data) is at most the predicted variance times the sum of squared differences of the data divided by their noise variances; so one outlier moves a prediction by at most its size in units of its error times the predicted standard deviation. The conditioned variance at a datum is smaller than that datum's noise variance.", "every kernel, dataset, pair of data vectors, test time and solver", "an inequality over all data vectors and dataset sizes", [S+"gp.py: condition, predict", S+"solvers/kalman.py", S+"solvers/rts.py"])
p("Many data determine the process", "Where at least M data of bounded noise lie within a distance delta of a test time, the predicted variance, and the mean square error of the predicted mean, are at most a given tolerance, with M and delta depending on the covariance function and the noise only; explicitly, n data of noise variance at most r within the lag over which the covariance function falls by eps give a variance of at most 2 eps + r/n.", "every kernel, tolerance, dataset containing such data, exposures, solver", "a limit statement uniform over all datasets", [S+"gp.py: condition, predict"])
p("Bounds of the likelihood", "log_probability of N data is at most -1/2 sum log(2 pi R_i), and at least -1/2 sum (y_i^2/R_i + log(2 pi (k(0) + R_i))), whatever the correlations.", "every kernel, dataset and solver", "an inequality over all data vectors", [S+"gp.py: log_probability, _compute_log_prob"])
p("Short and long time scales", "For instantaneous data at different times and a kernel whose covariance decays, as all time scales of the kernel shrink to zero log_probability tends to the sum of normal log densities of variance k(0) + R_i at the data, predictions between the data tend to mean 0 and variance k(0), and predictions at the time of datum i to k(0)/(k(0)+R_i) y_i and k(0) R_i/(k(0)+R_i). As the time scales of any kernel grow to infinity, log_probability tends to that of a constant of prior variance k(0), and predictions at every time to mean k(0) sum(y/R)/(1 + k(0) sum(1/R)) and variance k(0)/(1 + k(0) sum(1/R)).", "every kernel, dataset with positive noise, family of time scale factors with that limit, solver, test times", "limits in continuous parameters", [S+"kernels/base.py", S+"kernels/integrated.py", S+"gp.py: log_probability, condition, predict"])
p("Data far apart do not influence each other", "When one of two sets of data is moved away in time, with a kernel whose covariance decays, log_probability of both together tends to the sum of those of each set alone, and predictions at a fixed time tend to those from the set that stays.", "every pair of datasets with positive noise, instants or exposures, decaying kernel, solver and family of shifts tending to infinity", "limits over unbounded shifts", [S+"gp.py: log_probability, condition, predict", S+"solvers/kalman.py", S+"solvers/rts.py", S+"solvers/integrated/solver.py"])
p("Kernels written by the user", "A subclass of StateSpaceModel which returns a drift matrix F, a positive definite stationary covariance P with -(FP + PF^T) positive semidefinite, and a constant observation row H, and inherits the other methods, gives the log_probability, conditioned values and predictions of dense regression with the covariance function H exp(F r) P H^T, with both solvers, alone and in sums and products with other kernels. The default process noise and the Van Loan alternative agree exactly when L Qc L^T balances the Lyapunov equation. A subclass of IntegratedStateSpaceModel around it gives the likelihood of exposure-averaged data.", "every state dimension, matrices with these properties, dataset and solver", "all kernels a user may write", [S+"kernels/base.py: StateSpaceModel, Wrapper, Sum, Product", S+"kernels/integrated.py: IntegratedStateSpaceModel"])
p("Kernels of derivatives", "A Wrapper around a kernel without Exp components whose observation row is H F models the derivative of the process, and a row a H + b H F models a f + b f': log_probability, conditioned values and predictions are those of dense regression with the covariance function of the derivative (minus the second derivative of k), respectively a^2 k + b^2 times it. Matern52Derivative(order=1, 2) of the tutorial gives the closed forms for the first and second derivative.", "every kernel without Exp, coefficients, dataset and solver", "derivatives over all kernels and data", [S+"kernels/base.py: Wrapper", "docs/tutorials/derivative.ipynb"])
p("Observation rows which vary with time", "If observation_matrix(X) depends on the time of X - a time-dependent amplitude a(t), or values of the process in some data and derivatives in others - log_probability, conditioned values and predictions are those of dense regression with the covariance of h(s) x(s) and h(t) x(t) (for an amplitude a(s) a(t) k(s - t)), with every solver, and the kernel function is that covariance.", "every kernel, row as a function of time, dataset and test time", "all functions of time", [S+"kernels/base.py: observation_matrix, observation_model, evaluate", S+"solvers/kalman.py: kalman_filter", S+"solvers/parallel/kalman.py: make_associative_params", "docs/tutorials/introssm.ipynb"])
p("Innovations are independent prediction errors", "v and S returned by Kalman(y, return_v_S=True) of every solver are, datum by datum in the order of the data (for exposures, in the order in which they end), the error of predicting the datum from those before it and the variance of this error: the datum minus the mean predicted by a GP conditioned on the earlier data, and the predicted variance plus the noise variance. If the data come from the model, the v/sqrt(S) are independent standard normal variables, so the mean of the sum of v^2/S is the number of data. log_probability is the sum of the log densities of the v.", "every kernel, solver, dataset with positive noise and probability space carrying such data", "a statement about distributions over all datasets and solvers", [S+"solvers/kalman.py", S+"solvers/parallel/kalman.py", S+"solvers/integrated/kalman.py", S+"solvers/integrated/parallel/kalman.py", S+"gp.py: log_probability, _compute_log_prob"])
p("Averages of the predicted curve", "Conditioning and predicting agree across exposures: the conditioned mean of an exposure is the average over that exposure of the means that predict returns at the instants in it, and its conditioned variance is at most the average of the predicted variances.", "every kernel, instantaneous or integrated, dataset with positive noise and solver", "an integral over a continuum of predictions", [S+"gp.py: condition, predict", S+"solvers/integrated/solver.py: predict, condition"])
p("Predicted curves are no rougher than the kernel", "The squared difference of the means predicted at two times is at most 2 (k(0) - k(|s - t|)) times the sum of y^2/R over the data, the square of a predicted mean is at most k(0) times that sum, and the squared difference of predicted standard deviations at two times is at most 2 (k(0) - k(|s - t|)).", "every kernel, dataset, solver and pair of test times", "an inequality over all pairs of times and all data", [S+"gp.py: condition, predict"])
p("Effect of one measurement, and masking", "A further measurement of noise variance R, of which the GP without it predicts the mean m with variance v, moves each predicted mean by C/(v+R) (y - m) and lowers each predicted variance by C^2/(v+R), with the same C and C^2 <= v times that variance. As R grows without bound predictions tend to those without the measurement, and log_probability + log(2 pi R)/2 tends to the log_probability without it: giving a bad datum a huge error bar amounts to removing it.", "every kernel, dataset, further measurement (instant or exposure), noise, solver, test time", "limits, and all pairs of datasets", [S+"gp.py: log_probability, condition, predict", S+"solvers/kalman.py", S+"solvers/integrated/kalman.py"])
p("The predicted curve is the smoothing spline of the kernel", "The predicted mean is sum w_n k(t, X_n) with weights w_n = (y_n - conditioned mean)/R_n. Among all curves sum a_k k(., c_k), with any number of centres c_k anywhere, it has the least sum of misfit sum (y - f)^2/R and roughness sum a_k a_l k(c_k, c_l), any curve with other values at the data has a larger one, and log_probability is -1/2 times this least sum plus a term which does not depend on y.", "every kernel, dataset with positive noise, solver; every finite family of centres and coefficients", "a minimum over an infinite-dimensional set of curves", [S+"gp.py: log_probability, condition, predict"])
p("Direction of time, order of exposures and labels of instruments", "Reversing the direction of time (negating the times and listing the data in reverse) and moving its origin leaves log_probability unchanged and mirrors conditioned values and predictions. For integrated kernels the order in which exposures are listed and the numbers given to the instruments make no difference.", "every kernel, dataset with positive noise, permutation, shift, solver and test times", "a symmetry over all datasets which no step of the forward recursion has", [S+"gp.py", S+"solvers/kalman.py", S+"solvers/rts.py", S+"solvers/integrated/solver.py", S+"kernels/integrated.py"])
p("Separated components are the posteriors of the parts", "When the data measure a sum of independent Gaussian processes, one for each component of the kernel, predict with components and get_component_mean return the mean and variance of the exact conditional distribution, given the data, of the sum of the named processes; their intervals contain it with the stated probability, and no other estimate has a smaller mean square error.", "every sum kernel with distinct component names none of which occurs inside another, choice of names, sorted data, test times, noise, sequential and parallel solver", "a statement about the joint law of unobserved processes; tests see only the data", [S+"gp.py: ConditionedGP.predict, get_component_mean", S+"kernels/base.py: extract_leaf_kernels, component names"])

p("The predicted derivative is the posterior of the slope of the process", "For kernels without Exp, predict with the observation row that reads the derivative (the second state component of Matern32, Matern52 and SHO, the product rule for products) returns mean and variance of the exact conditional distribution, given the data, of the derivative of the path of the measured Gaussian process at the test time.", "every valid kernel without Exp and without critically clipped oscillators, sorted data, noise, test time, process whose paths are differentiable at the test time; sequential and parallel solver", "a statement about paths of a process and limits of difference quotients", [S+"gp.py: ConditionedGP.predict(observation_model=...)", S+"kernels/base.py: design_matrix, stationary_covariance", S+"solvers/solver.py: StateSpaceSolver.predict"])

p("Oscillators of any damping over resolved steps", "For sums and products of kernels with SHO components of any quality, when no entry of the process noise of an oscillator of quality above 1/2 over the steps between consecutive data (and, for a prediction, over the step from the last datum before the test time to it) is below 1e-14 without being zero, log_probability, condition and predict are exact regression with the closed forms of the covariance functions, and log_probability has the textbook derivatives with respect to all parameters and the noise where these entries are above 1e-14.", "every sum and product of the instantaneous kernels except Constant, sorted data with positive noise, test times, sequential and parallel solver (the latter without Exp), over such steps", "exactness over all datasets whose steps avoid the cut-off; derivatives are limits", [S+"kernels/base.py: SHO.process_noise", S+"gp.py: log_probability, condition, predict", S+"solvers/kalman.py", S+"solvers/rts.py", S+"solvers/parallel/kalman.py", S+"solvers/parallel/rts.py"])
p("Conditioning further", "The GP returned by condition(y1) can be conditioned further: its condition(y2), with a second set of measurements at the same coordinates, returns mean and variance of the posterior given both sets.", "every supported kernel, dataset with positive noise, pair of data vectors and solver", "all data vectors and kernels", [S+"gp.py: ConditionResult.gp, ConditionedGP, condition"])

p("Exposure averages of oscillators of any damping, over resolved steps", "For sums of integrated kernels with IntegratedSHO components of any quality (outside the window around 1/2 that is treated as critical), when no entry of the noise which an oscillator of quality above 1/2 and its integrals accumulate over the steps between neighbouring exposure edges (and, for a prediction, between neighbours among the edges and the test time) is below 1e-14 without being zero, log_probability, condition and predict are exact regression on the exposure averages, with both integrated solvers.", "every such sum, schedule without overlap on the same instrument, positive noise, data; for condition and predict exposures of positive length with different starts; all test times over such steps", "exactness over all schedules whose steps avoid the cut-off", [S+"kernels/integrated.py: IntegratedSHO.process_noise", S+"kernels/base.py: SHO.process_noise", S+"solvers/integrated/solver.py", S+"solvers/integrated/kalman.py", S+"solvers/integrated/rts.py", S+"solvers/integrated/parallel/kalman.py", S+"solvers/integrated/parallel/rts.py", S+"gp.py: log_probability, condition, predict"])

p("What holds for every kernel, exact or not", "For every kernel that runs, also where the answers are not exact regression (scaled kernels, oscillators with cut-off noise, overlapping exposures, data out of order): conditioned and predicted means, of the process and of components, are linear in the data and the variances do not depend on the data; shifting all times changes neither log_probability nor the conditioned values and shifts the predictions; a datum without noise is interpolated with variance zero when log_probability is finite.", "every kernel tree, instants and exposures in any order, noise, test coordinates, component; all four solvers, for interpolation the sequential and the integrated one", "all kernels, data and shifts", [S+"gp.py: log_probability, condition, predict", S+"solvers/parallel/*.py", S+"solvers/integrated/parallel/*.py", S+"solvers/kalman.py", S+"solvers/rts.py", S+"solvers/solver.py", S+"solvers/integrated/kalman.py", S+"solvers/integrated/rts.py", S+"solvers/integrated/solver.py"])

p("Both solvers agree wherever no system is singular", "Also where neither is exact (oscillators with cut-off noise, scaled kernels, times out of order, noise variances of any sign), the parallel solver returns the log_probability of the sequential solver when that is finite and no linear system which the parallel solver solves is singular; if no predicted covariance is singular, also the conditioned means and variances and all predictions, of the process and of components, and it interpolates data without noise. Positive noise and positive semidefinite process noise are enough for no system to be singular.", "every kernel tree without exposure kernels, times in any order, noise, data, test coordinates, component", "all kernels and data for which the scan is regular, exact or not; a test compares the solvers on a few exact cases", [S+"solvers/parallel/kalman.py", S+"solvers/parallel/rts.py", S+"solvers/parallel/solver.py", S+"solvers/kalman.py", S+"solvers/rts.py", S+"solvers/solver.py", S+"gp.py: log_probability, condition, predict"])

p("Both integrated solvers agree wherever no system is singular", "For exposures of which one begins before any ends (as when all have positive length), also where neither solver is exact (scaled kernels, oscillators with cut-off noise, overlaps on one instrument, noise variances of any sign), the parallel integrated solver returns the log_probability of the sequential integrated solver when that is finite and no linear system which the parallel solver solves is singular; if no predicted covariance is singular, also the conditioned means and variances and all predictions, of the process and of components, and it interpolates exposures measured without noise. Positive noise and positive semidefinite process noise over the steps between neighbouring exposure edges are enough for no system to be singular and for a finite log_probability. If a measurement of zero length comes first, the parallel solver ignores its value.", "every kernel tree, exposures in any order of which one begins before any ends, noise, data, test coordinates, component", "all kernels and schedules for which the scan is regular, exact or not; a test compares the solvers on a few exact cases", [S+"solvers/integrated/parallel/kalman.py", S+"solvers/integrated/parallel/rts.py", S+"solvers/integrated/parallel/solver.py", S+"solvers/integrated/kalman.py", S+"solvers/integrated/rts.py", S+"solvers/integrated/solver.py", S+"gp.py: log_probability, condition, predict"])

p("Forecasts and likelihood fit together for every kernel", "Also where the sequential solver is not exact (oscillators with cut-off noise, scaled kernels, earlier data out of order, noise variances of any sign): with one more measurement at the end, not earlier than any other, log_probability changes by the log density of the measurement under the forecast, that is the mean and variance which predict returns at its time, the variance plus the noise; if that variance is not positive the result is -inf. condition with the further measurement returns, at it, the forecast updated by Bayes' rule.", "every kernel tree without exposure kernels, data, noise, further measurement not earlier than the others", "all kernels and datasets, also those for which no dense reference exists", [S+"gp.py: log_probability, condition, predict", S+"solvers/kalman.py", S+"solvers/solver.py: predict", S+"solvers/rts.py"])

# properties proved for exactly the kernels, coordinates and solvers of C61
for i in (62,63,65,66,67,69,72,75,77,81,82,83,84,85,89,90,91,92,93,94):
    P[i-1]['quantifier']+='; kernels, coordinates and solvers as in C61'

with open('/verif/properties.jsonl','w') as f:
    for x in P: f.write(json.dumps(x)+"\n")
print(len(P))
for x in P: print(x['id'],x['title'])
