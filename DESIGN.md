# Formal model of smolgp in Lean 4

## What is checked

`lean/Verif/Model/*` transcribes the numerical core of `/repo/src/smolgp` function by function into Lean
definitions (each cites file and lines). `lean/Verif/Spec/*` holds small specifications written without the model's
helper functions. `lean/Verif/Lemmas/*` holds auxiliary lemmas, `lean/Verif/Props/*` the property theorems together
with `example`s which show that their hypotheses are satisfiable. `MANIFEST.json` (generated by `tools/gen_manifest.py`
from `tools/claims.py`) lists the theorems of each property.

## Trusted base

* Lean 4.33.0 kernel; every theorem depends on the axioms `propext`, `Classical.choice`, `Quot.sound` only (checked with
  `#print axioms`). No `sorry`, no own axioms, no `native_decide`, no `bv_decide`, no `implemented_by`, no `unsafe`.
* The reading of the python source: real numbers stand for floats (no rounding, no overflow), `jnp.linalg.solve A b`
  is `A⁻¹ b` (theorems which need it guard invertibility, and where possible prove it), `jax.lax.scan`, `vmap`, `cond`, `switch`,
  `associative_scan`, `searchsorted`, `lexsort`, `nonzero`, `take`, `argsort` have the semantics written in `Verif/Model/Jax.lean`
  and `Verif/Model/Parallel.lean`; `jnp.where` selects the value of a branch; matrix exponentials are exact.
* The specifications in `Verif/Spec`: Gaussian log density, posterior mean and variance as dense linear algebra, the
  textbook covariance functions, exposure averages as interval integrals. C77 derives the dense formulas from the random
  experiment in `Spec/Probability.lean`, stated with Mathlib's Gaussian processes and conditional distributions.

## Modelled code

| python | Lean |
| --- | --- |
| `kernels/base.py` `StateSpaceModel` (`evaluate`, `evaluate_diag`, `observation_model`, `coord_to_sortable`), `Sum`, `Product`, `Wrapper`, `Scale` | `Model/Kernel.lean` |
| `kernels/base.py` `SHO`, `Exp`, `Matern32`, `Matern52`, `Cosine`, `ExpSineSquared`, `Matern`; `Constant` (as far as it runs) | `Model/Kernels.lean`, `Model/GP.lean` |
| `kernels/base.py` subclasses of `StateSpaceModel` with inherited methods, of `Wrapper` with another `observation_matrix` (`docs/tutorials/derivative.ipynb`) | `Model/UserKernel.lean` |
| `v`, `S` of `solver.Kalman(y, return_v_S=True)` of the four solvers | `Model/Innovations.lean` |
| `kernels/base.py` `psd` | `Model/Psd.lean` |
| `kernels/base.py` `__add__`, `__radd__`, `__mul__`, `__rmul__` | `Model/Operators.lean` |
| `kernels/integrated.py` all classes: augmentation, reset, observation, `IntegratedSHO` closed forms | `Model/Integrated.lean` |
| `kernels/dense.py` `unpack_coordinates`, `SHOKernel`, `IntegratedSHOKernel` | `Model/Dense.lean` |
| `kernels/dense.py` `extract_leaf_kernels` (over tinygp's sums and products) | `Model/Dense.lean` |
| `helpers.py` `block_view` | `Model/BlockView.lean` |
| `helpers.py` Van Loan functions | `Model/VanLoan.lean` |
| `solvers/kalman.py`, `solvers/rts.py`, `solvers/solver.py` | `Model/Kalman.lean` |
| `solvers/parallel/*` | `Model/Parallel.lean` |
| `solvers/integrated/*`, `solvers/integrated/parallel/*` | `Model/Integrated.lean` |
| `gp.py` `_compute_log_prob`, data projection, sorting | `Model/GPCore.lean` |
| `gp.py` `assign_unique_kernel_names`, `ConditionedStates`, `PredictedStates`, `GaussianProcess` (construction, solver choice, `log_probability`, `condition` with `X_test` or `kernel`, `predict` with `kernel`, `return_full_state` or `observation_model`, `loc`, `variance`, `covariance`, components) | `Model/GP.lean` |

Not modelled: rounding, dtypes, jit compilation, automatic differentiation (C76 is about the derivative of the computed function), devices, `__repr__`, printing of warnings, `to_dense` of block
matrices (dense matrices are used throughout), `normalization` of the solvers (delegated to tinygp's `QuasisepSolver`), `numpyro_dist`, multi-dimensional observations, tinygp and equinox internals (pytree equality used by `assign_unique_kernel_names` is modelled as structural equality).

## Simplifications

* Index sets: state vectors are functions on a finite type; `Sum` uses `n₁ ⊕ n₂`, `Product` uses `n₁ × n₂` (block/kron order).
* Arrays: `Arr α` = length and indexing function.
* Exceptions are values of `Except PyErr`; a division by zero in the dense kernels is `none`.
* Log probabilities are extended reals (`⊥` where the code returns `-inf`).

## Where the code disagrees with a property

Each item is a proved negation (theorem in brackets), unless marked.

1. `Constant` can be used with no solver: `self.eye` does not exist [C30_constant_fails].
2. `Exp` raises with python scalar parameters in the parallel solvers [C30_exp_parallel_fails].
3. `Scale` does not scale the process noise [C28_scale_inconsistent, C28_scale_likelihood_wrong]; `2 * kernel` and `math.prod` of kernels raise for want of a name [C28_scalar_multiple_raises, C78_math_prod_raises].
4. Unique names: numbered names may collide, equal products keep equal names, products can raise `KeyError`
   [C37_collision, C37_products_stay_equal, C38_product_fails].
5. The mean of a product component is zero, and a factor of a product leaks into another component [C39_product_lost, C40_factor_leaks].
6. The mean function is ignored [C44_mean_ignored].
7. `condition(y, X_test)` always raises [C43_condition_with_test_coordinates_raises].
8. `ParallelStateSpaceSolver.condition` with default arguments raises [C52_parallel_raises].
9. The parallel integrated solver ignores a first datum of zero exposure [C12_first_instantaneous_ignored, C12_likelihood_refuted].
10. Simultaneous exposure starts, and `IntegratedCosine`, make the smoother's system singular [C56_simultaneous_starts_singular, C56_cosine_singular].
11. `X = (t, texp)` is rejected, integrated factors of products are not noticed [C45_pair_rejected, C45_product_unnoticed].
12. The conditioned GP always makes names unique, also if told not to [C54_flag_forgotten].
13. Mixed sums observe the instantaneous component at the end of the exposure [C53_refuted].
14. Prediction of an exposure (δ > 0) is not its posterior [C55_refuted, C55_before_the_data].
15. `SHO`: quality within `allclose` of 1/2 uses the critical formula [C20_sho_window_not_exp, C21_integrated_sho_window]; noise entries below
    `1e-14` are dropped, which makes likelihoods wrong and noise indefinite [C01_sho_truncated_likelihood_wrong, C16_sho_noise_not_psd];
    the documented formula has sine and cosine exchanged [C24_sho_doc_formula_wrong].
16. `ExpSineSquared.error_bound` is not a bound, and the variance is below `σ²` [C29_error_bound_wrong, C29_variance_too_small].
17. `evaluate` of integrated kernels is not symmetric [C25_integrated_not_symmetric]. `evaluate_diag` returns a 1×1 array where `evaluate` returns a scalar; the model has its entry (C25_diagonal), the shape, and what tinygp's `__call__` makes of it, are not modelled.
18. An instrument index beyond the last one is not rejected [C34_out_of_range_resets_last].
19. `condition(y)` raises with a single datum [C57_single_point].
20. `predict(X, y)` on a conditioned GP ignores `y` [C42_conditioned_ignores_data].
21. The parallel filter solves a zero system for noise-free repeated times [C06_noise_free_repeat].
22. `psd` of `Cosine` and `ExpSineSquared` is zero away from the spectral lines [C36_cosine_zero, C36_expSineSquared_zero].
23. The dense `SHOKernel`/`IntegratedSHOKernel` use trigonometric functions for overdamped oscillators [C47_overdamped_refuted], divide
    by zero at `Q = 1/2` [C47_critical], ignore the exposure in pairs `(t, texp)` [C47_pair_refuted], and do not average exposures
    below their thresholds [C47_threshold_refuted].
24. Predicting at pairs `(t, texp)` raises with integrated kernels [C45_pair_prediction_raises].
25. An `observation_model` is ignored without `X_test` or together with `kernel=` [C59_observation_model_ignored].
26. `variance` of a GP that is not conditioned is `None`, not the documented prior variance [C60_prior_variance_missing]; after
    `condition(y, kernel=k)` predictions at new coordinates are those of the whole model [C60_component_forgotten].
27. `dense.extract_leaf_kernels(k, all=True)` leaves products whole below the outermost operation [C41_dense_all_refuted].
28. The absolute cut-off of `SHO` makes results depend on the units of the values [C68_sho_units_matter]; for `IntegratedSHO` of small amplitude
    it removes all process noise and makes the smoother's systems singular [C74_small_amplitude_singular].
29. Observed while reading, not proved: `ParallelStateSpaceSolver` squeezes one-dimensional states; the warning of `ExpSineSquared`
    names `gamma > 16` while the order changes at `gamma > 32`; `psd` of integrated kernels unpacks the scalar `0`.
30. `sample` and `covariance` raise `NotImplementedError` [C79_not_implemented].
31. `IntegratedStateSpaceModel` ignores the observation row of its base kernel and always averages the first state
    [C86_integrated_ignores_row, C86_integrated_row_refuted].
32. For rows which vary with time, `evaluate` called with the earlier coordinate first multiplies the wrong rows [C88_evaluate_refuted], and
    the parallel solver evaluates the row at time differences instead of times [C88_parallel_refuted].
33. The documentation of `ConditionResult.gp` (`gp.py:871-876`) says that the conditioned GP can "condition further". Conditioning it again forgets
    the first data [C98_forgets].

## Mutation testing

`seeded/LOG.jsonl` records wrong versions of model definitions and the theorems which no longer prove.

## Properties
* **C01 Log-likelihood is the exact GP marginal likelihood** — `kalman_filter` scan + `_compute_log_prob`; spec = dense multivariate normal log density. Proof: innovations are an orthogonalisation of the observations (unit triangular change of variables).
* **C02 Conditioned mean at the data is the exact GP posterior mean** — scan filter + RTS scan + `project_at_data`; spec = dense formula. Proof: linear-projection ("Est") invariant carried through filter and smoother.
* **C03 Conditioned variance at the data is the exact GP posterior variance** — as C02, covariance part.
* **C04 Prediction at arbitrary test coordinates is exact GP regression** — `StateSpaceSolver.predict` branch by branch (searchsorted, three cases); same invariant in a continuous-time covariance space.
* **C05 Predicting at a data coordinate agrees with conditioning** — consequence of the model of `predict` and of C02-C04; `C05_predict_any` follows the branches of `predict` at an observed time, with no exactness.
* **C06 Parallel filter equals sequential filter** — `make_associative_params`, `_combine_per_pair`, JAX odd/even `associative_scan`, `postprocess`; equality with the scan model.
* **C07 Parallel smoother equals sequential smoother** — as C06 for the smoother.
* **C08 Scan schedule independence** — associativity of both combine functions on the invariant set; every bracketing equals the fold; JAX's own recursion is one instance.
* **C09 Integrated solver: likelihood is exact for the augmented model** — `integrated_kalman_filter`; chain of Gaussian variables with resets; innovations argument.
* **C10 Integrated solver: smoothing is exact for the augmented model** — `integrated_rts_smoother`; Est invariant; negation when the last event is a start.
* **C11 Exposure-averaged data are modelled by the double-averaged kernel** — augmented matrices; covariance of the chain = double integrals.
* **C12 Parallel integrated filter equals sequential integrated filter** — equality of the two filters when the first event is a start; negation with a concrete zero-length exposure.
* **C13 Exposure event ordering** — `lexsort` modelled as a stable sort; sortedness, permutation, tie rule.
* **C14 Conditioned results come back in the order of the input data** — `nonzero`/`argsort`/`take` model of `project_at_data`.
* **C15 Input-order invariance for integrated data** — sorted event lists coincide up to relabelling.
* **C16 Covariances are symmetric positive semidefinite and variances non-negative** — induction over the scans.
* **C17 Data never increases uncertainty** — induction over the scans.
* **C18 Filter causality** — induction.
* **C19 Posterior mean is linear in the data, covariance does not depend on it** — induction.
* **C20 Analytic transition matrices are the matrix exponential of the design matrix** — analytic formulas as Lean functions of dt; `NormedSpace.exp` by ODE uniqueness. SHO tolerance window: negation off 1/2.
* **C21 Transition semigroup** — from C20 or directly.
* **C22 Analytic process noise agrees with the stationary covariance** — algebra of exp/cos/sin.
* **C23 Stationarity (Lyapunov equation)** — algebra.
* **C24 Kernel values have the documented closed form** — `evaluate` with its `where` branch.
* **C25 Kernel evaluation is symmetric** — negation: integrated kernels (observation depends on the coordinate); partial: constant observation row.
* **C26 Covariance matrices are positive semidefinite** — Gram matrix of the continuous-time covariance; induction on trees.
* **C27 Sums and products of kernels mean sums and products of covariance functions** — structural induction on trees.
* **C28 Scalar multiples of kernels** — negation (constructor call misses `name`; `process_noise` not scaled).
* **C29 Periodic kernel** — Fourier-series truncation; bound refuted.
* **C30 Every exported kernel can be filtered** — negation: Constant, Exp in parallel solvers, one-dimensional states in the parallel solver; positive part for the rest.
* **C31 Van Loan helpers compute the documented integrals** — derivative of the block exponential.
* **C32 Augmented model of integrated kernels** — same.
* **C33 IntegratedSHO analytic formulas** — closed form = integrals.
* **C34 Resets touch only their own instrument** — `dynamic_update_slice` clamping semantics.
* **C35 Observation model selects exposure average or latent value** — branch on delta.
* **C36 Power spectral density** — complex resolvent algebra; Wiener–Khinchin for damped kernels through exponential bounds on `exp(tF)`; closed forms by polynomial algebra.
* **C37 Component names are made unique** — `assign_unique_kernel_names` over trees with Except; negations + partial.
* **C38 GP construction succeeds for every kernel tree** — negation + partial.
* **C39 Component means add up to the total mean** — `observation_model` over trees; negation for products; partial for sums of leaves.
* **C40 Component selection isolates the component** — same.
* **C41 Component extraction splits exactly the sums** — induction.
* **C42 Conditioning state machine** — GP record as a state machine.
* **C43 condition with test coordinates** — negation: raises.
* **C44 The mean function is honoured** — negation + zero-mean partial.
* **C45 Automatic solver choice** — decision table.
* **C46 log_probability is total** — EReal-valued.
* **C47 Dense integrated SHO kernel is the double average** — every geometric case of `IntegratedSHOKernel.evaluate`, with checked divisions; the double average through the second antiderivative of `κ∘|·|`, which is even, so that all cases become algebra; negations off the supported parameters.
* **C48 Generic Matern kernel** — binomial companion matrix; the characteristic polynomial and equality of all matrices for d = 1, 2, 3.
* **C49 Block view** — index arithmetic.
* **C50 Time-translation invariance** — scan congruence.
* **C51 Noise-free interpolation** — update algebra.
* **C52 Direct solver use** — negation (6-tuple unpacked into 4).
* **C53 Mixed kernels treat the instantaneous part at the measurement coordinate** — negation: value at exposure end.
* **C54 Conditioning keeps component names** — negation/partial.
* **C55 Integrated prediction with exposures** — negation.
* **C56 Simultaneous exposure starts** — negation: predicted covariance singular.
* **C57 Conditioning succeeds** — the GP state machine; negation for a single datum.
* **C58 Latent prediction from exposure-averaged data** — `IntegratedStateSpaceSolver.predict`; a test point is a probe event on the time line, and the Est invariant is carried through it.
* **C59 Predicted states, observation models and derivatives** — `predict` with `return_full_state`/`observation_model`; the Est invariant for arbitrary rows gives every entry of mean and covariance; the covariance of states is `exp(F(s-t)) P∞` on either side of `t`, so the derivative exists because no noise enters the observed row directly (`H L Qc Lᵀ = 0`).
* **C60 Stored mean and variance** — `loc`, `variance`, `condition(y, kernel=k)`; prior variance refuted.
* **C61 Only the covariance function matters** — union of C01–C04, C06/C07, C11, C58 through one relation `Regression` (kernel, coordinates, solver, covariance function).
* **C62 Extrapolation returns to the prior** — from C61 and exponential decay of damped kernels.
* **C63 Predicted curves are continuous** — from C61 and continuity of exposure-averaged covariances.
* **C64 Periodic kernels give periodic predictions** — from C61.
* **C65 More data and less noise never increase the variance** — Loewner order of the dense formula, through C61.
* **C66 Repeated measurements combine by inverse variance** — dense algebra with a replication matrix (determinant lemma), through C61.
* **C67 Redundant data** — dense algebra, through C61.
* **C68 Units** — `Kern.inUnits` by structural recursion; negation for the underdamped SHO.
* **C69 Continuity in the data, short exposures** — continuity of exposure averages and of matrix inversion, through C61.
* **C70 Oscillator cut-off bound** — the run with truncated noise is exact for a perturbed data covariance (Lemmas/NoisyRun, NoisySmooth); spectral perturbation bounds for likelihood, mean and variance (Lemmas/Perturb, NoisyBound). Predictions: one process in continuous time carries the filter, the smoother and the prediction step with their inexact noise (Lemmas/NoisyPredict).
* **C71 Textbook regression** — `Spec/Textbook.lean` gives the covariance function of an expression, the noise and the matrices with no reference to the model of the solvers; results follow from C61.
* **C72 Nearby covariances** — spectral perturbation bounds (Lemmas/Perturb, NearPosterior) applied to C61; the tail of the Bessel series bounds the periodic kernel (`C29_truncation_bound`).
* **C73 Near critical damping** — energy estimate for the oscillator equation (Lemmas/QualityBound), then C72. Qualities within `allclose` of 1/2 are among the valid kernels everywhere except in C20 and C59, which speak about the design matrix.
* **C74 Integrated cut-off bound** — first rows of products of augmented transitions are bounded (Lyapunov equation; resets), hence the observed covariances change by at most the number of events times the cut-off (Lemmas/IntPerturb); positive innovation variances for nearby covariances (Lemmas/IntPerturbRun); then as C70. Singular systems for small amplitudes are a negation.
* **C75 Likelihood and prediction** — Schur complement of the Gram matrix at the further measurement (Lemmas/OneMore), through C61.
* **C76 Gradients** — Jacobi's formula and the derivative of the inverse (Lemmas/DetDeriv), differentiation under the exposure integrals (Lemmas/ExposureDeriv), through C61 and C71.
* **C77 What the results mean** — `Spec/Probability.lean` describes the random experiment (a Gaussian process seen through noise) and what a posterior is, on Mathlib's measures; law of a Gaussian vector from its covariance, conditional distribution, coverage and Gibbs inequality (Lemmas/GaussianLaw), averages of a process as limits of Riemann sums (Lemmas/RiemannSum, GaussianAverages), through C61.
* **C78 Arithmetic of kernels** — `Model/Operators.lean` models the operators and Python's `sum` and `math.prod`; folds of C71. `math.prod` refuted.
* **C79 Samples and covariance** — negation (`NotImplementedError`).
* **C80 Logarithmic time, linear work** — `Spec/Cost.lean`: depth and number of different combinations of a calculation with an arbitrary operation; the scan of the model is polymorphic, so its plan is its value on formal calculations (Lemmas/ScanCost).
* **C81 Bounded influence of the data** — the weights `a = K⁻¹c` of the data satisfy `Σ R_i a_i² ≤ var` because the residual of the noiseless process has non-negative variance (Lemmas/Influence); Cauchy–Schwarz.
* **C82 Many data determine the process** — `postVar_le` with the weights `1/n` on the data nearby; continuity of the covariance function gives the thresholds; C77 turns the variance into a mean square error.
* **C83 Bounds of the likelihood** — monotonicity of the determinant above the noise matrix; Hadamard's inequality for the other bound.
* **C84 Short and long time scales** — limits of the covariances entry by entry, then continuity of the regression formulas where the limiting matrix is positive definite; the constant is solved by Sherman–Morrison.
* **C85 Data far apart do not influence each other** — the cross-covariances vanish in the limit; a block-diagonal matrix gives the sum of the log densities and the prediction of its first block.
* **C86 Kernels written by the user** — `userKernel` has abstract matrices and the inherited methods; the dissipation inequality makes it `Regular`, and the exactness theorems of C01–C07 apply. Differentiating the two process noises at 0 gives the converse for Van Loan. The observation row of an integrated kernel is hard-coded in `kernels/integrated.py`, so the base kernel's row is ignored: proved negation.
* **C87 Kernels of derivatives** — `SSM.observing` is the subclass of `Wrapper`; no noise enters the observed combination, so its stationary covariance may be differentiated (C59); the closed forms for Matérn-5/2 come from its transition matrix.
* **C88 Observation rows which vary with time** — the data chain of C01 with a row per time (Lemmas/Moving); sums and products by replacing the rows in their regularity proofs. Proved negations: `evaluate` multiplies the wrong rows when its first argument is the earlier one, and `solvers/parallel/kalman.py:60,88` calls `H` with time differences (the source says "TODO: this is wrong"). Rows that depend on more than the time of a tuple coordinate are not expressible: all solvers pass the time only.
* **C89 Innovations are independent prediction errors** — `Model/Innovations.lean` returns `v`, `S` of the four filters. The map from data to `v` is unit triangular (linearity and causality of a run) and diagonalises yᵀK⁻¹y (the gram lemmas of C01, C11), which determines both (Lemmas/Innovate). The parallel filters return the same values (C06, C12). Independence: Gaussian residuals are independent of the earlier data, hence the innovations are pairwise uncorrelated and jointly normal.
* **C90 Averages of the predicted curve** — cross-covariances of an exposure are integrals of those of its instants, so the mean follows by exchanging a finite sum and an integral; the variance by averaging `Var(average - f(s)) ≥ 0` over `s` (Lemmas/PosteriorCov).
* **C91 Predicted curves are no rougher than the kernel** — Cauchy–Schwarz in the inner product of `K⁻¹`, `K⁻¹ ≤ R⁻¹`, and non-negativity of the posterior variance of a difference; standard deviations obey the triangle inequality.
* **C92 Effect of one measurement, and masking** — the inverse of the bordered matrix as a bilinear form (Lemmas/OneDatum, polarising C75); Cauchy–Schwarz for posterior covariances; limits.
* **C93 The predicted curve is the smoothing spline of the kernel** — completing squares: the excess of another curve is `Σ (f-M)²/R` plus the variance of a linear combination of values of the process.
* **C94 Direction of time, order of exposures and labels of instruments** — averages are invariant under reflections; dense regression is invariant under permutations (BlockGauss); C61.
* **C95 Separated components are the posteriors of the parts** — Spec/Parts.lean states the experiment (independent Gaussian processes, their sum measured); joint law and moments in Lemmas/Parts.lean; the rows of C40, here also for the parallel solver (`component_predicted`, `component_at_data_any`), give the same dense formula.
* **C96 The predicted derivative is the posterior of the slope of the process** — limits of Gaussian vectors are Gaussian with the limiting covariances (characteristic functions, Lemmas/DerivativeLaw.lean); difference quotients converge to the slope and their covariances to derivatives of the kernel function (L'Hôpital); these are the rows of C59.
* **C97 Oscillators of any damping over resolved steps** — the solvers read the process noise only over the steps between data and up to the test times; where the noise over these equals `P - A P Aᵀ` the runs coincide with those of the same kernel with exact noise (congruence of sequential and parallel runs), which is a regular model. Derivatives: entries above the cut-off stay above it near the parameter.
* **C98 Conditioning further** — by C42 the second conditioning uses the second data alone; refuted for every supported kernel with a positive variance of the first datum (data = its covariances, then zeros). The posterior given both sets, over `Fin N ⊕ Fin N`, is that of their means with half the noise (C66).
* **C99 Exposure averages of oscillators of any damping, over resolved steps** — every entry of the process noise of `IntegratedSHO` is the cut of the integral of its differential equation; over steps where nothing is cut the noise is that integral, and the theorems for integrated data (C09, C11, C12, C56, C58) need no more than this over the steps between sorted events, which are the neighbouring edges, and around the test time. Example: every sufficiently large oscillation.
* **C100 What holds for every kernel, exact or not** — the filter and smoother are linear in the data with data-independent gains, for any matrices; every transition of a kernel tree depends on differences of times only (`Kern.obsShift`); a noise-free update leaves no variance along the observation row, which the smoother preserves because that row of the residual covariance vanishes; symmetry of all covariances is proved for every tree (`Kern.symm`). For the parallel solvers a three-place relation between scan elements (`KElem.Lin`, `BElem.Lin`) is kept by the combinations, without invertibility of anything solved. No stationarity, resolution or schedule hypothesis. Examples: an underdamped integrated oscillator of any frequency; an underdamped oscillator with the parallel solver; a noise-free first datum.
* **C101 Both solvers agree wherever no system is singular** — C06 and C07 need positive semidefinite elements, for which every system is regular and the combination associative. Here an element of a block only has to hold for every trajectory of states and costates through the block; combining two such elements with a regular system keeps this (`KElem.combine_rel'`, `scan_blocks`), with the schedule of `jax.lax.associative_scan` as modelled. The filter itself provides a trajectory for every final costate (`measure_step`), which determines `b` and `C` of every prefix (`prefix_regular`). The smoothing elements compose without any system. `scanCombines` lists the pairs combined. Examples: an oscillator of amplitude below the cut-off, any number of data; two data in the wrong order, where the predicted covariance is indefinite.
* **C102 Both integrated solvers agree wherever no system is singular** — C101 for the scan over exposure edges. The element of a start carries the reset matrix, the element of an end is the element of a measurement (`endElem_eq_measure`), and the process noise over a step of length zero vanishes for every kernel tree (`Kern.Q_zero`), so the first element is that of the first start. One exposure has to begin before any ends (`BeginsFirst`); otherwise the parallel solver ignores a measurement (`C102_otherwise_ignored`, from C12). Examples: a scaled kernel, for which neither solver is exact; conditioning and prediction with overlapping exposures on two instruments.
* **C103 Forecasts and likelihood fit together for every kernel** — the filter is causal (C18), a test time after all data is predicted by one step of the filter from its last state, whatever the smoother returns, and that is the step of the filter for the further datum. The update of the measured combination of the state needs only that the innovation variance does not vanish (`update_row`). Example: an oscillator below the cut-off, data in any order.
