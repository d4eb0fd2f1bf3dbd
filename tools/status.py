F='The full statement is false of the code (proved by the counterexample theorem): '
STATUS={
'C04':('partial',F+'the binomial unit deviance is 2 log 2 at y = mu = 1/2 (F1). Proved: all other families; binomial: non-negative, strictly smallest at mu = y, and the full claim for 0/1 observations.'),
'C07':('partial',F+'Tweedie p < 0 with a negative observation (F2). Proved for every other family, power and sample.'),
'C11':('partial',F+'negative binomial samples containing a zero, where the saturated log-likelihood is NaN (F15). Proved whenever both log-likelihoods are numbers; c11_binomial treats the binomial family.'),
'C17':('partial',F+'constant columns (F3) and models without intercept (F5). Proved: with intercept and no near-constant column.'),
'C19':('partial',F+'start values are clipped against the user\'s bounds although they live on the standardised scale, so an infeasible start can be returned (F4). Proved: every visited point is within bounds when the start is within the standardised bounds.'),
'C38':('partial',F+'monotonic_constraints with bounds and solver="auto" ignores the bounds (F17); with an alpha search the L1 check is skipped (F10); numpy-array alphas raise (F18). Proved: inequality constraints in full, bounds without monotonic constraints, L1 for a single alpha or automatic choice.'),
'C40':('partial',F+'with an intercept and an offset the path starts too low (F11). Proved: no offset or no intercept, all features L1-penalised, exact guessed intercept.'),
'C43':('partial',F+'predict with sample_weight and several alphas scales along the alpha axis (F20). Proved: alpha lookup in full, linear_predictor and predict without sample_weight.'),
'C45':('partial',F+'binomial family with proportions (consequence of F1). Proved: score <= 1 always, and = 1 iff perfect for every other family.'),
'C48':('partial',F+'a scalar NaN or infinite weight is accepted (F21). Proved: over finite numbers, and over extended numbers for arrays.'),
'C49':('partial',F+'weights that sum to less than the number of parameters give a negative robust covariance (F23). Proved: symmetric and positive semidefinite whenever the weights sum to more.'),
'C50':('partial',F+'the clustered factor is M/(M-1)*(N-1)/(N-p), documented is N/(N-p) (F22). Proved: sandwich formula for robust, clustered and non-robust matrices with the factor the code uses; singleton clusters reproduce the robust one up to that factor.'),
'C51':('partial',F+'labels other than 0..k-1 may merge clusters (-1, 1) or raise (F9). Proved for labels 0..k-1.'),
'C53':('partial',F+'wald_test(R=R) without r raises (F8). Proved for features and terms.'),
'C54':('partial',F+'the criteria ignore the offset of the fit, and later calls return cached values (F7). Proved: first call, no offset.'),
'C57':('partial',F+'a literal level "(MISSING)" makes prediction on the training frame raise (F25); column names are not compared (F26). Proved: every frame with the training columns in training order and no clash of names.'),
'C64':('partial',F+'stale criteria (F7), stale model spec of an earlier formula fit (F12), failing refits are not atomic (F24). Proved: every other attribute, for every history, without warm_start.'),
'C69':('partial',F+'the monotone solver can report convergence at a non-optimal point (F30). Proved: optimal whenever the rows penalised in the last pass end with the right sign.'),
'C76':('partial',F+'with an intercept and an L1 penalty the only iteration may screen out a needed feature: ConvergenceWarning and a non-optimal result for every max_iter (F34). Proved: least squares and ridge with irls-ls from the user\'s arguments (exact minimiser, no warning); irls-cd without intercept or without L1 penalty, if the inner solver did not warn and made at most 9999 coordinate visits.'),
'C80':('partial',F+'without intercept the start is not put on the solver\'s scale, so a refit from the solution does not start at it (F5). Proved: with intercept, without bounds and nearly constant columns.'),
'C82':('partial',F+'for a sparse P2 with 2000 or more features the check calls scipy.linalg.eigsh, which does not exist, and fit raises AttributeError (F36). Proved for every other P2.'),
'C83':('partial',F+'re.search ignores text around the pattern, the dot of negative.binomial matches any character and nan is accepted as Tweedie power (F37); for a negative Tweedie power the automatic link is the identity, which yields impossible means (F38). Proved for every string without bracket, every documented call form, and every other family.'),
'C84':('proved','Cyclic selection (the default); the iteration version needs hessian_approx=0 and a Hessian with curvature above 16 eps. Exact arithmetic.'),
'C85':('proved','irls-ls (the linear solver is a parameter with the contract H d = score); c85_step_tol covers irls-cd with step_size_tol. Exact arithmetic.'),
'C86':('proved','Cyclic selection. c86_squared_error and c86_accuracy have no hypothesis on the course of the iteration; c86_linear and c86_distance (any family) assume that every iteration changes the objective by more than the 16 eps round-off allowance, because the line search accepts steps below it without any decrease. Exact arithmetic.'),
'C87':('proved','c87_fit is exact for irls-ls (any linear solver). irls-cd is covered by c87_objective and c87_converged_fits_agree; it is not exactly invariant because its stopping test looks at the size of the intercept (c87_cd_looks_at_intercept). Not part of the property, and false: a computed alpha path (c87_search_counterexample: _get_alpha_path guesses the intercept without the offset). Exact arithmetic.'),
'C88':('proved','irls-cd: any penalties, bounds, coordinate selection; irls-ls: for a linear solver that commutes with changes of sign (c88_signBlind_ls), which any solver of a nonsingular system does. Exact arithmetic; tabmat means and standard deviations by contract.'),
'C89':('proved','Built-in convex family/link pairs (ConvexFit), no step_size_tol. The curvature hypothesis is met by ridge penalties and by squared error (c78_curvature_ridge, c78_curvature_normal). Exact arithmetic.'),
'C90':('proved','Built-in convex family/link pairs (ConvexFit), no step_size_tol; regularity stated as RegularFit. Exact arithmetic.'),
'C91':('proved','Built-in convex family/link pairs (ConvexFit), no step_size_tol for the fit-level theorems. Exact arithmetic.'),
'C92':('proved','Fit-level theorems: built-in convex family/link pairs (ConvexFit), no step_size_tol; c92_fits_agree_* under a curvature hypothesis, c92_limits_log without it. Exact arithmetic.'),
'C93':('proved','Built-in convex family/link pairs (ConvexFit); with an intercept and an offset, families whose intercept guess ignores the offset (binomial, negative binomial) are excluded. Exact arithmetic.'),
'C94':('proved','Built-in convex family/link pairs (ConvexFit) with a unique solution (RegularFit), no step_size_tol, bounds unchanged. Exact arithmetic.'),
'C95':('proved','Values are opaque except the ones __setstate__ looks at; the pickle protocol itself (bytes) is not modelled.'),
'C96':('proved','Built-in convex family/link pairs (ConvexFit), no step_size_tol; timings, n_active_rows and n_line_search are not modelled. The column called intercept is on the centred scale and differs from intercept_ (example in the file). Exact arithmetic.'),
'C97':('partial','The full statement is false of the code: TweedieDistribution(0) is not an instance of NormalDistribution, so with the identity link solver=closed-form refuses it and auto picks another solver (c97_normal_counterexample); TweedieLink(0)/TweedieLink(1) refuse a constant response and start elsewhere (c97_link_counterexample). Everything else is proved. Powers are exact reals (the code rounds them to float32).'),
'C98':('proved','== is not reflexive for TweedieDistribution(nan), which the constructor accepts, and not to_tweedie-equality (c98_eq_counterexample). Comparison with objects of user-defined subclasses is not modelled.'),
'C99':('partial',"The full statement is false of the code: with warm_start and without intercept the start is the array coef_ itself, which is clipped to the bounds and (if the solver makes no iteration) rescaled in place, so an earlier coef_ held by the caller changes (c99_warm_counterexample). Everything else is proved: frame, histories, refinement of the functional model of fit, cross-validation jobs. Not covered: memory after fit raises; scipy's and tabmat's own internal writes."),
'C100':('proved','Sums of floats (unlike arrays) do depend on the schedule: c100_float_counterexample, with an addition that rounds. Trusted: Cython makes variables assigned in the body private and variables updated in place reductions; OpenMP gives each iteration to one thread; aligned loads and stores of single elements are atomic. Negative binomial likelihood: where it is a number.'),
'C101':('proved','Fits: the convex family/link pairs with compiled routines (ConvexFit). Weights: with scale_predictors=False or a fixed penalty scale, since the scale itself depends on the weights.'),
'C102':('proved','Fits: the convex family/link pairs with compiled routines.'),
'C103':('proved','No overflow, NaN or fused multiply-add. For bounds other than zero c103_bounds_counterexample shows a floating-point format in which the reported coefficient violates the bound.'),
}
EXTRA={}
