{"id": "C01", "title": "Link round trip", "statement": "For every link (identity, log, logit, cloglog, Tweedie p), link.inverse(link.link(mu)) = mu for every mu in the open domain of the link, and link.link(link.inverse(eta)) = eta for every eta in its range (for logit and cloglog: whenever inverse(eta) is not clipped at eps50).", "quantifier": "all links, all means in the domain, all linear predictors", "why_tests_cant": "the domain is a continuum; a test samples finitely many points", "anchors": ["src/glum/_link.py: IdentityLink, LogLink, LogitLink, CloglogLink, TweedieLink"]}
{"id": "C02", "title": "Link derivatives are the derivatives", "statement": "link.derivative(mu), link.inverse_derivative(eta) and link.inverse_derivative2(eta) are the derivative of link, and the first and second derivative of the unclipped inverse, at every interior point.", "quantifier": "all links, all points of their open domain", "why_tests_cant": "the domain is a continuum; a test samples finitely many points; finite differences have tolerance", "anchors": ["src/glum/_link.py: *.derivative, *.inverse_derivative, *.inverse_derivative2"]}
{"id": "C03", "title": "Binary-response means are probabilities", "statement": "The inverse of the logit and cloglog links returns a value in [eps50, 1-eps50], strictly inside (0,1), for every linear predictor, and is monotone non-decreasing in it.", "quantifier": "every real linear predictor, every clip level 0 < eps50 <= 1/2", "why_tests_cant": "the domain is a continuum; a test samples finitely many points", "anchors": ["src/glum/_link.py: LogitLink.inverse, CloglogLink.inverse"]}
{"id": "C04", "title": "Unit deviance is a discrepancy", "statement": "family.unit_deviance(y, mu) >= 0 and equals 0 exactly when y = mu, for every y in the family's support and every mu in its mean range.", "quantifier": "all families, all observations in the support, all means", "why_tests_cant": "the domain is a continuum; a test samples finitely many points", "anchors": ["src/glum/_distribution.py: *.unit_deviance"]}
{"id": "C05", "title": "Deviance derivative", "statement": "family.unit_deviance_derivative(y, mu) = -2 (y-mu)/v(mu) is the derivative of the unit deviance in mu, and unit_variance_derivative is the derivative of unit_variance.", "quantifier": "all families, all y in the support, all mu in the interior of the mean range", "why_tests_cant": "the domain is a continuum; a test samples finitely many points", "anchors": ["src/glum/_distribution.py: unit_deviance_derivative, unit_variance_derivative"]}
{"id": "C06", "title": "Tweedie aliases", "statement": "TweedieDistribution(p) for p = 0, 1, 2, 3 returns the same unit variance, unit deviance and total deviance as NormalDistribution, PoissonDistribution, GammaDistribution, InverseGaussianDistribution.", "quantifier": "all observations, means, weights", "why_tests_cant": "quantifies over all data and sample sizes", "anchors": ["src/glum/_distribution.py: TweedieDistribution", "src/glum/_functions.pyx: *_deviance"]}
{"id": "C07", "title": "Total deviance is the weighted sum of unit deviances", "statement": "family.deviance(y, mu, sample_weight) computed by the compiled kernel equals sum_i w_i * unit_deviance(y_i, mu_i) for every family and every sample.", "quantifier": "every family, every n, every y, mu, w", "why_tests_cant": "loop over arbitrary-length arrays with data-dependent branches (y = 0)", "anchors": ["src/glum/_distribution.py: *.deviance", "src/glum/_functions.pyx: normal_deviance, poisson_deviance, gamma_deviance, inv_gaussian_deviance, tweedie_deviance, negative_binomial_deviance"]}
{"id": "C08", "title": "Fast objective path agrees with the definition", "statement": "The compiled eta/mu/deviance routine used during fitting returns eta = cur_eta + factor * X_dot_step, mu = inverse(eta), and a deviance that differs from the true deviance at mu by a quantity that depends on y and the weights only (so objective differences used for line search are exact).", "quantifier": "every family with a compiled path, every n, all arrays", "why_tests_cant": "arbitrary arrays; the dropped constant is invisible to pointwise tests of the fitted value", "anchors": ["src/glum/_functions.pyx: *_eta_mu_deviance", "src/glum/_distribution.py: eta_mu_deviance, _eta_mu_deviance"]}
{"id": "C09", "title": "Fast gradient is the gradient", "statement": "The compiled rowwise gradient equals -1/2 times the derivative with respect to eta_i of the deviance returned by the compiled objective, for every row.", "quantifier": "every family with a compiled path, every n, all arrays", "why_tests_cant": "the domain is a continuum; a test samples finitely many points", "anchors": ["src/glum/_functions.pyx: *_rowwise_gradient_hessian", "src/glum/_distribution.py: rowwise_gradient_hessian, _rowwise_gradient_hessian"]}
{"id": "C10", "title": "Rowwise curvature", "statement": "The rowwise Hessian used by IRLS is non-negative for non-negative weights, and equals the second derivative of half the deviance in eta for the families documented as using the true Hessian (normal, Poisson, gamma, Tweedie with log link, binomial with logit), and its expectation under E[y]=mu for the Fisher-scored ones (inverse Gaussian, negative binomial).", "quantifier": "every family with a compiled path, all arrays with w >= 0", "why_tests_cant": "the domain is a continuum; a test samples finitely many points", "anchors": ["src/glum/_functions.pyx: *_rowwise_gradient_hessian"]}
{"id": "C11", "title": "Deviance versus log-likelihood", "statement": "2 * dispersion * (loglik(y; y) - loglik(y; mu)) equals the deviance, for normal, Poisson, gamma, inverse Gaussian and negative binomial families.", "quantifier": "all samples, all dispersions > 0", "why_tests_cant": "identity over all data", "anchors": ["src/glum/_functions.pyx: *_log_likelihood", "src/glum/_distribution.py: log_likelihood"]}
{"id": "C12", "title": "Linear predictor", "statement": "predict and linear_predictor compute X @ coef + intercept + offset with exactly one intercept and one offset contribution; dropping the columns whose coefficient is zero does not change it.", "quantifier": "every X, coef, intercept, offset, and every pattern of zero coefficients", "why_tests_cant": "universally quantified over matrices and sparsity patterns", "anchors": ["src/glum/_linalg.py: _safe_lin_pred", "src/glum/_glm.py: linear_predictor, _compute_linear_predictor"]}
{"id": "C13", "title": "Sandwich product", "statement": "The Gram matrix built for IRLS equals [1 X]^T diag(d) [1 X] restricted to the active rows and columns; it is symmetric, and positive semidefinite when d >= 0.", "quantifier": "every X, weights, row subset, column subset, with or without intercept", "why_tests_cant": "all shapes and index sets", "anchors": ["src/glum/_linalg.py: _safe_sandwich_dot", "src/glum/_solvers.py: build_hessian_delta"]}
{"id": "C14", "title": "Closed-form ridge/WLS optimality", "statement": "Coefficients returned by the closed-form Gaussian solver satisfy the penalised normal equations and minimise the weighted penalised least-squares objective over all coefficient vectors, with the intercept unpenalised and the offset subtracted from y.", "quantifier": "every X, y, non-negative weights, positive semidefinite P2, offset", "why_tests_cant": "optimality is a statement about all competitors", "anchors": ["src/glum/_linalg.py: _solve_least_squares_tikhonov", "src/glum/_solvers.py: _tikhonov_solver"]}
{"id": "C15", "title": "Standardisation does not change predictions", "statement": "The coefficients and intercept reported on the original scale give, for every row of the original design matrix, the same linear predictor as the solver's coefficients on the standardised matrix.", "quantifier": "every X, weights, coefficient vector; centred or not, scaled or not, with constant columns", "why_tests_cant": "all matrices", "anchors": ["src/glum/_utils.py: standardize, unstandardize", "src/glum/_glm.py: _set_up_for_fit, fit"]}
{"id": "C16", "title": "Standardisation does not change the penalty", "statement": "Without scale_predictors, P1 and P2 transformed with the column scale give the same L1 and L2 penalty value for corresponding coefficients; so the minimiser reported is the minimiser of the documented objective on the original scale.", "quantifier": "every X, weights, P1, P2 (vector or matrix), coefficient vector", "why_tests_cant": "all matrices and penalties", "anchors": ["src/glum/_utils.py: standardize"]}
{"id": "C17", "title": "Warm start round trip", "statement": "Translating start coefficients to the standardised scale and back returns the start coefficients.", "quantifier": "every start vector, every X", "why_tests_cant": "universally quantified; fails only on special columns", "anchors": ["src/glum/_utils.py: standardize_warm_start, unstandardize"]}
{"id": "C18", "title": "Bounds on the original scale", "statement": "The transformed lower/upper bounds hold for the standardised coefficients iff the user's bounds hold for the reported coefficients; the same for A_ineq w <= b_ineq.", "quantifier": "every X, bounds, constraint matrix", "why_tests_cant": "universally quantified", "anchors": ["src/glum/_utils.py: standardize"]}
{"id": "C19", "title": "Bounds are honoured", "statement": "Every coefficient returned by a bounded irls-cd fit lies within [lower_bounds, upper_bounds].", "quantifier": "every data set, start, bounds, every number of iterations and every coordinate schedule", "why_tests_cant": "must hold after every iteration history", "anchors": ["src/glum/_cd_fast.pyx: enet_coordinate_descent_gram", "src/glum/_solvers.py: _irls_solver, line_search", "src/glum/_glm.py: _get_start_coef"]}
{"id": "C20", "title": "Coordinate step is exact", "statement": "Each coordinate update sets the coordinate to the minimiser over the feasible interval of the penalised quadratic model with all other coordinates fixed.", "quantifier": "every Q with positive diagonal entry, gradient, L1 weight, bounds", "why_tests_cant": "optimality over a continuum, all parameter values", "anchors": ["src/glum/_cd_fast.pyx: enet_coordinate_descent_gram"]}
{"id": "C21", "title": "Coordinate-descent gradient bookkeeping", "statement": "After any number of coordinate updates, in any order, the maintained gradient equals the gradient of the quadratic model at the current coefficients on every active coordinate.", "quantifier": "every schedule of coordinate visits (cyclic or random with any seed), any number of cycles", "why_tests_cant": "quantifies over all schedules", "anchors": ["src/glum/_cd_fast.pyx: enet_coordinate_descent_gram"]}
{"id": "C22", "title": "Coordinate descent never increases the model objective", "statement": "The penalised quadratic objective is non-increasing over every coordinate update, so the result is never worse than the start.", "quantifier": "every schedule, seed, number of cycles, bounds (feasible start)", "why_tests_cant": "quantifies over all schedules", "anchors": ["src/glum/_cd_fast.pyx: enet_coordinate_descent_gram"]}
{"id": "C23", "title": "Minimum-norm subgradient certificate", "statement": "The reported minimum-norm subgradient is 0 iff the coefficients satisfy the optimality (KKT) conditions of the bound-constrained L1 problem, hence iff they are a global minimiser when the smooth part is convex.", "quantifier": "every coefficient vector, gradient, penalties, bounds", "why_tests_cant": "optimality is relative to all competitors", "anchors": ["src/glum/_cd_fast.pyx: cython_norm_min_subgrad, _norm_min_subgrad"]}
{"id": "C24", "title": "Inner solver exit status", "statement": "If coordinate descent returns without a convergence warning, its reported subgradient norm is at most the tolerance; the number of cycles never exceeds max_iter; inactive coordinates are returned unchanged.", "quantifier": "every input, schedule and iteration limit", "why_tests_cant": "all executions", "anchors": ["src/glum/_cd_fast.pyx: enet_coordinate_descent_gram"]}
{"id": "C25", "title": "Random coordinate selection stays in range", "statement": "The random coordinate generator never reaches the absorbing zero state and always returns an index smaller than the number of active features, so no out-of-bounds access occurs (with boundscheck off).", "quantifier": "every 32-bit seed, every number of active features >= 1, every number of draws", "why_tests_cant": "2^32 seeds times unbounded draws", "anchors": ["src/glum/_cd_fast.pyx: our_rand_r, rand_int"]}
{"id": "C26", "title": "Incremental Hessian is the full Hessian", "statement": "After any history of active-set growth and shrinkage, the Hessian handed to the inner solver equals X_A^T diag(h) X_A + P2_A for the current active set A, where h are the row weights in use; with hessian_approx = 0, h are the current row curvatures.", "quantifier": "every history of active sets and row weights, any number of iterations", "why_tests_cant": "quantifies over histories", "anchors": ["src/glum/_solvers.py: update_hessian, build_hessian_delta, _is_subset", "src/glum/_cd_fast.pyx: identify_active_rows"]}
{"id": "C27", "title": "Approximate Hessian staleness is bounded", "statement": "With hessian_approx = C, a row whose curvature change since its last refresh is at least C times the largest such change is refreshed; a skipped row keeps its previous value and its change keeps accumulating.", "quantifier": "every history of row weights, every threshold C in [0,1]", "why_tests_cant": "quantifies over histories", "anchors": ["src/glum/_cd_fast.pyx: identify_active_rows", "src/glum/_solvers.py: update_hessian"]}
{"id": "C28", "title": "Diagonal sparse P2 fast path", "statement": "For every CSC matrix P2, adding P2 through the diagonal fast path gives the same Hessian as adding the dense matrix, on every active set.", "quantifier": "every sparse matrix, every active set", "why_tests_cant": "must exclude an aliasing coincidence for every sparsity pattern", "anchors": ["src/glum/_solvers.py: build_hessian_delta"]}
{"id": "C29", "title": "Predictions stay in sync with coefficients", "statement": "At every iteration of IRLS the stored eta equals X coef + intercept + offset and the stored mu equals inverse(eta), although eta is only updated incrementally.", "quantifier": "every history of directions and line-search factors", "why_tests_cant": "quantifies over histories", "anchors": ["src/glum/_solvers.py: _irls_solver, line_search, _update_predictions"]}
{"id": "C30", "title": "Line-search contract", "statement": "The returned coefficients, step, eta, mu and objective all belong to the same step factor in {1, 1/2, ..., 2^-19}; when no line-search warning is raised the objective satisfies the Armijo bound or changed by at most 16 eps relative with a strictly smaller gradient norm.", "quantifier": "every state, direction, family", "why_tests_cant": "all executions of the loop", "anchors": ["src/glum/_solvers.py: line_search"]}
{"id": "C31", "title": "IRLS objective is monotone", "statement": "With the coordinate-descent inner solver and non-negative curvature, every outer iteration that raises no line-search warning changes the documented objective by at most 16 eps |objective| upward; accepted Armijo steps never increase it.", "quantifier": "every data set, penalty, bounds, schedule, number of iterations", "why_tests_cant": "quantifies over histories", "anchors": ["src/glum/_solvers.py: _irls_solver, line_search", "src/glum/_cd_fast.pyx: enet_coordinate_descent_gram"]}
{"id": "C32", "title": "Iteration accounting", "statement": "n_iter_ <= max_iter, the diagnostics list has n_iter_+1 entries, a convergence warning is raised iff the stopping rule was not met, and a start that already satisfies the gradient tolerance is returned unchanged with n_iter_ = 0.", "quantifier": "every problem and iteration limit", "why_tests_cant": "all executions", "anchors": ["src/glum/_solvers.py: _irls_solver, check_convergence, IRLSState._record_iteration"]}
{"id": "C33", "title": "Step-size criterion cannot fire before the first step", "statement": "Before any step is taken, the step-size stopping rule is false for every tolerance and every number of coefficients >= 1.", "quantifier": "every step_size_tol, every dimension", "why_tests_cant": "all dimensions and tolerances", "anchors": ["src/glum/_solvers.py: IRLSState.__init__, check_convergence"]}
{"id": "C34", "title": "Score is the gradient of the documented objective", "statement": "The score vector used by IRLS is minus the gradient of 1/2 deviance + 1/2 w'P2w at the current coefficients, and the gradient handed to lbfgs/trust-constr is the gradient of the same objective; the intercept receives no penalty.", "quantifier": "every X, y, weights, offset, symmetric P2, family/link", "why_tests_cant": "the domain is a continuum; a test samples finitely many points", "anchors": ["src/glum/_solvers.py: update_quadratic, _get_obj_and_derivative, _make_coef_P2, eta_mu_objective"]}
{"id": "C35", "title": "Convergence certifies near-optimality", "statement": "If the gradient criterion holds at the returned coefficients and the row losses are convex in eta, then for every feasible coefficient vector v, objective(coef) <= objective(v) + gradient_tol * max_j |coef_j - v_j|.", "quantifier": "every competitor v, every data set, convex family/link pair (normal, Poisson-log, gamma-log, binomial-logit, Tweedie-log 1<=p<=2)", "why_tests_cant": "optimality against all competitors", "anchors": ["src/glum/_solvers.py: check_convergence, _irls_solver", "src/glum/_cd_fast.pyx: cython_norm_min_subgrad"]}
{"id": "C36", "title": "P2 symmetrisation is harmless", "statement": "Replacing P2 by (P2 + P2^T)/2 changes neither the penalty value nor its gradient for any coefficient vector.", "quantifier": "every square matrix, every coefficient vector", "why_tests_cant": "all matrices", "anchors": ["src/glum/_glm.py: setup_p2"]}
{"id": "C37", "title": "Elastic-net split", "statement": "The L1 and L2 penalties passed to the solver are alpha*l1_ratio*P1 and alpha*(1-l1_ratio)*P2, applied exactly once, for every way the solver is entered (single alpha, alpha search, cross-validation).", "quantifier": "every alpha, l1_ratio, P1, P2", "why_tests_cant": "all parameter values", "anchors": ["src/glum/_glm.py: setup_p1, setup_p2, _solve, _solve_regularization_path"]}
{"id": "C38", "title": "Constraints select a capable solver", "statement": "solver='auto' never selects a solver that ignores a given L1 penalty, bound, or inequality constraint, and an explicit solver that cannot honour a requested bound or inequality constraint is rejected.", "quantifier": "all combinations of family, link, penalties, bounds, constraints", "why_tests_cant": "a finite but large decision table, plus user input", "anchors": ["src/glum/_glm.py: _set_up_for_fit, _validate_hyperparameters, fit"]}
{"id": "C39", "title": "Alpha path shape", "statement": "With alpha_search the alphas are strictly decreasing, start at alpha_max, end at alpha_max*min_alpha_ratio (or min_alpha) and have n_alphas elements.", "quantifier": "every alpha_max > 0, ratio in (0,1), n_alphas", "why_tests_cant": "all parameters", "anchors": ["src/glum/_glm.py: _get_alpha_path"]}
{"id": "C40", "title": "alpha_max zeroes the coefficients", "statement": "At the first alpha of the path the all-zero coefficient vector (with the optimal intercept) satisfies the optimality conditions, so no penalised feature enters.", "quantifier": "every data set with an L1 penalty", "why_tests_cant": "all data sets", "anchors": ["src/glum/_glm.py: _get_alpha_path"]}
{"id": "C41", "title": "Regularisation path bookkeeping", "statement": "coef_path_ has one row per alpha in the order of the alphas; coef_/intercept_ are the last row; each solve starts from the previous solution.", "quantifier": "every list of alphas, every solver", "why_tests_cant": "all lengths", "anchors": ["src/glum/_glm.py: _solve_regularization_path, fit"]}
{"id": "C42", "title": "alpha lookup", "statement": "predict(alpha=a)/linear_predictor(alpha=a) uses the coefficients fitted for the alpha in the path closest to a, requires it to be within the documented tolerance, and for a in the path uses exactly its own coefficients.", "quantifier": "every path of alphas, every query", "why_tests_cant": "all lists", "anchors": ["src/glum/_glm.py: _find_alpha_index, _resolve_alpha_index"]}
{"id": "C43", "title": "Vectorised alpha prediction", "statement": "Predicting for a list of alphas gives, column by column, the predictions for the single alphas.", "quantifier": "every list of alphas, X, offset", "why_tests_cant": "all lengths", "anchors": ["src/glum/_glm.py: linear_predictor, predict"]}
{"id": "C44", "title": "Offset additivity", "statement": "Adding a constant to the offset adds it to the linear predictor; for the log link it multiplies the prediction by its exponential.", "quantifier": "every X, offset, constant", "why_tests_cant": "universally quantified", "anchors": ["src/glum/_glm.py: linear_predictor, predict"]}
{"id": "C45", "title": "Score is bounded", "statement": "D^2 (score) is at most 1, equal to 1 iff predictions are perfect, for every test set with positive null deviance.", "quantifier": "every data set, weights", "why_tests_cant": "all data", "anchors": ["src/glum/_glm.py: score"]}
{"id": "C46", "title": "Weight normalisation and scale invariance", "statement": "After validation sample weights are non-negative and sum to 1; multiplying all weights by a positive constant changes nothing in the fit objective.", "quantifier": "every weight vector accepted, every constant > 0", "why_tests_cant": "all inputs", "anchors": ["src/glum/_validation.py: check_weights", "src/glum/_glm.py: _set_up_and_check_fit_args"]}
{"id": "C47", "title": "Zero-weight and replicated rows", "statement": "Rows with weight 0 do not affect the objective, score or Hessian; giving a row weight 2 is equivalent to repeating it.", "quantifier": "every data set", "why_tests_cant": "all data sets", "anchors": ["src/glum/_solvers.py: eta_mu_objective, update_quadratic", "src/glum/_validation.py: check_weights"]}
{"id": "C48", "title": "Weight validation is total", "statement": "check_weights accepts exactly: None (ones), a positive scalar, or a non-negative vector of length n with non-zero sum; everything else raises.", "quantifier": "every input array", "why_tests_cant": "all arrays", "anchors": ["src/glum/_validation.py: check_weights"]}
{"id": "C49", "title": "Covariance is symmetric PSD", "statement": "The robust and non-robust covariance matrices returned are symmetric; robust ones are positive semidefinite for every data set.", "quantifier": "every data set for which the information matrix is invertible", "why_tests_cant": "all data", "anchors": ["src/glum/_glm.py: covariance_matrix"]}
{"id": "C50", "title": "Robust/clustered sandwich formula", "statement": "The robust covariance is A^-1 B A^-1 with B the (clustered) cross product of scores, with the documented finite-sample factor; one cluster per observation reproduces the robust one.", "quantifier": "every data set, every clustering", "why_tests_cant": "all partitions", "anchors": ["src/glum/_glm.py: covariance_matrix, _group_sum"]}
{"id": "C51", "title": "Cluster sums", "statement": "_group_sum returns, for labels 0..k-1, the per-group sums for every labelling, and clusters with different labels are never merged.", "quantifier": "every label vector, score matrix", "why_tests_cant": "all labelings", "anchors": ["src/glum/_glm.py: _group_sum"]}
{"id": "C52", "title": "Wald test well-defined", "statement": "The Wald statistic is non-negative for a positive definite covariance, equals the squared t statistic for a single coefficient, and is unchanged when the hypothesis R w = r is rewritten as (MR) w = Mr for invertible M.", "quantifier": "every R, r, M", "why_tests_cant": "all matrices", "anchors": ["src/glum/_glm.py: wald_test, _wald_test_matrix"]}
{"id": "C53", "title": "Wald default r", "statement": "wald_test(R=R) without r tests R w = 0.", "quantifier": "every R", "why_tests_cant": "documented default for every R", "anchors": ["src/glum/_glm.py: wald_test"]}
{"id": "C54", "title": "Information criteria", "statement": "aic = -2 ll + 2 k, bic = -2 ll + log(n) k, aicc = aic + 2k(k+1)/(n-k-1) where k counts the non-zero coefficients incl. intercept; reported for the data of the latest fit.", "quantifier": "every fit history and every data set passed", "why_tests_cant": "history-dependent cache", "anchors": ["src/glum/_glm.py: _compute_information_criteria, aic, aicc, bic"]}
{"id": "C55", "title": "Covariance cache", "statement": "covariance_matrix() without data returns the value for the latest fit's parameters.", "quantifier": "every history of fit and covariance calls", "why_tests_cant": "history-dependent cache", "anchors": ["src/glum/_glm.py: covariance_matrix, fit"]}
{"id": "C56", "title": "Group-wise penalty expansion", "statement": "expand_categorical_penalties yields exactly one penalty per expanded column: for a categorical feature one per level (minus the dropped, plus the missing one), for the others one.", "quantifier": "every mix of categorical and numeric columns", "why_tests_cant": "all column lists", "anchors": ["src/glum/_utils.py: expand_categorical_penalties"]}
{"id": "C57", "title": "Category alignment", "statement": "Prediction data is recoded to the training category order: known values keep their column, unknown values raise (or become missing where documented), so each coefficient multiplies the indicator of its own level.", "quantifier": "every training level list, every prediction column", "why_tests_cant": "all permutations of levels", "anchors": ["src/glum/_utils.py: align_df_categories, add_missing_categories", "src/glum/_glm.py: _convert_from_df"]}
{"id": "C58", "title": "Monotonic constraints from formula", "statement": "The generated A_ineq w <= 0 holds iff coefficients of each named term are monotone in the requested direction along the level order (or have the requested sign for a single column).", "quantifier": "every term, level list, direction, coefficient vector", "why_tests_cant": "all level lists", "anchors": ["src/glum/_formula.py: _build_monotonic_constraints, _group_columns_by_factor, _sort_key"]}
{"id": "C59", "title": "Monotone solver exit", "statement": "If the monotonic IRLS solver returns without a warning then A_ineq w <= 1e-6; general b_ineq is rejected.", "quantifier": "every data set, constraint matrix, number of iterations", "why_tests_cant": "all executions", "anchors": ["src/glum/_solvers.py: _monotonic_irls_solver, _build_monotonic_penalty"]}
{"id": "C60", "title": "CV selects the minimiser", "statement": "GeneralizedLinearRegressorCV picks the (l1_ratio, alpha) with the smallest mean out-of-fold deviance (first one on ties), and coef_ is the fit on the full data at this pair.", "quantifier": "every table of deviances, every number of folds, l1 ratios and alphas", "why_tests_cant": "all tables", "anchors": ["src/glum/_glm_cv.py: fit"]}
{"id": "C61", "title": "CV index layout", "statement": "Every (fold, l1_ratio, alpha) deviance is stored at its own position regardless of the order in which parallel jobs are listed; no job's result is lost or overwritten.", "quantifier": "every number of folds and grid sizes, every completion order", "why_tests_cant": "all schedules", "anchors": ["src/glum/_glm_cv.py: fit"]}
{"id": "C62", "title": "Tweedie density normalisation window", "statement": "The truncated series used for the compound Poisson-gamma normalisation contains the maximal term and every omitted term is below the documented relative threshold.", "quantifier": "every y > 0, power in (1,2), dispersion > 0", "why_tests_cant": "infinite series, continuum of parameters", "anchors": ["src/glum/_functions.pyx: _tweedie_normalization, _log_w_j, _sum_limits"]}
{"id": "C63", "title": "Initial intercept guess", "statement": "guess_intercept returns the minimiser of the intercept-only problem for identity link with normal family, for log link with Tweedie families (with offset), and for logit without offset.", "quantifier": "every y, weights, offset", "why_tests_cant": "all samples", "anchors": ["src/glum/_distribution.py: guess_intercept"]}
{"id": "C64", "title": "Refit leaves no stale state", "statement": "After fit on new data every fitted attribute used by predict, aic, covariance_matrix is that of the latest fit.", "quantifier": "every sequence of fit calls", "why_tests_cant": "histories", "anchors": ["src/glum/_glm.py: fit, _set_up_and_check_fit_args"]}
{"id": "C65", "title": "Formulas: response, terms and intercept", "statement": "fit with a formula accepts it exactly if it does not contradict fit_intercept (the last mention of the intercept, if any, says the same), it has no or exactly one left-hand term, and y is given iff it has none; otherwise fit raises. Of an accepted formula every right-hand term whose last mention has a plus gets columns once, no other term does, the intercept never gets a column, and the response is the left-hand term or y.", "quantifier": "every formula (string or Formula object), fit_intercept, and presence of y", "why_tests_cant": "formulas are unbounded sequences of added and removed terms; tests try a handful", "anchors": ["src/glum/_formula.py: parse_formula", "src/glum/_glm.py: _set_up_and_check_fit_args"]}
{"id": "C66", "title": "Active-set screening is safe", "statement": "A coefficient left out of the active set of an irls-cd iteration is currently zero and already satisfies its own optimality condition (its score is strictly below its L1 weight); without intercept or without L1 penalty no coefficient is left out.", "quantifier": "every state of every run, every penalty, bounds and data", "why_tests_cant": "the screening threshold depends on the whole history of the fit", "anchors": ["src/glum/_solvers.py: identify_active_set", "src/glum/_cd_fast.pyx: _norm_min_subgrad"]}
{"id": "C67", "title": "Score and information matrices are derivatives of the log-likelihood", "statement": "The matrices used for standard errors are the ones of the model's log-likelihood: each row of the score matrix is the gradient of that observation's log-likelihood with respect to the parameters, the observed information is minus its Hessian, the expected information equals the observed one at y = mu, and both agree for canonical links.", "quantifier": "every family with its links, every design matrix, parameter vector, weights and dispersion", "why_tests_cant": "an identity between functions over a continuous domain", "anchors": ["src/glum/_distribution.py: _score_matrix, _observed_information, _fisher_information"]}
{"id": "C68", "title": "Coefficient table consistency", "statement": "In coef_table the confidence interval is centred at the estimate, the p-value is in [0,1], and the interval at level 1-a excludes 0 exactly if p < a.", "quantifier": "every fitted model with positive standard errors and every confidence level", "why_tests_cant": "continuum of coefficients, standard errors and levels", "anchors": ["src/glum/_glm.py: coef_table, std_errors"]}
{"id": "C69", "title": "Monotone solver optimality", "statement": "If fit with monotonic constraints and solver irls-ls-monotonic reports convergence, the returned coefficients minimise the documented objective over all coefficient vectors that satisfy the constraints, up to the gradient tolerance.", "quantifier": "every convex family/link, data set, constraint matrix, start and number of iterations", "why_tests_cant": "ranges over all data, starting values and histories of violated rows; the failing histories need a special start", "anchors": ["src/glum/_solvers.py: _monotonic_irls_solver, _build_monotonic_penalty, line_search"]}
{"id": "C70", "title": "A fit solves the documented problem as well as its solver solved its own", "statement": "For every data set, weights, offset, family, link, penalties (scalar, per-feature, matrix; any alpha and l1_ratio), bounds and start, with or without intercept and scale_predictors: row i of the coefficient path (and coef_, intercept_ for the last alpha) is feasible and within epsilon of the minimum of the documented objective (half mean unit deviance plus alpha times elastic-net penalty, on the user's own data and scale) if and only if the solver's internal call for that alpha ended within epsilon of the minimum of the standardised problem it was given. In particular an exact solver yields an exact minimiser of the documented problem.", "quantifier": "all data sets, hyperparameters, alphas, starting values, solver behaviours, tolerances epsilon", "why_tests_cant": "Tests compare a few data sets with reference solutions within tolerances; they cannot show that the whole pipeline (penalty set-up, centring, scaling, bounds, path, back-transformation) preserves the problem for all inputs.", "anchors": ["src/glum/_glm.py:GeneralizedLinearRegressor.fit", "src/glum/_glm.py:_solve_regularization_path", "src/glum/_utils.py:standardize", "src/glum/_utils.py:unstandardize"]}
{"id": "C71", "title": "No leakage across folds", "statement": "In GeneralizedLinearRegressorCV.fit, for given alphas, the coefficients, intercepts and training deviances of a split depend only on the training rows (X, y, weights, offset) of the split: changing any held-out row changes none of them.", "quantifier": "all data sets, splits, hyperparameters, solvers and states of the estimator", "why_tests_cant": "A leak would show only as a small change of numbers under particular perturbations of held-out rows; the claim is about all perturbations of all data sets.", "anchors": ["src/glum/_glm_cv.py:GeneralizedLinearRegressorCV.fit"]}
{"id": "C72", "title": "Log-likelihoods are logarithms of probability densities", "statement": "For every family with a log-likelihood (normal, Poisson, gamma, inverse Gaussian, binomial, negative binomial, Tweedie with power 0, 1..2 or 3), log_likelihood of one observation with weight one is the logarithm of a probability density on the family's support: it integrates (or sums) to one, has mean mu and variance dispersion * unit_variance(mu). For Tweedie powers strictly between 1 and 2 the truncated series is within 2 exp(-37)/(1-exp(-37)) of it. With sample_weight the log-likelihood of a sample is the weighted sum over its rows.", "quantifier": "every family, power, theta, mean, dispersion, observation, sample and weights", "why_tests_cant": "a wrong normalising constant shows only in an integral over all observations, for all means and dispersions at once", "anchors": ["src/glum/_distribution.py: log_likelihood of each family, unit_variance", "src/glum/_functions.pyx: *_log_likelihood, _tweedie_normalization"]}
{"id": "C73", "title": "The dispersion estimate", "statement": "dispersion(y, mu, sample_weight, ddof): the expectation of the Pearson estimate at the true means, for independent observations with variance phi * unit_variance(mu), is phi * sum(w) / (sum(w) - ddof); integer weights act as replication counts for both the Pearson and the deviance method; omitting the weights is the same as ones; other methods are rejected.", "quantifier": "every family, sample size, means, weights, ddof and distribution of the observations with the stated variance", "why_tests_cant": "an expectation over all samples and an identity over all replications", "anchors": ["src/glum/_distribution.py: ExponentialDispersionModel.dispersion, TweedieDistribution.dispersion"]}
{"id": "C74", "title": "A fit is never worse than the best constant model", "statement": "After GeneralizedLinearRegressor.fit with the coordinate-descent IRLS solver, an intercept and no start values, the documented penalised objective at (intercept_, coef_) is not larger than at any intercept-only model (up to rounding allowance proportional to machine epsilon), even if the iteration limit was hit, provided no line-search warning was issued and zero coefficients satisfy the bounds.", "quantifier": "all samples, weights, penalties, bounds containing zero, compiled convex family/link pairs, max_iter, max_inner_iter, random draws", "why_tests_cant": "A test compares with the null model on a few data sets; the claim covers every data set and every iteration at which the solver may be stopped.", "anchors": ["src/glum/_glm.py: fit, _get_start_coef", "src/glum/_solvers.py: _irls_solver, line_search", "src/glum/_distribution.py: guess_intercept", "src/glum/_cd_fast.pyx: enet_coordinate_descent_gram"]}
{"id": "C75", "title": "No ConvergenceWarning means a nearly optimal fit", "statement": "If fit with an IRLS solver (no step_size_tol) issues no ConvergenceWarning, then every row of the regularisation path, in particular coef_ and intercept_, exceeds the documented objective at any feasible competitor by at most gradient_tol times the distance to it on the standardised scale.", "quantifier": "all samples, weights, offsets, penalties, bounds, starts, alphas, scale_predictors settings, compiled convex family/link pairs, random draws", "why_tests_cant": "Optimality is a statement about all competitors and all inputs; a test can only try some.", "anchors": ["src/glum/_glm.py: fit, _solve, _solve_regularization_path", "src/glum/_solvers.py: _irls_solver, check_convergence", "src/glum/_utils.py: standardize, unstandardize"]}
{"id": "C76", "title": "Gaussian fits with identity link need only one IRLS iteration", "statement": "For the normal distribution with identity link fit sets max_iter to 1 because one IRLS iteration suffices: the fit ends without ConvergenceWarning and the result is (nearly) optimal, whatever max_iter the user chose.", "quantifier": "all samples, weights, offsets, penalties and bounds accepted with family='normal', link='identity' and an IRLS solver", "why_tests_cant": "The claim is about every data set; the failing ones (a feature screened out in the only iteration) are rare and no test in the suite meets one.", "anchors": ["src/glum/_glm.py: _solve (lines 570-582)", "src/glum/_solvers.py: _irls_solver, identify_active_set"]}
{"id": "C77", "title": "Balance property and estimating equations", "statement": "If fit with an intercept and an IRLS solver (no step_size_tol) issues no ConvergenceWarning, then at every row of the path the weighted score residuals sum to less than gradient_tol in absolute value, whatever the penalties and bounds; with a canonical link the weighted total of predict(X) equals the weighted total of y up to gradient_tol. With alpha=0 and no bounds the same holds for every feature's estimating equation, with the tolerance scaled by the column's scale and mean.", "quantifier": "all samples, weights, offsets, penalties, bounds, starts, alphas, compiled family/link pairs, inner solvers, random draws", "why_tests_cant": "The balance holds (or fails) for every training set; a test checks it on a few.", "anchors": ["src/glum/_solvers.py: check_convergence, update_quadratic", "src/glum/_cd_fast.pyx: cython_norm_min_subgrad", "src/glum/_glm.py: fit, _solve_regularization_path", "src/glum/_utils.py: standardize, unstandardize"]}
{"id": "C78", "title": "Converged fits agree", "statement": "Two fits of the same problem (same family, link, penalties, bounds, scaling) on the same data, neither of which issued a ConvergenceWarning, agree at equal alphas, whatever IRLS solver, start, warm start, path, tolerance, iteration limit and random numbers led to them: on the standardised scale the coefficients differ by at most 2*(gradient_tol + gradient_tol')/mu, where mu is the curvature of the documented objective (explicit for ridge penalties without intercept and for the normal family with identity link).", "quantifier": "all samples, weights, offsets, penalties, bounds, starts, alphas, compiled convex family/link pairs, pairs of inner solvers and of option settings, random draws", "why_tests_cant": "A test compares two solvers on a few data sets; agreement is needed for every pair of solvers, starts and data sets.", "anchors": ["src/glum/_solvers.py: _irls_solver, check_convergence", "src/glum/_glm.py: fit, _solve, _solve_regularization_path", "src/glum/_utils.py: standardize, unstandardize"]}
{"id": "C79", "title": "Units and origins of the features do not matter", "statement": "With scale_predictors=True and no bounds, expressing a feature in other units (multiplying its column by a positive number) changes the fit in no way except that its coefficient is divided by that number; with an intercept, adding a constant to a column changes nothing but the intercept, with or without scaling, penalties and bounds. Predictions, the alpha path, the iterations and warnings are the same.", "quantifier": "all solvers, families, links, samples, weights, offsets, penalties, alpha specifications, unit changes and shifts (cold start; columns not nearly constant)", "why_tests_cant": "Equivariance must hold for all data and all unit changes, through standardisation, path computation, solver and un-standardisation.", "anchors": ["src/glum/_glm.py: fit, _set_up_for_fit, _get_alpha_path, _solve_regularization_path", "src/glum/_utils.py: standardize, unstandardize, standardize_warm_start"]}
{"id": "C80", "title": "Refitting from the solution changes nothing", "statement": "After a fit without ConvergenceWarning, fitting again on the same data from the fitted coefficients (warm_start=True or start_params), with any IRLS solver and a tolerance that is not smaller, takes zero iterations, issues no warning and returns exactly the same coefficients.", "quantifier": "all samples, weights, offsets, penalties, alphas, inner solvers, random draws, iteration limits", "why_tests_cant": "Needs every solution to be a fixed point of the whole of fit: un-standardise, standardise, clip, check convergence.", "anchors": ["src/glum/_glm.py: _get_start_coef, fit", "src/glum/_utils.py: standardize_warm_start, unstandardize", "src/glum/_solvers.py: _irls_solver, check_convergence"]}
{"id": "C81", "title": "A fit depends only on the weighted sample", "statement": "Reordering the rows (with their responses, weights and offsets) changes nothing in a fit with an IRLS solver: iterations, warnings, alphas and coefficients are identical. With the exact Hessian (hessian_approx=0) a row of weight k may be replaced by k copies of weight 1, copies may be merged with their weights added, and rows of weight zero may be dropped if no predicted mean can overflow and the remaining responses are not all equal.", "quantifier": "all families, links, samples, weights, offsets, penalties, bounds, starts, alpha specifications whose smallest alpha is given (or n>=p unchanged), solvers, random draws, permutations and multiplicities", "why_tests_cant": "Invariance of a whole iterative run for every data set and every permutation or multiplicity.", "anchors": ["src/glum/_solvers.py: _irls_solver, update_hessian, line_search", "src/glum/_glm.py: fit, _get_alpha_path", "src/glum/_distribution.py: guess_intercept", "src/glum/_cd_fast.pyx: identify_active_rows"]}
{"id": "C82", "title": "The check of P2 is right", "statement": "With check_input, fit accepts a P2 only if w'P2 w >= -10 eps |w|^2 for every w, accepts every positive semidefinite P2, and rejects every P2 with a direction below that bound, whether P2 is a vector, a dense or a sparse matrix, symmetric or not.", "quantifier": "all P2 arguments and sizes, all l1_ratio <= 1", "why_tests_cant": "All matrices of all sizes.", "anchors": ["src/glum/_linalg.py: is_pos_semidef", "src/glum/_glm.py: fit, setup_p2", "src/glum/_glm_cv.py: fit"]}
{"id": "C83", "title": "Family and link names", "statement": "family and link strings denote what the documentation says: each documented name, tweedie(t) and negative.binomial(t) give exactly that family or link with the parameter float(t); every other string raises; no family object is ever built with a parameter for which no distribution exists; and link='auto' picks a link that maps every linear predictor to a possible mean of the family.", "quantifier": "all strings, all parameter texts, all families and all linear predictors", "why_tests_cant": "All strings and all real linear predictors.", "anchors": ["src/glum/_glm.py: get_family, get_link", "src/glum/_distribution.py: to_tweedie, TweedieDistribution.power, NegativeBinomialDistribution.theta", "src/glum/_link.py: TweedieLink.power"]}
{"id": "C84", "title": "The inner solver ends", "statement": "The coordinate descent that solves the quadratic subproblem of an iteration ends without its convergence warning whenever max_inner_iter is large enough, for any strictly convex subproblem with L1 penalty and bounds and any positive inner tolerance; and a call that ends without the warning returns a vector within 2 tol / lambda of the minimiser in every coefficient, where lambda is the smallest curvature of the subproblem.", "quantifier": "all quadratic subproblems with curvature above 16 eps, all penalties, bounds, active sets, starting points and tolerances; all iterations of all fits with cyclic selection", "why_tests_cant": "Termination over all subproblems and all cycle counts.", "anchors": ["src/glum/_cd_fast.pyx: enet_coordinate_descent_gram", "src/glum/_solvers.py: _cd_solver"]}
{"id": "C85", "title": "The outer loop makes progress and ends", "statement": "A fit without L1 penalty and bounds ends: if max_iter exceeds a bound computed from the starting objective, the gradient tolerance and the curvature of the objective on the starting level set, the solver converges, unless some iteration changed the objective by no more than round-off; and no iteration raises the line-search warning if the curvature of the deviance is at most a fixed factor times the Hessian the solver uses. With a step_size_tol the same end is reached by a fit with any L1 penalty, bounds and coordinate selection.", "quantifier": "all data, families, starting points and iteration counts", "why_tests_cant": "Termination over all data and all iteration histories.", "anchors": ["src/glum/_solvers.py: _irls_solver, line_search, _least_squares_solver, check_convergence"]}
{"id": "C86", "title": "Linear convergence", "statement": "An irls-cd fit with cyclic selection (the default), with any L1 penalty and bounds, on an objective with curvature between lambda and Lambda on the starting level set, converges linearly: after k iterations the recorded objective exceeds the minimum over the feasible set by at most (1-r)^k times the initial excess, with an explicit r > 0 depending only on lambda, Lambda and the number of columns, and the squared distance of the coefficients to the minimiser is at most 4/lambda times that. For squared error this holds of every fit; for other families as long as every iteration changes the objective by more than round-off.", "quantifier": "all data, weights, offsets, penalties, bounds, starting points and iteration counts", "why_tests_cant": "A rate over all iteration counts and data; a test sees one run.", "anchors": ["src/glum/_solvers.py: _irls_solver, _cd_solver, identify_active_set, line_search", "src/glum/_cd_fast.pyx: enet_coordinate_descent_gram"]}
{"id": "C87", "title": "A constant in the offset is absorbed by the intercept", "statement": "Adding the same constant to the offset of every row moves the intercept by minus this constant and changes nothing else. With the default solver without L1 penalty (irls-ls) this holds exactly, with the same iterations and warnings, for one alpha or a given list, any family, penalties and bounds, from given start values or from a cold start with identity, log or logit link. For any IRLS solver the two fits have the same objective, and if both converged they agree up to the tolerances.", "quantifier": "all data, constants, families, penalties, bounds, alphas and linear solvers", "why_tests_cant": "All data and all constants, over whole iteration histories.", "anchors": ["src/glum/_distribution.py: guess_intercept", "src/glum/_glm.py: _get_start_coef, _solve, _get_alpha_path", "src/glum/_solvers.py: _irls_solver, _least_squares_solver", "src/glum/_cd_fast.pyx: enet_coordinate_descent_gram"]}
{"id": "C88", "title": "Signs of features and labels are conventions", "statement": "Multiplying a feature by -1 (with its bounds negated and exchanged and the penalty matrix and start values changed accordingly) changes the sign of its coefficient and nothing else: same iterations, warnings, alphas, objective values and predictions. Exchanging the two labels of a logistic regression (and negating the offset, and negating and exchanging the bounds) changes the sign of all coefficients and the intercept, and the predicted probability p becomes 1-p. Both hold exactly for irls-cd with L1 penalties, bounds and active sets, and for irls-ls.", "quantifier": "all data, sets of negated features, families, penalties, bounds, alphas, random streams and iteration counts", "why_tests_cant": "All data, sign patterns and iteration histories.", "anchors": ["src/glum/_cd_fast.pyx: enet_coordinate_descent_gram, cython_norm_min_subgrad", "src/glum/_solvers.py: _irls_solver, identify_active_set, line_search, update_hessian", "src/glum/_distribution.py: BinomialDistribution, guess_intercept", "src/glum/_glm.py: fit, _get_start_coef, _get_alpha_path"]}
{"id": "C89", "title": "The order of the columns does not matter", "statement": "Fit the features in two orders, with penalty weights and bounds going with their columns; if neither fit raised a ConvergenceWarning, the coefficient of a feature does not depend on its position, up to the gradient tolerances divided by the curvature of the objective. The documented objective is exactly invariant. This holds for any two IRLS solvers, cyclic or random selection, any path, start, tolerances and iteration limits.", "quantifier": "all data, permutations of columns, convex families, penalties, bounds, alphas and random streams", "why_tests_cant": "All permutations and all data, over whole iteration histories (coordinate descent visits the columns in their order).", "anchors": ["src/glum/_solvers.py: _irls_solver, check_convergence", "src/glum/_cd_fast.pyx: enet_coordinate_descent_gram", "src/glum/_glm.py: fit, setup_p1, setup_p2"]}
{"id": "C90", "title": "The fit has one target, and tightening the tolerance reaches it", "statement": "For a convex family/link pair with a positive definite ridge penalty, alpha > 0, bounds that leave room and (with an intercept) a response whose intercept start value is defined, the documented penalised problem has exactly one solution. For every accuracy eps there is a delta > 0 such that every fit with gradient_tol below delta that raises no ConvergenceWarning reports an intercept and coefficients within eps of that solution, whichever IRLS inner solver, start, path, random numbers and limits were used.", "quantifier": "all data, convex families, penalties, bounds, alphas, solvers, starts, random streams and accuracies", "why_tests_cant": "A limit statement over all tolerances and all iteration histories; existence and uniqueness of a minimiser of a continuous problem.", "anchors": ["src/glum/_solvers.py: _irls_solver, check_convergence", "src/glum/_glm.py: fit, _solve", "src/glum/_distribution.py: guess_intercept"]}
{"id": "C91", "title": "A larger alpha means a smaller penalty and a larger deviance", "statement": "Along a regularisation path, or between two fits of the same problem, the solution for the larger alpha has a penalty that is not larger and a training deviance that is not smaller; exactly for exact solutions, and up to gradient_tol times the distance of the two solutions (divided by the difference of the alphas) for rows of fits without ConvergenceWarning. The penalty of a solution is bounded by the null deviance divided by alpha.", "quantifier": "all data, convex families, penalties, bounds, pairs of alphas, solvers and histories", "why_tests_cant": "All data and all pairs of alphas over whole iteration histories.", "anchors": ["src/glum/_glm.py: fit, _solve_regularization_path", "src/glum/_solvers.py: _irls_solver, check_convergence"]}
{"id": "C92", "title": "Changing the units of the response", "statement": "With the log link and a power-variance family (Normal, Poisson, Gamma, inverse Gaussian, Tweedie with power q), multiplying the response by c > 0 and alpha by c^(2-q) leaves every coefficient of the solution unchanged and shifts the intercept by log c (minus any constant added to the offset; without an intercept the offset must absorb the factor). With squared error and the identity link, multiplying response, offset and bounds by c and adjusting alpha and l1_ratio so that the L1 strength is multiplied by c and the ridge strength unchanged multiplies intercept and coefficients by c. Exactly for solutions, and up to the gradient tolerances (or in the limit of small tolerance) for fits without ConvergenceWarning, whatever solver, path, start and random numbers either used.", "quantifier": "all data, scale factors c > 0, offsets shifts, power-variance families, penalties, bounds, alphas, solvers and histories", "why_tests_cant": "Two fits of different numerical problems related by a continuous transformation; all data, factors and histories.", "anchors": ["src/glum/_distribution.py: unit_deviance, TweedieDistribution", "src/glum/_glm.py: fit, _solve", "src/glum/_solvers.py: _irls_solver, check_convergence"]}
{"id": "C93", "title": "A strong L1 penalty returns exactly zero coefficients", "statement": "Without start values, when the constant model (all coefficients zero) solves the penalised problem, the fit reports exactly zero coefficients and the constant model's intercept, after zero iterations, without warnings, and for any gradient_tol > 0 and iteration limit. Without bounds the constant model is the solution exactly when each feature's gradient at the constant model is at most alpha * l1_ratio * its L1 weight. With l1_ratio > 0 and positive P1 there is an alpha above which every fit is exactly zero, and in alpha_search the first row of the path is always exactly zero.", "quantifier": "all data, convex families, penalties, bounds containing zero, solvers, limits and random streams", "why_tests_cant": "Exact zeros (not small numbers) over all data and histories, and an if-and-only-if threshold.", "anchors": ["src/glum/_glm.py: fit, _get_start_coef, _get_alpha_path", "src/glum/_solvers.py: _irls_solver, check_convergence", "src/glum/_distribution.py: guess_intercept", "src/glum/_cd_fast.pyx: norm_min_subgrad"]}
{"id": "C94", "title": "The solution is stable under small changes of the data", "statement": "The solution of a regular convex problem is a continuous function of the features, responses, sample weights, offsets, P1, P2, alpha and l1_ratio: for every eps > 0 there are eta, delta > 0 such that whenever every entry of the data and of the penalties changes by at most eta, the solution of the changed problem is within eps of the solution of the original one, and so is every fit of the changed data that ends without ConvergenceWarning with a gradient_tol below delta (in units of the problem's scales), whatever inner solver, start values, path and random numbers were used. In particular the path of coefficients is continuous in alpha.", "quantifier": "all regular convex problems, all perturbations of all inputs, all tolerances, solvers and histories", "why_tests_cant": "An epsilon-delta statement over a continuum of perturbed data sets and of histories.", "anchors": ["src/glum/_glm.py: fit, _solve", "src/glum/_solvers.py: _irls_solver, check_convergence", "src/glum/_distribution.py: unit_deviance"]}
{"id": "C95", "title": "Pickles keep their content, and old pickles are migrated", "statement": "Loading a pickled estimator keeps every attribute and its value and adds only the two defaults missing in old models (max_inner_iter, monotonic_constraints) and the categorical levels derived from an old-style feature_dtypes_; a pickle of the current version comes back unchanged, loading is idempotent, and for a model fitted on a frame by an old version the migrated categorical_levels_ are exactly those a fit on that frame records today, so that predictions align categories the same way. Loading fails exactly when an old-style feature_dtypes_ is not a dictionary of dtypes.", "quantifier": "all attribute dictionaries (all versions), all frames", "why_tests_cant": "All histories of versions and all attribute dictionaries; tests load a handful of stored files.", "anchors": ["src/glum/_glm.py: GeneralizedLinearRegressorBase.__setstate__, categorical_levels_, _set_up_and_check_fit_args"]}
{"id": "C96", "title": "The diagnostics describe the fit", "statement": "After a fit with an IRLS solver (one alpha or a path) diagnostics_ has one row per iteration 0..n_iter_ of the last solve; each row belongs to a model, the last one being the reported intercept_ and coef_: objective_fct is the documented objective (times one half, standardised penalties) of that model up to one additive constant, convergence bounds how far that model is from the best one (times the distance on the standardised scale), L1(coef), L2(coef), L2(step), n_coef_updated measure the models and their differences on the standardised scale, and first_coef / the column intercept is the linear predictor at the column means, i.e. intercept_ + sum of column mean times coefficient. All rows but the last have convergence >= gradient_tol; the last one is below it if no ConvergenceWarning was raised, and for a single alpha only then. Without line-search warnings and bounds the objective column of irls-cd never rises by more than 16 eps (relative). Recording changes nothing about the fit. get_formatted_diagnostics returns a text exactly if nothing was fitted or the solver reports nothing, raises exactly for unknown columns, and else shows the requested columns in the requested order.", "quantifier": "all data, convex families, penalties, bounds, alphas, inner solvers, starts, iteration limits and random streams; all column requests", "why_tests_cant": "The meaning of every recorded number along every history.", "anchors": ["src/glum/_solvers.py: IRLSState._record_iteration, _irls_solver, check_convergence", "src/glum/_glm.py: get_formatted_diagnostics, report_diagnostics, _solve"]}
{"id": "C97", "title": "A family and its Tweedie representation give the same model", "statement": "to_tweedie returns the Tweedie distribution with the documented power (normal 0, Poisson 1, gamma 2, inverse Gaussian 3, a Tweedie distribution its own) and None exactly for the other families. Both are one model: same variance, deviance, log-likelihood, dispersion, accepted responses, start value and objective, and a fit, its path, its score and its covariance matrix are the same with either, for every solver. A link and its to_tweedie() have the same values, inverse and derivatives.", "quantifier": "all families with a representation, all links, data, weights, offsets, penalties, bounds, alphas, solvers and solver states", "why_tests_cant": "Equality of two implementations on every input.", "anchors": ["src/glum/_distribution.py: to_tweedie, TweedieDistribution, NormalDistribution, PoissonDistribution, GammaDistribution, InverseGaussianDistribution, guess_intercept", "src/glum/_link.py: to_tweedie, TweedieLink", "src/glum/_glm.py: _solve, _set_up_for_fit"]}
{"id": "C98", "title": "Which responses are accepted and when families are equal", "statement": "in_y_range(x) holds exactly for x in the documented support (normal, GHS: all reals; Poisson, negative binomial, Tweedie 1<=p<2: x>=0; gamma, inverse Gaussian, Tweedie p>=2: x>0; binomial: 0<=x<=1; Tweedie p<=0: all reals), and a fit with check_input passes the check exactly if every response is in the support. Two family (link) objects are == exactly if they are of the same class with the same parameter, which is not NaN; == is symmetric and transitive, reflexive for finite parameters, and equal families fit alike.", "quantifier": "all valid families and reals; all pairs and triples of family and link objects", "why_tests_cant": "All reals; all objects.", "anchors": ["src/glum/_distribution.py: in_y_range, lower_bound, upper_bound, include_lower_bound, include_upper_bound, __eq__", "src/glum/_link.py: __eq__", "src/glum/_glm.py: _set_up_for_fit"]}
{"id": "C99", "title": "Fitting leaves the caller's arrays alone, and sharing memory does not change the result", "statement": "fit never changes an array it is given (X, y, sample_weight, offset, P1, P2, bounds, A_ineq, start_params) nor the result of an earlier fit, and its results are in new memory; over any sequence of fits earlier results stay as they are. Whichever of the arguments are the same array or share memory with earlier results, and whichever are copied on entry (copy_X, dtype), the result is that of the values at the time of the call. In cross-validation the jobs run in one process on shared data do not see each other's writes.", "quantifier": "all memory contents and aliasings of arguments, copy decisions, configurations, solvers, sequences of fits, lists of cross-validation jobs", "why_tests_cant": "Every aliasing and every history; the in-place updates in standardize, standardize_warm_start and unstandardize are invisible to tests on separate arrays.", "anchors": ["src/glum/_glm.py: fit, _get_start_coef, _solve_regularization_path, _set_up_and_check_fit_args, setup_p1, setup_p2", "src/glum/_utils.py: standardize, standardize_warm_start, unstandardize", "src/glum/_glm_cv.py: fit", "src/glum/_validation.py: check_bounds, check_offset, check_weights", "src/glum/_solvers.py: _irls_solver"]}
{"id": "C100", "title": "Results do not depend on the number of threads or how they are scheduled", "statement": "The compiled routines behind fit, predict-time deviance, score and the information criteria (eta_mu_deviance, rowwise_gradient_hessian, deviance, log_likelihood of every family that has them, and the row screening of the Hessian update) run their loops on any number of threads under any schedule. No two threads touch the same array element with one of them writing, every execution ends, the arrays written are the same for every execution (for any arithmetic, also if arguments are the same array), the sums are the same in exact arithmetic, and both are those of the functions the other properties are about; no other array changes.", "quantifier": "all numbers of threads, interleavings of single reads and writes, OpenMP schedules, orders of combining the threads' sums, lengths, array contents, aliasings of the arguments", "why_tests_cant": "A data race shows up under rare interleavings only; tests run one schedule.", "anchors": ["src/glum/_functions.pyx: all prange loops", "src/glum/_cd_fast.pyx: identify_active_rows", "src/glum/_distribution.py: deviance, log_likelihood, _eta_mu_deviance, _rowwise_gradient_hessian"]}
{"id": "C101", "title": "An observation pulls its own prediction towards itself", "statement": "Raising one observed response (nothing else changed) never lowers the fitted mean of that row; more generally changes of responses and of fitted canonical parameters are positively correlated. Raising one sample weight never raises the deviance of that row plus the penalty (without penalty: the row's deviance), so the deviance of a row under the model fitted without it is at least that under the model fitted with it. For fits without ConvergenceWarning the same holds up to the gradient tolerances times the distance of the two models.", "quantifier": "all families with valid parameters, links, samples, weights, offsets, penalties, strengths, bounds, rows and new values; fits: all inner solvers, starts, random numbers, paths", "why_tests_cant": "Relates two whole fits for every sample and every change of one entry.", "anchors": ["src/glum/_glm.py: fit, predict", "src/glum/_distribution.py: unit_deviance", "src/glum/_solvers.py: _irls_solver"]}
{"id": "C102", "title": "A larger model fits the training data at least as well", "statement": "With more columns (same penalties on the common ones) or looser bounds, the objective reached is not larger than that of any model of the smaller problem, up to gradient_tol times the distance when the fit raised no ConvergenceWarning; without penalty the same holds for the training deviance.", "quantifier": "all samples, column counts, penalties, bounds, strengths; fits: all inner solvers, starts, random numbers, paths", "why_tests_cant": "Relates two fits for every sample and extension.", "anchors": ["src/glum/_glm.py: fit", "src/glum/_solvers.py: _irls_solver"]}
{"id": "C103", "title": "Sign constraints and exact zeros survive floating-point rounding", "statement": "With the coordinate-descent solver, a coefficient constrained to be non-negative (lower bound 0) is never reported negative, one constrained to be non-positive never positive, one fixed at zero exactly zero, for every alpha of the path, whatever the rounding errors in the gradient, Hessian, line search, standardisation and back-transformation. A coefficient that the last inner pass sets to zero and whose step is taken in full is reported as exactly 0; one outside the active set keeps its value to the last bit. (Bounds other than 0 can be missed by a rounding error.)", "quantifier": "all monotone, odd rounding rules (every precision and rounding mode of that kind), data, starts within or outside the bounds, iteration counts, line-search outcomes, paths, standardisations", "why_tests_cant": "It must hold for every rounding error; tests see only those of their data.", "anchors": ["src/glum/_cd_fast.pyx: enet_coordinate_descent_gram", "src/glum/_solvers.py: _cd_solver, line_search, _irls_solver", "src/glum/_utils.py: standardize, unstandardize", "src/glum/_glm.py: _get_start_coef"]}
{"id": "C104", "title": "Predictions are made row by row", "statement": "predict on any selection of rows (any order, repetitions, one row at a time, in batches) gives the selection of the predictions on the whole table, for matrices and for data frames with categorical columns and missing values, whichever categories occur in the selection, for every alpha or list of alphas, with offset, and with sample_weight when there is one prediction per row. predict on a data frame raises exactly if it raises for one of its rows taken alone.", "quantifier": "all fitted models, paths, data frames (numeric, categorical, string columns), missing-value methods, row selections, offsets, weights, alpha arguments", "why_tests_cant": "Ranges over every table and every selection of its rows; category handling could depend on what else is in the table.", "anchors": ["src/glum/_glm.py: predict, linear_predictor, _compute_linear_predictor, _convert_from_df", "src/glum/_utils.py: align_df_categories, add_missing_categories", "src/glum/_glm_cv.py: linear_predictor"]}
{"id": "C105", "title": "Inference does not depend on units or coding of the columns", "statement": "If the columns of one model are an invertible linear recoding of those of another (other units, centred features, another reference level, full dummies instead of intercept plus dummies) and both give the same predictions, then covariance_matrix (non-robust, robust, clustered; expected or observed information) of the second is that of the recoded coefficients, one call returns exactly if the other does, wald_test of a translated hypothesis gives the same statistic and p-value, and a coefficient that is a multiple b of one in the first model has standard error |b| times, confidence limits b times those, and the same p-value.", "quantifier": "all samples, families, links, weights, predictions, invertible recodings, covariance options, hypotheses, confidence levels", "why_tests_cant": "Relates two analyses for every sample and every invertible matrix.", "anchors": ["src/glum/_glm.py: covariance_matrix, std_errors, coef_table, wald_test, _group_sum", "src/glum/_distribution.py: _fisher_information, _observed_information, _score_matrix"]}
{"id": "C106", "title": "What random_state and n_jobs can and cannot change", "statement": "With selection='cyclic', fit by irls-cd and the cross-validated fit give the same coefficients, paths, warnings and iteration counts for every random_state, state of numpy's generators, number of processes and order of completion. With an integer random_state the same holds for selection='random' and a fixed integer, repeated fits give the same result, and no number is taken from numpy's global generator. With a RandomState instance or None, each solve takes exactly one number per pass of the outer loop, so a later fit goes on where the earlier one stopped. Two fits with any two seeds that raise no ConvergenceWarning agree up to gradient_tol.", "quantifier": "all data, configurations, penalties, paths, random_state arguments, generators and generator states, splits, numbers of workers and completion orders", "why_tests_cant": "A test can compare a few seeds and worker counts; the statement is about every generator state and every schedule.", "anchors": ["src/glum/_solvers.py: IRLSData.__post_init__, _cd_solver", "src/glum/_cd_fast.pyx: enet_coordinate_descent_gram", "src/glum/_glm.py: _solve", "src/glum/_glm_cv.py: fit"]}
{"id": "C107", "title": "NaN inside the IRLS solvers", "statement": "Whatever NaN or infinities are in design, response, weights, offset or penalties: if an IRLS fit returns, no coefficient is NaN and the coefficients of the features are finite (otherwise it raises); with an intercept, or at a nonzero coefficient, a NaN gradient is never reported as converged; a NaN start value of the intercept or a NaN weight makes a fit with intercept raise; the line search never accepts a step with a NaN objective.", "quantifier": "all data with NaN and infinities anywhere, every arithmetic with the IEEE rules for NaN (rounding and overflow free), every inner solver, line search, iteration count and start", "why_tests_cant": "NaN can enter by any argument and at any iteration, and whether it is caught depends on which comparisons it meets; tests try a few.", "anchors": ["src/glum/_solvers.py: _irls_solver, check_convergence, line_search", "src/glum/_cd_fast.pyx: enet_coordinate_descent_gram, norm_min_subgrad"]}
{"id": "C108", "title": "NaN and infinite arguments of fit", "statement": "With force_all_finite (the default) and finite scalar arguments everything that reaches the solver is finite, except bounds; response, offset arrays, P2 and start values are finite even without it; with check_input no entry of P1 is negative or NaN. NaN for alpha or l1_ratio and infinite alpha, which the checks accept, make an IRLS fit raise; a NaN gradient_tol never converges; infinite and NaN bounds are no bounds for the stopping rule and for coordinate descent.", "quantifier": "all inputs with numbers, NaN and infinities in every argument, all shapes, all solvers of the IRLS family, start values and data", "why_tests_cant": "Acceptance is decided argument by argument and value by value, and the consequence of what slips through depends on the whole run.", "anchors": ["src/glum/_validation.py: check_X_y_tabmat_compliant, check_weights, check_offset, check_bounds", "src/glum/_glm.py: _validate_hyperparameters, _get_start_coef, setup_p1, setup_p2, fit"]}
{"id": "C109", "title": "What sample weights mean for standard errors", "statement": "For the non-robust and the clustered covariance matrix, the dispersion and the log-likelihood, weights are frequencies: a row of weight w gives the same result as copies whose weights add up to w; rows of weight zero and the order of rows do not matter. For the robust covariance matrix a weighted row is one observation: writing every row out as m equal parts divides it by m, and the scale of all weights enters only through the small-sample factor, while it divides the non-robust one by c (given dispersion).", "quantifier": "all data sets, families, links, predictions, weights, ways of writing rows out, clusterings, dispersions and scales", "why_tests_cant": "The relations hold between two calls on different data sets of any size; a test compares one pair.", "anchors": ["src/glum/_glm.py: covariance_matrix, _group_sum", "src/glum/_distribution.py: dispersion, log_likelihood, _fisher_information, _observed_information, _score_matrix"]}
{"id": "C110", "title": "Rounding errors and convergence", "statement": "In any rounded arithmetic (error at most u relative plus an underflow term per operation), with any directions, step lengths, number of iterations and order of additions: the linear predictor that the IRLS solver updates by adding differs from the one of its coefficients by at most a starting error plus the number of iterations times a per-iteration error proportional to u; and if the computed gradient norm is below gradient_tol, the objective at the coefficients, computed exactly, exceeds its value at any feasible point at distance B by at most B times (the tolerance inflated by the rounding of the norm + the errors of the score, into which the drift enters).", "quantifier": "all data, designs, penalties, bounds, convex families, rounded arithmetics without overflow, runs of any length, directions, trials, summation orders and comparison points", "why_tests_cant": "Rounding errors depend on the data, the machine and the order of summation; a test sees one combination, and compares with a tolerance of its own.", "anchors": ["src/glum/_solvers.py: line_search, _update_predictions, eta_mu_objective, update_quadratic, check_convergence", "src/glum/_cd_fast.pyx: cython_norm_min_subgrad", "src/glum/_linalg.py: _safe_lin_pred"]}
{"id": "C111", "title": "Power links: a mean or an error", "statement": "For every allowed power and every array of linear predictors, TweedieLink's inverse, inverse_derivative and inverse_derivative2 accept the same arrays; an array is either refused with a ValueError or turned into positive means that the link takes back to it; and a fit with such a link either raises that error or returns what the solver returns when the link accepts everything.", "quantifier": "all powers accepted by TweedieLink, arrays of linear predictors of any length, data, inner solvers and starting coefficients", "why_tests_cant": "Whether a predictor is refused depends on whether an exponent is an integer, and whether a fit meets one depends on the data; a test tries a few powers on one data set.", "anchors": ["src/glum/_link.py: TweedieLink.inverse, inverse_derivative, inverse_derivative2, catch_p", "src/glum/_solvers.py: line_search, _update_predictions"]}
{"id": "C112", "title": "Monotonic constraints make predictions monotone", "statement": "When a model with monotonic_constraints={v: 'increasing'} is fitted without a warning, raising v, with everything else equal, never lowers the predicted mean (never raises it for 'decreasing'); this holds for numeric terms, categories, splines and interactions, for every point of the path.", "quantifier": "all formulas (any number of columns, levels and interacting factors), data, starting points, inner solutions, penalties and paths, links, and pairs of new data rows", "why_tests_cant": "Constraints are imposed on coefficients, not on predictions; whether they give monotone predictions depends on the whole design and on every pair of points at which one may predict.", "anchors": ["src/glum/_formula.py: _build_monotonic_constraints, _resolve_monotonic_constraints_from_model_spec", "src/glum/_solvers.py: _monotonic_irls_solver", "src/glum/_utils.py: standardize", "src/glum/_glm.py: fit, predict"]}
{"id": "C113", "title": "When a best fit exists (separation)", "statement": "A penalised maximum-likelihood fit has a solution exactly when no direction separates the data: a change of the coefficients that the bounds allow, that the penalty does not notice, and that moves only rows whose response is an end of the range of means, each towards its end. Responses in the interior always have a solution. On separated data the coefficients of fits without warning exceed every bound as gradient_tol goes to zero; the fit itself does not say so.", "quantifier": "all data sets, weights, offsets, penalties, bounds and fast-path families and links, all directions; all tolerances, inner solvers, iteration limits and seeds for the second part; the silent fit for every tolerance below one and every sufficient max_iter", "why_tests_cant": "Existence of a minimum is a statement about all coefficient vectors, including those at infinity; a test sees only the finite coefficients that the stopping rule happened to produce.", "anchors": ["src/glum/_solvers.py: _irls_solver, check_convergence, line_search", "src/glum/_glm.py: fit, _solve", "src/glum/_functions.pyx: binomial_logit_eta_mu_deviance, binomial_logit_rowwise_gradient_hessian"]}
{"id": "C114", "title": "The container of X does not matter, and what copy_X does", "statement": "fit accepts X as a NumPy array, sparse matrix, list, data frame or tabmat matrix under the same stated conditions; the matrix that reaches the solver has the entries of X (integers, booleans and half precision converted to double), the same shape and names; so containers that hold the same numbers, with whatever copy_X, give the same fit. copy_X=True leaves no memory of the caller in use, copy_X=False never copies, copy_X=None copies only to convert. What fit accepts, predict accepts.", "quantifier": "all element types, formats, shapes, values (including NaN and infinity), splits into dense, sparse and categorical parts, all copy_X, check_input/force_all_finite settings, all solvers and penalties for the equality of fits", "why_tests_cant": "The combinations of container, element type, format and copy_X are unbounded, and sharing of memory is not visible in the results of a fit.", "anchors": ["src/glum/_validation.py: check_array_tabmat_compliant, check_X_y_tabmat_compliant", "src/glum/_glm.py: _set_up_and_check_fit_args, _should_copy_X, _compute_linear_predictor", "src/glum/_utils.py: is_contiguous"]}
{"id": "C115", "title": "The compiled losses in floating point: range, sign, NaN", "statement": "With rounding, overflow and underflow taken into account, the compiled loss routines never return NaN for finite responses in range, positive weights and finite linear predictors; deviances that are sums of one-signed terms come out nonnegative in every order of summation; logistic regression gives means in [0,1], finite losses, gradients bounded by the weight and pointing to the response and curvatures in [0, weight] however large the linear predictor; a finite loss implies finite gradient and Hessian rows; rows of weight zero have no effect.", "quantifier": "all floating-point formats and monotone roundings with the stated library functions, all responses, weights and linear predictors, all bracketings of the sums", "why_tests_cant": "Overflow and underflow happen at the ends of the range of the linear predictor, in combinations with response, weight, family and summation order that tests do not enumerate.", "anchors": ["src/glum/_functions.pyx: *_eta_mu_deviance, *_rowwise_gradient_hessian", "setup.py: compiler_directives", "src/glum/_solvers.py: line_search"]}
{"id": "C116", "title": "Cross-validation selects the same model in whatever units", "statement": "Expressing the features in other units (with scale_predictors and no bounds) or, with an intercept, from other origins changes nothing in a cross-validated fit except the coefficients, which are those of the old units expressed in the new ones: the computed alphas, every fold's deviances on training and test rows, the selected l1_ratio and alpha, and the refit are the same.", "quantifier": "all solvers, families, links, samples, weights, offsets, penalties, splits, l1 ratios, alphas, numbers of processes and orders of completion, unit changes and shifts (cold start; no column nearly constant in a training fold)", "why_tests_cant": "Each fold standardises with its own means and deviations; the equality of the selections must hold for all data, splits and units.", "anchors": ["src/glum/_glm_cv.py: fit, _fit_path", "src/glum/_utils.py: standardize, unstandardize", "src/glum/_glm.py: _get_alpha_path"]}
{"id": "C117", "title": "Scalars, arrays, lists and None in the family methods", "statement": "deviance, log_likelihood and dispersion of every family give, for any mixture of numbers, one-element and full-length arrays or lists and a missing weight, a number: the value for the arrays of common length they stand for (numbers repeated, missing weights equal to one). Lengths that do not fit are an error, never cut or recycled.", "quantifier": "all families, methods, mixtures of argument kinds, lengths and values", "why_tests_cant": "The combinations of kinds of arguments, lengths (including 0 and 1) and families are unbounded; a wrong broadcast shows up as a plausible number.", "anchors": ["src/glum/_distribution.py: _as_float_arrays, deviance, log_likelihood, dispersion"]}
{"id": "C118", "title": "Sign constraints give monotone predictions, exactly, in floating point", "statement": "If lower_bounds for a feature is zero, then the model fitted by coordinate descent never predicts less for a row that differs only by a larger value of that feature (increasing link, weights not negative): not even by a rounding error, and with overflow allowed, unless a prediction is NaN. With upper bound zero it never predicts more; with a decreasing link the directions are exchanged. Zeros that a sparse row does not store make no difference.", "quantifier": "all data, starts, iterations, paths and standardisations of the fit; all rows, offsets, weights, links, orders of summation (the same for both rows), roundings, overflows", "why_tests_cant": "Monotonicity of rounded sums must hold for all pairs of rows and all summation orders; a test sees violations of one unit in the last place only by luck.", "anchors": ["src/glum/_glm.py: _compute_linear_predictor, predict", "src/glum/_link.py: inverse", "src/glum/_cd_fast.pyx: enet_coordinate_descent_gram"]}
{"id": "C119", "title": "Fits with lbfgs and trust-constr", "statement": "With solver lbfgs: whenever the optimiser stopped on the gradient criterion, the stored coefficients are nearly optimal for the documented objective on the user's own data (any other coefficients gain at most gradient_tol times the number of coefficients times the largest difference on the standardised scale), and a cold fit with an intercept never ends worse than the best model without features, whatever made it stop. With trust-constr and inequality constraints: whenever the optimiser met its first-order conditions, A_ineq @ coef_ <= b_ineq holds up to the optimiser's violation, on the user's scale, the intercept is not constrained, and no feasible coefficients are better by more than the tolerances. lbfgs warns ConvergenceWarning exactly at the iteration limit and otherwise exactly on failure; trust-constr exactly without success; n_iter_ is the optimiser's count; step_size_tol and the other IRLS parameters have no effect.", "quantifier": "all data, weights, offsets, L2 penalties, convex built-in family/link pairs, scalings, starts, single alphas and paths; all optimisers that keep their contract", "why_tests_cant": "A test checks a data set with scipy's iterates; that the wrapper translates problem, constraints and result faithfully for every scaling must hold for all data.", "anchors": ["src/glum/_solvers.py: _lbfgs_solver, _trust_constr_solver, _get_obj_and_derivative", "src/glum/_glm.py: _solve", "src/glum/_utils.py: standardize, unstandardize"]}
{"id": "C120", "title": "Cross-validation selects among valid models", "statement": "Cross-validation never prefers a combination of l1_ratio and alpha whose held-out predictions are not means of the family (for instance negative Poisson means, possible with the identity link) to one whose predictions are; the selected average deviance is the smallest of the compared ones and non-negative.", "quantifier": "all data, weights (zero weights included), families, links, splits, alphas, l1 ratios, solvers", "why_tests_cant": "A test uses data whose held-out means are in range; which combination wins when one leaves it depends on NaN semantics and must be argued for all data.", "anchors": ["src/glum/_glm_cv.py: fit (_get_deviance, avg_deviance, np.argmin)", "src/glum/_functions.pyx: *_deviance", "src/glum/_distribution.py: deviance, unit_deviance"]}
{"id": "C121", "title": "Rows with the same features can be merged", "statement": "Rows that agree in every feature and in the offset can be replaced by one row that carries their total weight and their weighted mean response. For the binomial family with any link and for Poisson, gamma, Tweedie (1<p<2) and negative binomial with log link, an IRLS fit with the default exact Hessian then does exactly the same (iterations, objective values, warnings, alpha path, coefficients), provided the responses still vary after merging. For every family whose means stay in range the documented objectives differ by a constant, so the solutions are the same and, for the convex pairs (least squares included), all converged fits agree in the limit. Non-robust and clustered covariance matrices with a given dispersion are unchanged; the estimated Pearson dispersion drops by exactly the within-group variation.", "quantifier": "all detailed data sets, groupings, weights, responses, offsets, penalties, bounds, alpha specifications, solver settings", "why_tests_cant": "merging is a statement about two data sets of arbitrary sizes and about the whole iteration; it depends on algebraic linearity of every row quantity in the response", "anchors": ["src/glum/_solvers.py: _irls_solver, line_search", "src/glum/_distribution.py: eta_mu_deviance, rowwise_gradient_hessian, guess_intercept, dispersion", "src/glum/_functions.pyx", "src/glum/_glm.py: fit, covariance_matrix, _get_alpha_path"]}
{"id": "C122", "title": "Exposure can be given as weight or as offset", "statement": "With log link and a family of variance power q (normal, Poisson, gamma, inverse Gaussian, Tweedie), modelling totals e*y with log(e) added to the offset is the same problem as modelling the rates y with weights multiplied by e^(2-q) (Poisson: by the exposure, gamma: unchanged), alpha multiplied by the ratio k of the two weight normalisations: the documented objectives are proportional, the same intercept and coefficients solve both, and (convex pairs, without scale_predictors) converged fits agree in the limit. For a given dispersion every covariance matrix (non-robust, robust, clustered) is the same up to the documented degrees-of-freedom factor, which sees the different sums of weights; the Pearson statistics are equal.", "quantifier": "all data, exposures, weights, offsets, penalties, bounds, alphas, solver settings, covariance options", "why_tests_cant": "a statement about pairs of data sets of any size and about solutions and limits of iterations", "anchors": ["src/glum/_distribution.py: unit_deviance, unit_variance, _fisher_information, _observed_information, _score_matrix, dispersion", "src/glum/_glm.py: fit, covariance_matrix"]}
{"id": "C123", "title": "Noise-free data are recovered", "statement": "For the family/link pairs with compiled routines: if on every row with positive weight the response equals exactly the mean under some intercept and coefficients within the bounds, then without penalty the solutions are exactly the admissible coefficients that reproduce the response on those rows; with full rank there is only one, the true one, and fits without ConvergenceWarning converge to it as gradient_tol tends to zero, whatever the solver, start, path, standardisation, limits and random numbers (convex pairs). Least squares with irls-ls recovers it exactly in one step. With a penalty half the excess deviance of a solution is at most alpha times the penalty of the true coefficients.", "quantifier": "all data, weights, offsets, bounds, solver settings, starts and paths", "why_tests_cant": "a statement about every data set that lies on a model and about limits of iterations", "anchors": ["src/glum/_glm.py: fit, _solve", "src/glum/_solvers.py: _irls_solver, _least_squares_solver", "src/glum/_distribution.py: unit_deviance"]}
{"id": "C124", "title": "With collinear columns the predictions are still determined", "statement": "A convex problem (compiled pairs, any penalty and bounds, alpha = 0 included) may have many solutions - collinear columns, more columns than rows, an L1 penalty - but they all have the same linear predictor on every row with positive weight, the same deviance and the same penalty. Without penalty and bounds only the space spanned by the columns matters: another dropped level, all levels without intercept, another basis or redundant columns give the same predictions. If the set of solutions is bounded, or there is neither penalty nor bound, fits without ConvergenceWarning converge to the set of solutions as gradient_tol tends to zero and their linear predictors on those rows converge.", "quantifier": "all data, weights, offsets, penalties, bounds, codings, solver settings, starts and paths", "why_tests_cant": "a statement about all solutions of a problem, all pairs of designs and limits of iterations", "anchors": ["src/glum/_glm.py: fit, _solve", "src/glum/_solvers.py: _irls_solver, _cd_solver, _least_squares_solver"]}
{"id": "C125", "title": "Quadratic convergence of irls-ls near the solution", "statement": "For a model without L1 penalty and bounds fitted with solver 'irls-ls' and hessian_approx = 0, with one of the family/link pairs whose compiled Hessian rows are the true second derivative (normal identity; Poisson, gamma, Tweedie log; binomial logit), positive weights, any offset, a symmetric positive semidefinite L2 penalty (possibly zero) and an identified design: around every minimiser of the objective whose means are below the line search's overflow threshold there is a neighbourhood in which every iteration takes the full Newton step at the first trial of the line search, without a warning, leaves an error (largest coefficient difference from the minimiser) of at most K times the square of the previous error and at most half of it; so m iterations raise K*error to the power 2^m, and a run that has entered the neighbourhood stops with convergence within m iterations as soon as C*(K*error)^(2^m) is below gradient_tol and max_iter allows it.", "quantifier": "all sizes, data, offsets, penalties, starting values, histories of the run before the neighbourhood is entered, tolerances and numbers of iterations", "why_tests_cant": "a rate of convergence is a statement about all numbers of iterations and arbitrarily small errors; tests see a handful of iterations on a few data sets", "anchors": ["src/glum/_solvers.py:_irls_solver", "src/glum/_solvers.py:line_search", "src/glum/_solvers.py:_least_squares_solver", "src/glum/_solvers.py:update_hessian"]}
{"id": "C126", "title": "Equal columns share their coefficient, similar columns get similar ones", "statement": "Let two features be treated alike (same P1 weight, P2 unchanged by exchanging them, same penalty scale, same bounds) and let the ridge penalty tell them apart (alpha > 0, l1_ratio < 1, P2 positive at e_i - e_j). For every family and link, every minimiser of the documented objective gives them the same coefficient if the columns agree on the rows with non-zero weight; a fit without ConvergenceWarning (any inner solver) does so up to a stated multiple of gradient_tol. For the convex pairs the two coefficients of any pair of columns differ by at most 2 |sum of weighted residuals times column difference| / (alpha (1 - l1_ratio) s^2 gap), which for logistic regression is at most 2 sum w|x_i - x_j| / (...), and for least squares at most 2 ||y - offset||_w ||x_i - x_j||_w / (...). Without a ridge penalty none of this holds: exchanging the coefficients gives another minimiser.", "quantifier": "all data, weights, offsets, families, links, penalties, bounds, alphas, l1_ratios, feature pairs; for fits, all inner solvers and random numbers", "why_tests_cant": "the bound has to hold for every data set and every pair of columns; a test compares a few", "anchors": ["src/glum/_glm.py:GeneralizedLinearRegressorBase._solve", "src/glum/_solvers.py:_irls_solver", "src/glum/_solvers.py:eta_mu_objective"]}
{"id": "C127", "title": "Segment predictions: own mean without penalty, credibility with one", "statement": "Let a column be the indicator of a segment (rows that agree in features and offset). Without penalty (alpha = 0, or P1 and P2 zero for it) and with no active bound the model predicts the segment's own weighted mean, for every convex family/link pair; a fit with any IRLS solver without ConvergenceWarning does so up to gradient_tol over the segment's share of the weight (canonical links; a relative error for gamma/log; times V(mu)/h'(eta) in general). With a penalty (any alpha, l1_ratio, bounds that allow 0, P2 not tying the feature to others) the coefficient moves the prediction from the one without the coefficient towards the segment's mean and never past it; for least squares with ridge penalty it is exactly the credibility average with weight W/(W + alpha P2 s^2). More generally, for every feature the weighted residuals' correlation with the column less the ridge pull satisfies the L1 optimality inequality, exactly for solutions and up to gradient_tol times the larger of the column's scale and mean for fits.", "quantifier": "all data, weights, offsets, other features, convex pairs, alphas, l1_ratios, bounds, segments; for fits all inner solvers and random numbers", "why_tests_cant": "it is a statement about every data set and every segmentation; a test compares a few group means", "anchors": ["src/glum/_solvers.py:_irls_solver", "src/glum/_solvers.py:check_convergence", "src/glum/_cd_fast.pyx:norm_min_subgrad", "src/glum/_glm.py:GeneralizedLinearRegressor.fit"]}
{"id": "C128", "title": "A column without information keeps coefficient zero", "statement": "A column that is zero in every row (an unused category level) or, beside an intercept, constant, that P2 does not tie to other columns and whose bounds allow zero, has coefficient exactly zero in coef_ and in every row of coef_path_: for irls-cd with any family, link, alphas (0 included), L1/L2 penalties, cyclic or random selection, hessian_approx and any number of iterations, whether or not the fit converges; for irls-ls if every alpha puts a ridge penalty on the column. With an intercept this holds from any start_params / warm start, without one from start value zero. Setting such a coefficient to zero never makes the documented objective larger (strictly smaller if it is penalised and not zero). Without intercept and without a ridge penalty on the column (l1_ratio = 1 or alpha = 0) irls-cd returns exactly the start value in every row, whatever the L1 penalty; with an L1 penalty above gradient_tol such a fit always raises a ConvergenceWarning.", "quantifier": "all data, weights, offsets, family/link pairs, penalties, alphas, bounds, starts, iteration limits, random numbers", "why_tests_cant": "exactness has to survive every iteration of every run on every data set; a test sees one run", "anchors": ["src/glum/_cd_fast.pyx:enet_coordinate_descent_gram", "src/glum/_solvers.py:_irls_solver", "src/glum/_solvers.py:update_hessian", "src/glum/_solvers.py:_least_squares_solver", "src/glum/_utils.py:standardize_warm_start", "src/glum/_glm.py:GeneralizedLinearRegressor._get_start_coef"]}
{"id": "C129", "title": "Only the variance function matters, and it matters continuously", "statement": "The unit deviance of a family is determined by its variance function: if the variance functions of two families agree up to a fraction eta between the observation and the mean, so do their unit deviances. With a log link the same holds for fits: for every eps there are a range of means, an eta and a delta such that for every other family whose variance function differs by at most the fraction eta on that range, the solution, and every fit without ConvergenceWarning at a gradient_tol below delta, is within eps of the solution for the original family, whatever the solver, start, path, random numbers and limits. In particular fits are continuous in the power of TweedieDistribution on [1, 2], with PoissonDistribution and GammaDistribution as the powers 1 and 2, and in theta of NegativeBinomialDistribution, with PoissonDistribution as the limit theta -> 0; the closed forms that the code uses at the powers 0, 1, 2, 3 are the limits of the general unit deviance; the negative binomial deviance and log-likelihood go to those of the Poisson. The deviance of a zero observation goes to infinity as the power goes to 2, but differences between means converge; for negative observations the deviance at powers below zero converges to the squared error minus the square of the observation.", "quantifier": "all data, all families with log link, all convex regular problems, all eps, all powers and thetas near a given one, all solvers and histories", "why_tests_cant": "Limits and epsilon-delta statements over continua of families, data and fits.", "anchors": ["src/glum/_distribution.py: TweedieDistribution, NegativeBinomialDistribution, unit_variance, unit_deviance, log_likelihood", "src/glum/_glm.py: fit", "src/glum/_solvers.py: _irls_solver"]}
{"id": "C130", "title": "Penalised coefficients of a full set of dummies balance", "statement": "Along directions in which intercept and coefficients move without changing a prediction on the rows that count, only the penalty decides: for every family and link a solution has the least penalty among all coefficients within the bounds with the same predictions. Hence with an intercept and the indicators of all levels of a categorical (drop_first=False), free of bounds: with a ridge penalty that treats the levels alike the coefficients of the levels add up to zero, and the linear predictor of an unknown level (all indicators zero) is the average of those of the levels; with a pure L1 penalty neither the positive nor the negative coefficients carry more than half of the L1 weight; with elastic net the ridge pulls and signed L1 weights add up to zero up to the L1 weights of the zero coefficients. Without intercept the ridge pulls of two categoricals have the same sum. For rows of fits without ConvergenceWarning (any IRLS solver) the same holds up to gradient_tol times the largest column scale; the coefficients of a ridge fit add up to at most gradient_tol / (alpha * P2).", "quantifier": "all data with full sets of indicators, all families, links, penalties, bounds that leave room, all fits and histories", "why_tests_cant": "Quantifies over data sets, penalties and solver histories; first-order conditions in all idle directions.", "anchors": ["src/glum/_glm.py: fit, setup_p1, setup_p2", "src/glum/_solvers.py: _irls_solver, check_convergence", "src/glum/_glm.py: _convert_from_df"]}
{"id": "C131", "title": "As alpha tends to zero: the least-penalty solution, or divergence", "statement": "For the convex pairs with a positive definite P2 and l1_ratio < 1, bounds included: if the unpenalised problem (alpha = 0) has a solution, exactly one of its solutions has the least elastic net penalty, and the solutions for alpha > 0 converge to it as alpha decreases to zero; so do, for every eps, all fits without ConvergenceWarning at an alpha below a bound and a gradient_tol small enough for it, whatever the solver, path, random numbers and limits. The half deviance of a penalised solution exceeds the unpenalised minimum by at most alpha times the difference of the penalties. If the unpenalised problem has no solution - exactly when the data are separated in the sense of C113 - the solutions leave every bounded set.", "quantifier": "all data, convex family/link pairs, penalties, bounds, eps; all fits and histories", "why_tests_cant": "A limit over a continuum of penalties, with collinear and separated data.", "anchors": ["src/glum/_glm.py: fit", "src/glum/_glm.py: _get_alpha_path", "src/glum/_solvers.py: _irls_solver"]}
{"id": "C132", "title": "Everything reported about a fit converges with it", "statement": "If a convex problem determines its coefficients (penalised as in C90, or unpenalised with a unique solution), then for every eps there is a gradient_tol below which every fit without ConvergenceWarning - whatever the inner solver, start, path, random numbers and limits - has on any rows of data predictions, dispersion, covariance matrix, standard errors, t statistics, p-values and confidence intervals within eps of those of the exact solution, for every choice of the covariance options (robust, clustered, expected or observed information, given dispersion), and likewise any Wald test and the deviance explained, provided these can be computed at the solution (no clipped prediction, invertible information, a positive dispersion). For every family and link, models with close enough coefficients have close reports.", "quantifier": "all data, families, links, covariance options, hypotheses, eps; all fits and histories", "why_tests_cant": "A limit over tolerances, over all matrices with invertible information; a unit test compares one fit with one reference to some digits.", "anchors": ["src/glum/_glm.py: covariance_matrix", "src/glum/_glm.py: coef_table", "src/glum/_glm.py: wald_test", "src/glum/_glm.py: predict", "src/glum/_glm.py: score", "src/glum/_distribution.py: _fisher_information", "src/glum/_distribution.py: _observed_information", "src/glum/_distribution.py: _score_matrix"]}
{"id": "C133", "title": "Cross-validation with a small tolerance selects what exact solutions would select", "statement": "If on the training rows of every split the convex problem determines its coefficients at every l1 ratio and alpha of the grid, and these predict the held-out rows without clipping, then for every eps there is a gradient_tol below which every cross-validation whose jobs and refit raise no ConvergenceWarning - whatever the inner solver, the order in which jobs arrive, the states they run in, the random numbers and the limits - has mean out-of-fold deviances within eps of those of the exact solutions; there is a gradient_tol below which l1_ratio_ and alpha_ are a grid point with the least exact out-of-fold deviance, and the only one if there is only one; and below which intercept_ and coef_ are within eps of the exact solution on all rows at that grid point (and have every property shared by all coefficients close to it).", "quantifier": "all data, splits, grids, eps; all cross-validations, schedules and histories", "why_tests_cant": "A limit over tolerances, over all schedules and grids; a unit test compares one cross-validation with a reference.", "anchors": ["src/glum/_glm_cv.py: GeneralizedLinearRegressorCV.fit", "src/glum/_glm_cv.py: _fit_path", "src/glum/_glm.py: _solve_regularization_path", "src/glum/_solvers.py: check_convergence"]}
{"id": "C134", "title": "More alphas: the search over the path approaches the search over the interval", "statement": "For convex problems penalised as in C90 the exact mean out-of-fold deviance is a continuous function of alpha between the smallest alpha and alpha_max, and the paths that cross-validation computes (alphas=None) are evenly spaced on the log scale between ends that do not depend on n_alphas. Hence for every eps there is a number from which on, for every n_alphas, every cross-validation with a small enough gradient_tol whose jobs raise no ConvergenceWarning selects an l1_ratio_ and alpha_ whose exact out-of-fold deviance is within eps of the least over all l1 ratios and all real alphas in the interval - whatever the inner solver, schedule, states and random numbers.", "quantifier": "all data, splits, l1 ratios, eps, n_alphas beyond a bound; all cross-validations, schedules and histories", "why_tests_cant": "A limit over grid sizes and tolerances compared with a continuum of alphas; a unit test tries some grid.", "anchors": ["src/glum/_glm.py: _get_alpha_path", "src/glum/_glm_cv.py: GeneralizedLinearRegressorCV.fit"]}
{"id": "C135", "title": "Information criteria of fits against those of the exact solution", "statement": "For a convex problem that determines its coefficients, the log-likelihood of the fits (with the dispersion estimated from their predictions) converges to that of the exact solution as gradient_tol shrinks. For every eps there is a tolerance below which no fit without ConvergenceWarning reports an aic, bic or aicc more than eps below that of the solution; and if no coefficient of the solution equals the threshold (machine epsilon) in size, the effective number of parameters of the fits is that of the solution and all three criteria converge. Hence, if one model has the smaller AIC at its solution, then for small enough tolerances every fit of it has a smaller AIC than every fit of the other - two models that may differ in columns, penalty, family, link, weights and data.", "quantifier": "all data, families with a log-likelihood, links, penalties, pairs of models, eps; all fits with a small enough tolerance, inner solvers, starts and paths", "why_tests_cant": "The count of parameters jumps, so that closeness of coefficients does not give closeness of criteria; a unit test compares the criteria of one fit with a formula.", "anchors": ["src/glum/_glm.py: GeneralizedLinearRegressor._compute_information_criteria, aic, aicc, bic", "src/glum/_distribution.py: log_likelihood"]}
{"id": "C136", "title": "Fits of two codings of the same model report the same", "statement": "Two unpenalised, unbounded models of the same family and link whose columns are invertible linear recodings of each other (another reference level, dummies of all levels without intercept instead of dummies with intercept, other units, centred columns): if the one determines its coefficients so does the other, and its solution is the recoded one. For every eps there is a gradient_tol below which all fits of both without ConvergenceWarning - whatever the inner solvers, starts, standardisation, paths - report the same predictions and dispersion, recoded coefficients and covariance matrices (robust, clustered or not), and for every hypothesis and its translation the same Wald statistic and p-value, up to eps.", "quantifier": "all data, families, links, invertible recodings, covariance options, hypotheses, eps; all fits with a small enough tolerance", "why_tests_cant": "Relates two families of fits of different models; a unit test compares one fit with one other.", "anchors": ["src/glum/_glm.py: fit, covariance_matrix, wald_test, coef_table", "src/glum/_solvers.py: _irls_solver"]}
{"id": "C137", "title": "Columns whose coefficients are zero can be dropped", "statement": "If some coefficients of the solution are zero, the other coefficients solve the problem without these columns (same penalties and bounds on the others), and if that problem determines its coefficients they are the only ones; with ridge part it is regular whenever the full problem is. For every eps there is a gradient_tol below which all fits with these columns and all refits without them - whatever the inner solvers, starts, standardisation, paths, without ConvergenceWarning - have the same intercept and coefficients for the other columns up to eps, and coefficients up to eps for the dropped ones. Conversely, columns without cross penalty whose score at the solution of the smaller problem is at most alpha*l1_ratio*P1 can be added: its solution padded with zeros solves the larger problem.", "quantifier": "all data, families, links, penalties with ridge part, bounds that admit zero, sets of dropped columns, eps; all fits with a small enough tolerance", "why_tests_cant": "Relates two families of fits of different models; a unit test compares one fit with one other.", "anchors": ["src/glum/_glm.py: fit", "src/glum/_solvers.py: _irls_solver, _cd_solver", "src/glum/_util.py: _l1_norm"]}
{"id": "C138", "title": "The solution is characterised column by column", "statement": "For the convex families and links, any penalty, L1 ratio and bounds: an intercept and coefficients within the bounds are a solution if and only if the weighted residuals sum to zero (when there is an intercept) and, for every column and every admissible value of its coefficient, the score of the column (weighted residuals times column less the derivative of the ridge term) times the change is at most alpha*l1_ratio*P1 times the change of the absolute value. Without bounds: every score is at most its threshold alpha*l1_ratio*P1 in absolute value, and equal to it with the coefficient's sign where the coefficient is not zero. Checking this certifies, for problems with ridge part, the coefficients that every fit without ConvergenceWarning approaches as gradient_tol goes to zero, whatever the solver, start and path. Without bounds, on all these fits the scores are, up to any eps, at most their thresholds, and equal to them with the coefficient's sign for every coefficient that is non-zero in the solution.", "quantifier": "all data, families, links, penalties, bounds, candidate coefficients, eps; all fits with a small enough tolerance", "why_tests_cant": "An equivalence over all competing coefficient vectors; a unit test can only compare a solution with a few others.", "anchors": ["src/glum/_glm.py: fit", "src/glum/_solvers.py: _irls_solver, _norm_min_subgrad", "src/glum/_cd_fast.pyx: _norm_min_subgrad"]}
{"id": "C139", "title": "Bounds that do not bind can be dropped", "statement": "For the convex families and links: if in a solution no coefficient stands at a bound that is relaxed or dropped, it is a solution of the problem with the relaxed bounds; conversely a solution of the problem with wider bounds that respects the narrower ones solves the narrower problem. With ridge part, for every eps there is a gradient_tol below which all fits with the one set of bounds and all fits with the other - whatever the inner solvers, starts, standardisation, paths, without ConvergenceWarning - have the same intercept and coefficients up to eps.", "quantifier": "all data, convex families and links, penalties, pairs of nested bounds, eps; all fits with a small enough tolerance", "why_tests_cant": "Relates two families of fits of two problems (bounds also change the solver's code path: cd instead of ls); a unit test compares one fit with one other.", "anchors": ["src/glum/_glm.py: fit", "src/glum/_glm.py: GeneralizedLinearRegressorBase (lower_bounds, upper_bounds)", "src/glum/_solvers.py: _irls_solver, _cd_solver"]}
{"id": "C140", "title": "Columns can be discarded before fitting by rules computed from the data", "statement": "A column that no ridge term couples with others and whose coefficient may be zero has coefficient exactly zero in every solution whenever its score stays strictly under the threshold alpha*l1_ratio*P1. For logistic regression this holds if the weighted L1 distance of the column from some constant (zero without intercept) is under the threshold; for least squares if the weighted norm of the column less a constant times that of the response (less offset and a constant) is. With ridge part, for every eps there is a gradient_tol below which such a coefficient is at most eps on all fits without ConvergenceWarning, whatever the solver, start, standardisation and path.", "quantifier": "all data, penalties, bounds that admit zero, columns that meet the rule, eps; all fits with a small enough tolerance", "why_tests_cant": "Quantifies over all solutions and fits; a unit test sees one fit.", "anchors": ["src/glum/_glm.py: fit", "src/glum/_solvers.py: _irls_solver, _cd_solver, identify_active_set"]}
{"id": "C141", "title": "Several solutions never disagree about the sign of a penalised coefficient", "statement": "When a convex penalised problem has several solutions, two solutions have no coefficient under an L1 penalty with opposite signs, and they differ only in directions the ridge penalty does not see. For every eps there is a gradient_tol below which no two fits without ConvergenceWarning, whatever their solvers, starts, settings and paths, have such a coefficient above eps in one and below -eps in the other.", "quantifier": "all data, penalties and bounds of the convex pairs, also collinear columns; all pairs of fits with small enough tolerances", "why_tests_cant": "Quantifies over all solutions and pairs of fits; a unit test compares two runs on one data set.", "anchors": ["src/glum/_glm.py: fit", "src/glum/_solvers.py: _irls_solver, _cd_solver"]}
