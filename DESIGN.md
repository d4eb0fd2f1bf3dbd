# Formal model of Quantco/glum in Lean 4

The source under `/repo/src/glum` is read as text and modelled function by function in
`lean/Verif/Model/*.lean`.  Every definition there cites the file and lines it models.

## Layout

| directory | contents |
|---|---|
| `lean/Verif/Model/` | the model, one file per source area, each definition citing `/repo` |
| `lean/Verif/Spec/`  | small independent specifications (what the English property means) |
| `lean/Verif/Lemmas/`| helper lemmas, no property statements |
| `lean/Verif/Props/` | the property theorems, named `cNN_…`, each followed by `example`s showing that its hypotheses are met by a concrete non-trivial case |

### Which file models what

| `lean/Verif/Model/` | source | not modelled there |
|---|---|---|
| `Rng`, `CD` | `_cd_fast.pyx` (all but the NumPy/BLAS glue) | float32 specialisation |
| `Linalg` | `_linalg.py` 51-95 | |
| `PosSemidef` | `_linalg.py` 11-48, `_glm.py` 2784-2796 (its verdict is the parameter `p2ok` of `Fit`) | LAPACK (`eigvalsh` as contract) |
| `Names` | `_glm.py` 3143-3224 (`get_family`, `get_link`), name parsing | Python's `re` beyond the two patterns used |
| `Hessian` | `_solvers.py` 81-237 (`update_hessian`, `_is_subset`, `build_hessian_delta`) | sparsity of the update |
| `IRLS` | `_solvers.py` 48-78, 240-354, 441-847 | progress bar |
| `Monotone` | `_solvers.py` 988-1126 | |
| `Link` | `_link.py` | float32 rounding of the Tweedie power |
| `Distribution`, `Likelihood` | `_distribution.py`, `_functions.pyx` | numba/cython threading |
| `SmoothObjective` | `_solvers.py` 850-985 (what L-BFGS and trust-constr are handed) | the scipy optimisers themselves |
| `GuessIntercept` | `_distribution.py` 1556-1635 | |
| `Tikhonov` | `_solvers.py` 357-381, `_linalg.py` 98-169 | |
| `Standardize` | `_utils.py` 195-313, `_glm.py` 248-317 | |
| `Penalty` | `_glm.py` 3227-3332 | |
| `Config` | `_glm.py` 519-570, 1796-1957, 2626-2661, `_validation.py` | type checks of scalars |
| `AlphaPath` | `_glm.py` 432-517, 669-715 | |
| `Weights` | `_validation.py` 156-217, `_glm.py` 2140-2156 | |
| `Predict` | `_glm.py` 720-994, `_glm_cv.py` 426-490, score 1738-1794 | |
| `Inference` | `_glm.py` 996-1733, 3335-3342, `_distribution.py` 411-538 | pandas formatting of the table |
| `Estimator` | attributes written/read by `fit`, `predict`, `covariance_matrix`, `aic`/`aicc`/`bic` | |
| `Categorical` | `_utils.py` 14-174, `_glm.py` 319-362 | tabmat's own splitting into sparse/dense |
| `Formula`, `FormulaParse` | `_formula.py` | formulaic's grammar (contract: a chain of `+`/`-` of term sets) |
| `Fit`, `Solve` | `_glm.py` 2733-2918, 570-632 | |
| `Pickle` | `_glm.py` 179-242 (`__setstate__`, `categorical_levels_`) | the pickle protocol |
| `Diagnostics` | `_solvers.py` 559-588, `_glm.py` 717-788 | timings, `n_active_rows`, `n_line_search`, printing |
| `Families` | `_distribution.py` 61-108, 578-601, class attributes and `__eq__` of the families, `_link.py` 74-80 and `__eq__`, `_glm.py` 391-392, 424-430, 538-539 | user-defined families |
| `Heap` | memory effects of `_glm.py` 248-317, 669-715, 1959-2164, 2733-2918, 3227-3332, `_glm_cv.py` 586-805, `_utils.py` 246-313, `_validation.py` 94-217: copies, sharing, views, in-place writes | arrays the code never writes to after making them; memory when `fit` raises |
| `Parallel` | `_functions.pyx` 29-599 (every `prange` loop), `_cd_fast.pyx` 74-106 at the level of single reads and writes by threads; which routine `_distribution.py` calls | Cython's private/reduction inference and OpenMP's work sharing are taken as documented; float rounding of the sums |
| `Float` | the arithmetic on coefficients of `_cd_fast.pyx` 148-213, `_solvers.py` 77, 797-847, `_utils.py` 246-313, `_glm.py` 258-317 with a rounding after every operation | how score, Hessian, tolerances and step tests are rounded (arbitrary there); overflow, NaN, fused multiply-add |
| `PredictFrame` | `_glm.py` 979-994, 864-926 on data frames | formula fits |
| `Random` | `_solvers.py` 486 (`check_random_state`), `_cd_fast.pyx` 146: which generator a solve draws from and how many numbers it takes |
| `Ieee` | `_solvers.py` 240-354, 591-642, 755-847 and `_cd_fast.pyx` 59-71, 109-287 over an arbitrary arithmetic with the IEEE rules for NaN; exceptions of `scipy.linalg.norm` (`check_finite`) | which direction, step length and active set are chosen (arbitrary); families and links (arbitrary rows of gradient and Hessian) |
| `Finite` | the checks for NaN and infinities in `_validation.py` 62-217, `_glm.py` 284-309, 1834-1842, 1929-1934, 2643-2661, 2733-2796, 3227-3332 | dtype conversions; categorical expansion of penalties; definiteness of `P2` (`PosSemidef`) |
| `Drift` | `_solvers.py` 645-660, 704-707, 797-847, `_cd_fast.pyx` 218-287 in rounded arithmetic with an error bound; dot products added in any order | overflow; the direction, the accepted trial and the matrix products are inputs (their accuracy a hypothesis) |
| `PowerLink` | `_link.py` 83-98, 146-172 on arbitrary linear predictors; `_solvers.py` 289-345, 798-836 with a link that raises | rounding of powers to float32; values computed from infinities |
| `MonoFit` | `_glm.py` 611-627: the monotone solver behind `fit`, with a log of warnings and exceptions |
| `Inputs` | `_validation.py` 20-91; `_glm.py` 891-908, 1627-1639, 1979-1983, 2040-2045, 2093-2138; `_utils.py` 177-184 | sklearn `check_array`, tabmat constructors, `tm.from_df` (contracts from memory); explicit zeros of sparse matrices; order C/F of dense arrays |
| `Overflow` | `_functions.pyx` 29-129, 167-197, 239-284, 326-366, 470-556 with rounding, overflow and NaN | C library `exp`, `log`, `pow` (contracts); single precision with double intermediates; fused multiply-add; sign of zero |
| `Broadcast` | `_distribution.py` `_as_float_arrays` (1527-1553) and how `deviance`, `log_likelihood`, `dispersion` of each family treat numbers, arrays, lists, `None`; numpy broadcasting up to dimension one |
| `External` | `_solvers.py` `_lbfgs_solver`, `_trust_constr_solver` (874-985) and the branches of `_solve` that call them (`_glm.py` 633-666); scipy's optimisers are parameters |
| `CVSelect` | deviance kernels, `deviance_path_.mean(axis=0)` and `np.argmin` with NaN and infinities (`_glm_cv.py` 674-678, 814-838; `_functions.pyx` deviances) |
| `PredictFloat` | `_glm.py` `_compute_linear_predictor`, `predict` (882-994) and `_link.py` `inverse` in floating point: any order of summation, fused multiply-add, overflow, NaN; library functions monotone |
| `CV` | `_glm_cv.py` 585-923 | joblib (contract: results in job order) |

## Trusted base

* Lean 4.33.0's kernel, and Mathlib as installed.
* Axioms: every property theorem depends on at most `propext`, `Classical.choice`, `Quot.sound`
  (checked with `#print axioms`, see `MANIFEST.json`).  No axioms of our own, no compiled-code
  decision procedures.
* The reading of the code: the model was written by hand from the text of `/repo`.  Nothing was run.

### What the model abstracts

* **Floating point**: all arithmetic is exact (over ℝ, or over an arbitrary linearly ordered field for
  the purely algebraic parts), except in `Float` (C103: a rounding after every operation on coefficients), `Drift` (C110: error bounds), `Overflow` (C115: largest number, infinities, NaN in the compiled losses), `Ieee` and
  `Finite` (C107, C108: NaN, infinities and overflow).  Epsilon guards of the code are parameters `eps > 0`.
  float32/float64 dtype effects are not modelled.  All other theorems are statements about the algorithm in exact arithmetic.
* **The random generator** of coordinate selection *is* modelled bit-exactly (`BitVec 32`).
* **External libraries** are parameters with recorded contracts: `scipy.linalg.solve/inv/lstsq`
  (`H *ᵥ solve H b = b` when H is invertible), `fmin_l_bfgs_b`, `minimize(trust-constr)` (no contract:
  nothing is proved about their output, only about the objective/gradient/constraints handed over), `tabmat`
  (matrix-vector product, sandwich, weighted column mean / standard deviation as documented), `formulaic`,
  `joblib` (returns results in the order of the job list), `pandas`/`narwhals` (dataframe as list of columns).
* **Parallel loops** (`prange`): each iteration writes its own row and reductions are sums, so they are modelled
  as finite sums in exact arithmetic, where order is irrelevant.
* Timing, progress bar, logging, dtype conversion, sklearn parameter plumbing (`get_params`, `__sklearn_tags__`),
  plotting and the bytes of a pickle are not modelled.

## Plan per property

See `properties.jsonl` for the statements.

| id | modelled as | proof |
|---|---|---|
| C01–C03 | links as real functions, clip included | `Real.exp/log/rpow` calculus, `HasDerivAt` |
| C04–C06 | unit deviance/variance of every family, branch on `y = 0` as in the code | convexity inequalities (`Real.add_one_le_exp`, weighted AM-GM), `HasDerivAt` |
| C07 | kernels as `Finset` sums with the branches of the Cython loops | per-term equality; F2 counterexample for Tweedie `p < 0` |
| C08–C10 | `*_eta_mu_deviance`, `*_rowwise_gradient_hessian` kernels | difference is constant in `eta`; `HasDerivAt` |
| C11 | log-likelihood kernels | algebra |
| C12, C13, C28 | `_linalg.py`, CSC matrices as (indptr, indices, data) | algebra on `Matrix`, counting argument for the diagonal test |
| C14 | normal equations | quadratic expansion |
| C15–C18 | `standardize`, `unstandardize`, … | algebra; F3/F5 counterexamples |
| C19–C24 | coordinate descent loop over an arbitrary schedule, then the concrete cyclic / random one | 1-D convex analysis, induction over the visit list |
| C25 | xorshift on `BitVec 32` | bit-level injectivity, modulo |
| C26, C27 | Hessian state machine over histories | invariant by induction |
| C29–C35 | IRLS state machine, line search as bounded loop | invariants, composition with C22, convexity |
| C36, C37 | penalties | algebra |
| C38 | decision table | case analysis |
| C39–C43 | alpha path and index functions on lists | induction |
| C44–C48 | weights / offset validation and objective | algebra |
| C49–C53 | covariance, group sums, Wald | matrix algebra |
| C54, C55, C64 | caches as state machines over histories | invariants / counterexamples |
| C56–C58, C65 | list models of categories, columns and formulas | induction |
| C59 | monotone IRLS loop | exit-condition invariant |
| C60, C61, C71 | CV table | argmin over list, index bijection; congruence in the training rows |
| C62 | concavity of `log W_j` | `Real.Gamma` log-convexity, error bound of the truncated series |
| C63 | `guess_intercept` | stationarity + convexity |
| C65 | terms as lists, formulaic's `+`/`-` as contract | induction over the items |
| C66 | `identify_active_set` | KKT conditions of the excluded features |
| C67 | score and information matrices per row | `HasDerivAt` of the log-likelihood in the coefficients, first and second order |
| C68 | `coef_table` | algebra |
| C69 | monotone loop with its quadratic penalty | KKT of the penalised problem; counterexample where a penalised row ends with the wrong sign |
| C70 | `fit` composed of all parts, solver arbitrary | the standardisation is a bijection that preserves the documented objective |
| C72 | log-likelihood kernels against densities in `Spec/Density` | integrals / series equal 1 (Gaussian, Gamma, inverse Gaussian, Poisson, binomial, negative binomial, compound Poisson–Gamma for Tweedie) |
| C73 | Pearson dispersion | expectation over a finite probability space |
| C74, C75 | `fit` with the IRLS solver | descent chain from the guessed intercept; convex duality bound from the stopping rule |
| C76 | single IRLS iteration | the Gaussian objective equals its quadratic model |
| C77 | stopping rule of the IRLS loop (`cython_norm_min_subgrad`), row gradients, un-standardisation | the intercept enters the stopping rule unpenalised, so its score is below the tolerance; for canonical links `h'/V = 1` |
| C78 | `fit` with the IRLS solver, run twice | duality bound (C75) at the midpoint of the two solutions plus curvature of the objective |
| C79 | `fit` composed of all parts, solver arbitrary | the standardised problem is literally the same in both units; the reported rows transform back |
| C80 | `fit` with the IRLS solver, run twice | the translated start is the solver's last point, whose stopping rule already holds; counterexample without intercept |
| C81 | `fit` with the IRLS solver on two data sets with the same weighted sample | simulation relation between the two runs (equal coefficients, scores and Hessians; row arrays related by fibre sums) |
| C82 | `is_pos_semidef` with `eigvalsh` as its contract (eigenvalues of the lower triangle), the check in `fit` | spectral theorem (Mathlib) for the shifted matrix; counterexample for large sparse `P2` |
| C83 | `get_family`, `get_link` and the parameter setters on strings: dictionary look-up, the two regular expressions (leftmost search, greedy group); `float(str)` is a parameter | induction over the text; counterexamples F37, F38 |
| C84 | the coordinate-descent model of C17-C24 with unbounded `max_inner_iter` | every cycle that leaves the norm above the tolerance decreases the model by a fixed amount; bounded below by strong convexity |
| C85 | the outer loop of C29-C35 with unbounded `max_iter` | Armijo decrease per iteration in terms of the gradient norm; first-exit argument on the level set for the line search |
| C86 | irls-cd outer loop, cyclic selection | one cycle of coordinate descent achieves a fixed fraction of the model decrease of any competitor; active-set screening loses nothing; strong convexity on the level set turns this into a contraction |
| C87 | whole fits, offset moved by a constant | simulation of the IRLS loop on the two problems (states related by a shift of the intercept), start values and report shifted; objective equality and strong convexity for the other solvers |
| C88 | whole fits, mirrored data | the same simulation with signs, through coordinate descent, active sets, Hessian updates, standardisation, start values and alphas |
| C89 | converged fits of reordered columns | near-optimality of rows without a warning (C75), invariance of the objective, strong convexity |
| C90 | solution set of the documented objective; converged fits | coercivity from ridge and intercept start value, strict convexity, linear growth away from the minimiser, near-optimality (C75) |
| C91 | solutions and converged rows for two strengths | exchange argument on near-optimality (C75) |
| C92 | documented objective on rescaled data; converged fits of both problems | homogeneity of the unit deviance, bijection of feasible points, near-optimality (C78, C90) |
| C93 | whole fit without start values | first-order conditions at the constant model; guess_intercept is the exact null-model minimiser; minimum-norm subgradient is zero at the start; induction along the path |
| C94 | documented objective as a function of data and coefficients; converged fits of perturbed data | joint continuity of the unit deviance, uniform convergence on compact spheres, convex growth (C90), near-optimality of converged fits (C78) |
| C95 | attribute dictionary, migration, defaults, categorical_levels_ | case analysis; comparison with the levels recorded by fitFrame |
| C96 | records of the outer loop, attribute diagnostics_, formatting | induction along the loop; each state in sync with its coefficients (C29); unstandardisation (C16); near-optimality (C35) |
| C97 | to_tweedie, the family functions, the fit as a function of the family | the rows are equal functions (rpow at 0, 1, 2, 3), the fit only reads the rows |
| C98 | bounds as extended reals, objects with float parameters | case analysis |
| C99 | memory as addresses with contents, views, in-place writes | frame lemmas per stage, refinement to the functional model |
| C100 | small-step semantics of prange with threads, shared memory and reduction variables | invariant on executions, refinement to the functional models |
| C101 | glmFit and the documented objective | cross difference of the deviance in response and mean; near-optimality of fits (C75) |
| C102 | glmFit and the documented objective | padding with zeros; near-optimality of fits (C75) |
| C103 | CD, IRLS step and scale changes with a rounding after every operation, data-derived numbers arbitrary | invariant along the passes; refinement to the exact model |
| C104 | convertFrame, predictFrame, linearPredictor | naturality of every step in the rows; each check is a conjunction over rows |
| C105 | covariance, waldMatrix, coefTable | conjugation of every matrix by the recoding |
| C106 | checkRandomState, irlsCdRandom on top of glmFit and cvFit | two solvers that agree give the same fit; simulation of irlsCd for the tolerance bound (C78) |
| C107 | Ieee: abstract arithmetic with the NaN rules, the IRLS loop and coordinate descent over it, exceptions of scipy.linalg.norm | invariants of the loop; propagation of NaN through sums and comparisons |
| C108 | Finite: the checks of fit over numbers, NaN and infinities; Ieee for what follows | exact characterisation of acceptance; propagation into the IRLS loop |
| C109 | the Inference and Likelihood models on two data sets | every quantity is linear in the weights; sums over fibres of the copy map |
| C110 | the coefficients and linear predictor carried by the loop, sums in any order, the score and the norm, all in rounded arithmetic | forward error analysis by induction over passes and over summation trees; the norm of the minimum-norm subgradient is 1-Lipschitz; then C35 at the rounded coefficients |
| C111 | numpy's power with zero and negative bases, catch_p, the line search with a link that may raise | arithmetic of the exponents 1/(1-p); induction over trials and passes |
| C112 | the monotone solver as solver of fit, with standardisation, path, linear predictor and prediction | Abel summation along the sorted columns of every group; induction along the path; monotonicity of the inverse link |
| C113 | the objective of the fit as a function of all coefficients, the IRLS loop with a direct solver on the standardised problem | recession directions of convex functions on closed convex sets (compactness of directions); explicit invariant of the Newton iteration on separated data |
| C114 | the input checks on arrays, sparse matrices, tabmat matrices and frames with a buffer identity per array; sklearn check_array as a parameter by its contract | case analysis over the containers, induction over the parts of a split matrix |
| C115 | the compiled routines over an arbitrary rounding with largest number, infinities and NaN | monotonicity of rounding, case analysis of IEEE operations, induction over summation trees |
| C116 | cvFit of the model with any solver and any order of results | equality of the standardised problems fold by fold, C61 for the collection, case analysis of selection and refit |
| C117 | _as_float_arrays, numpy broadcasting in dimension at most one, the methods of all families on Python arguments | induction on the numpy rule, representation lemmas for elementwise operations |
| C118 | predict in rounded arithmetic with infinities, NaN and fused multiply-add, the fit in rounded arithmetic of C103 | monotonicity of every operation by cases, induction over the order of summation |
| C119 | both wrappers around an abstract optimiser, composed with fit | gradient equals minus the IRLS score, tangent inequality of the convex objective, Lagrange multipliers, transfer through standardisation |
| C120 | deviance kernels, mean(axis=0) and np.argmin over numbers/NaN/infinities, on the coefficients stored by the model of CV fit | loop invariant of argmin, NaN propagation, reduction to c60 in range |
| C121 | IRLS model with rows, objective spec, covariance model | simulation between the run on detailed and on merged rows (RowsAgree), affine dependence on y of every row quantity, fibrewise sums |
| C122 | documented objective, IRLS fits, covariance model | homogeneity of the deviance row by row, then c90 limits; covariance_raw separates the matrix from its factor |
| C123 | documented objective, IRLS fits | strict minimum of the unit deviance at the observation, injective links, growth of a convex function with a unique minimiser |
| C124 | documented objective, IRLS fits | strict convexity of the row losses, growth of a convex function away from its set of minimisers (compact, or modulo the directions that change no prediction), c75 |
| C125 | outer IRLS loop with _least_squares_solver, line search and Hessian update as modelled for C29/C85 | mean value theorem for the gradient rows, positive definiteness of the Hessian in the neighbourhood, second-order bound along the step for the Armijo test; neighbourhood obtained by compactness and continuous differentiability of the Hessian rows |
| C126 | documented objective and fit as modelled for C75/C90 | moving the two coefficients towards each other lowers the ridge term by a multiple of the squared difference; one-sided derivative at the minimiser; Cauchy-Schwarz |
| C127 | documented objective and fit as modelled for C75/C77 | one-sided derivative along a single coefficient; near-optimality (C75) used with a competitor that changes one coefficient |
| C128 | fit as modelled for C70 | invariant of the outer loop (coefficient, score and off-diagonal Hessian entries of the position are zero), of the cycle loop of coordinate descent, and of the path |
| C129 | families, unit deviances, likelihoods and fits of Model/Distribution, Model/Likelihood, Model/Fit | deviance by comparing derivatives (C05); objectives by the mean value inequality on a ball, then the growth lemma of C94; powers and thetas by comparing variance functions; limits by squeezing and slopes of log at 0 |
| C130 | penalties and fits of Model/Fit | one-sided derivative of the penalty along an idle direction; full sets with the intercept give idle directions; fits by near-optimality (C75) at the moved point, whose centred intercept does not move |
| C131 | fits of Model/Fit | objective = loss + alpha * penalty: trade at the minimum, compactness of sublevel sets (C90), strict convexity of the ridge form; fits by C90 and the triangle inequality; dichotomy by C113 |
| C132 | Model/Inference, Model/Predict, fits of Model/Fit | continuity of the row weights at regular predictors and of computations that can fail (solve = inverse near an invertible matrix), then C90 or C124 |
| C133 | Model/CV, Model/Fit, Model/Solve | a job is a fit of its fold (path_fit), so C132 applies to it; deviance is continuous at regular predictors; finitely many folds and grid points have a common tolerance; a finite grid has a gap between the least and the other losses; refit by C132 on all rows |
| C134 | Model/AlphaPath, Model/CV | C94 (solutions continuous in alpha) and continuity of the deviance; uniform continuity on the compact interval, parametrised by the exponent of the grid; C133 on the grid |
| C135 | Model/Likelihood, Model/Estimator (kParams) | continuity of every log-likelihood in mean and dispersion (incl. lgamma); the count above a threshold is lower semicontinuous, and locally constant away from the threshold; transfer of C132 |
| C136 | Model/Fit, Model/Inference | the objective without penalty depends on the predictor only, so that solutions correspond; C105 for the reports of the solutions; C132 for both families of fits |
| C137 | Model/Fit | the objective of the larger problem on padded vectors is that of the smaller (C102); strict convexity for uniqueness; C132 for both families of fits; for the converse the first-order condition of the smaller problem and convexity of the row losses |
| C138 | Model/Fit | directional derivative of the objective along segments (first-order condition), expansion of the ridge form, convexity of the row losses for the converse; C132 for the fits |
| C139 | Model/Fit | C138: the column conditions are local in each coefficient by convexity of the absolute value; C132 for both families of fits |
| C140 | Model/Fit | C138 at x = 0 and an a priori bound of the residuals (|y - mu| <= 1; norm of the residuals at most that of the constant model, Cauchy-Schwarz); C90 and C132 for the fits |
| C141 | Model/Fit | the midpoint of two solutions is a solution with the same penalty (C124), so the triangle inequality is an equality in each penalised column; C124 for the fits |

All properties have a model.  Where the English property is false of the code, the theorem with suffix `_partial` proves it outside the
exception, and a theorem with suffix `_counterexample` exhibits the exception; the manifest says `partial`.

## Testing the theorems

`seeded/LOG.jsonl` lists the seeded bugs: each is an edit of a definition in `Model/`, after which the theorems are rebuilt in a scratch copy
(`tools/mut.py`).  Edits after which everything still proved led to the theorems named in `theorems_tightened` (files
`Props/Tighten*.lean` and others).  A theorem named in `theorems_failed` no longer compiles; when only a helper lemma is listed, the
theorems after it in the file were not reached.

## Findings (code disagrees with the property or its documentation)

Those with a theorem name are proved in Lean with a concrete witness; the others were found by reading.

* F1 (C04, `c04_binomial_fractional_counterexample`, `c45_binomial_counterexample`): `BinomialDistribution.unit_deviance` lacks the saturated term; it is not 0 at `mu = y` for fractional y.
* F2 (C07, `c07_tweedie_negative_counterexample`): `tweedie_deviance` guards a term with `y > 0`, `unit_deviance` does not, so for p < 0 and y < 0 they differ.
* F3 (C17, `c17_constant_column_counterexample`): a constant column's start coefficient is dropped by the warm-start translation.
* F4 (C19, `c19_start_clip_counterexample`): start coefficients on the standardised scale are clipped against the *unstandardised* bounds.
* F5 (C17, `c17_no_intercept_counterexample`): without intercept the start coefficients are not rescaled by the column standard deviations.
* F6 (C31): the monotone solver changes P2 between iterations without recomputing the objective and score it compares with.
* F7 (C54, `c64_stale_criteria_counterexample`): information criteria are cached and never invalidated on refit.  They also ignore the offset (`c54_offset_counterexample`); an AICc that is exactly 0 raises.
* F8 (C53, `c53_R_default_counterexample`): `wald_test(R=R)` without `r` fails because `np.asarray(None)` is a 0-d array.
* F9 (C51, `c51_labels_counterexample`): `_group_sum` merges labels when labels are negative.
* F10 (C38, `c38_l1_counterexample`): the check "solver cannot handle L1" is skipped under `alpha_search`.
* F11 (C40, `c40_offset_counterexample`): `alpha_max` ignores the offset in the intercept guess, and unpenalised features.
* F12 (C64, `c64_stale_formula_counterexample`): attributes of a previous formula fit survive a refit without formula.
* F13 (C38): the CV estimator does not check `lower_bounds <= upper_bounds`, nor the inequality constraints.
* F14 (C58, `c58_lexicographic_counterexample`, `c58_reference_level_counterexample`): string levels are ordered lexicographically, not by category order; a dropped reference level is unconstrained.
* F15 (C11, `c11_negBinomial_zero_counterexample`): the negative binomial log-likelihood is NaN at y = mu = 0.
* F16 (C72): for Tweedie p < 0 `log_likelihood` takes the compound-Poisson branch.
* F17 (C38, `c38_bounds_counterexample`): `monotonic_constraints` with bounds and `solver="auto"` is accepted and the bounds are ignored.
* F18 (C38, `c38_array_alpha_counterexample`): `alpha_search` with a numpy array of alphas, `l1_ratio > 0` and `solver="auto"` raises an unrelated `ValueError`.
* F19 (C60): `cv.get_n_splits()` is called without X, so splitters such as `LeaveOneOut` raise.
* F20 (C43, `c43_weights_counterexample`): `predict(sample_weight=w, alpha_index=[...])` broadcasts the weights along the alpha axis.
* F21 (C48, `c48_scalar_nan_counterexample`): a scalar NaN or infinite `sample_weight` is accepted.
* F22 (C50, `c50_documented_factor_counterexample`): the clustered covariance factor is M/(M−1)·(N−1)/(N−p), documented is N/(N−p); a single cluster divides by zero.
* F23 (C49, `c49_weight_sum_counterexample`): the robust covariance is negative when the weights sum to less than the number of parameters.
* F24 (C64, `c64_failed_fit_counterexample`): a failing refit leaves the new link and `n_features_in_` with the old coefficients; `monotonic_constraints` with a matrix after a formula fit uses the stale model spec; `covariance_matrix` with a stale response spec replaces y; with `mu` given the number of columns is not checked.
* F25 (C57, `c57_literal_missing_counterexample`): a literal level "(MISSING)" with `cat_missing_method="convert"`: fit works, predict raises.
* F26 (C57, `c57_order_counterexample`): predict on data frames does not compare column names or order.
* F27 (C58, `c58_shared_factor_counterexample`): opposite directions for two variables of one factor: the last wins silently.
* F28 (C58, `c58_numeric_interaction_counterexample`): a monotone constraint on x with a numeric interaction x:z does not give a monotone effect.
* F29 (C58, `c58_colon_counterexample`): a column name with ":" or brackets inside a level makes every monotonic constraint raise.
* F30 (C69, `c69_wrong_sign_counterexample`): the monotone solver can report convergence at a non-optimal point.
* F31 (C61): if `cv` yields slices, `w_train /= w_train.sum()` writes into `sample_weight`.
* F32 (C65): `formula` is silently ignored when X is not a data frame.
* F33 (C73): the docs describe weights as inverse-proportional to the variance, the denominator Σw − ddof treats them as frequencies; non-robust covariances apply N/(N−p) on top of it.
* F34 (C76, `c76_counterexample`): Gaussian/identity `irls-cd` with intercept and L1 penalty gets `max_iter=1`; the screening of that iteration can exclude a needed feature, giving a `ConvergenceWarning` no larger `max_iter` can cure.
* F35 (C56, `c56_string_counterexample`): a string column that `from_df` drops keeps its entry in an expanded penalty.
* F36 (C82, `c82_large_sparse_counterexample`): `is_pos_semidef` calls `scipy.linalg.eigsh` for sparse `P2` with 2000 or more rows; the function is in `scipy.sparse.linalg`, so `fit` raises `AttributeError` even for the identity.
* F37 (C83, `c83_garbage_counterexample`): `get_family` uses `re.search`, so `my_tweedie(2)x` is accepted, `negative_binomial(2)` too, and `tweedie(nan)` passes the check of the power.
* F38 (C83, `c83_auto_link_counterexample`): for a Tweedie power below zero the automatic link is the identity, though means must be positive.
* F39 (C107, `c107_counterexample`): without intercept, a NaN gradient at the cold start (e.g. a scalar NaN `sample_weight` or offset) counts as converged: `fmax` and `fsign` turn NaN into zero, and `fit` returns zero coefficients without warning.
* F40 (C108, `c108_p1_none_counterexample`): `P1=None` is documented, but `np.asarray(None) >= 0` raises `TypeError` in `_validate_hyperparameters`.
* F41 (C110, `c110_drift_grows`, `c110_exact_claim_counterexample`): the linear predictor is never recomputed during a run, so rounding errors accumulate in it with the number of iterations (the comment at `_solvers.py` 841-846 asks about this), and the solver can report convergence at coefficients whose exact gradient is above `gradient_tol`; `c110_converged` bounds by how much.
* F42 (C111, `c111_negative`): `catch_p` promises an error for negative linear predictors, but none is raised for the powers 1 + 1/m (2, 1.5, 1.25, …), whose exponent is an integer: `TweedieLink(2)` returns negative means, `TweedieLink(1.5)` the mean of the opposite linear predictor.
* F43 (C111, `c111_fit_raises_counterexample`): the error of a power link during a trial step ends the fit, although a shorter step would have been acceptable; the line search never sees it.
* F44 (C112, `c112_spline_counterexample`): `monotonic_constraints` on `bs(x, 3)`, as in the tutorial, orders the coefficients of the basis functions that formulaic keeps; the first one is left out, so its coefficient 0 is not compared with the others, and the effect may fall everywhere. (The same gap as for reference levels, F14.) That formulaic leaves it out by default is from memory, formulaic is not in the sandbox.
* F45 (C112, `c112_tolerance_counterexample`, `c112_link_counterexample`): without any warning the constraints may be violated by 1e-6 per row; with a decreasing link (`TweedieLink` with power > 1) the predicted means follow the opposite direction.
* F46 (C113, `c113_silent_fit`): unpenalised logistic regression on separated data has no solution, yet every fit converges without any warning; the reported coefficient is about log(1/gradient_tol), whatever the data.
* F47 (C114, `c114_standardized_counterexample`): `check_array_tabmat_compliant` has a branch for `tm.StandardizedMatrix`, but it passes the one-dimensional shift to sklearn's `check_array`, which refuses it; so such a matrix is always refused (and the branch would drop the multiplier).
* F48 (C114, `c114_copy_false_counterexample`, `c114_copy_true_counterexample`): with `copy_X=False` arrays of booleans, half precision or objects are copied without the error that integers get; with `copy_X=True` the codes of a categorical matrix stay shared with the caller.
* F49 (C114, `c114_predict_counterexample`): a model fitted with `force_all_finite=False` accepts NaN in `X` when fitting, `predict` on the same `X` raises.
* F50 (C114, `c114_response_counterexample`): `y` is checked to be finite before it is cast to the element type of `X`; with a float32 `X` a large `y` becomes infinite and is not refused.
* F51 (C115, `c115_zero_weight_counterexample`): a row with weight zero is not ignored once its mean overflows: `0 * inf` makes the Poisson deviance NaN for all rows (the line search then refuses the step). C47 holds in exact arithmetic only.
* F52 (C115, `c115_tweedie_counterexample`, `c115_inverse_gaussian_counterexample`): the Tweedie routine gives NaN for a response of zero when the mean underflows, where the loss is zero in the limit; the inverse Gaussian gradient is NaN at tiny means although the loss is finite.
* F53 (C117): `BinomialDistribution.log_likelihood(y, mu, sample_weight=2.0)` returns an array (`np.dot` with a scalar multiplies elementwise) where the other families return a number; `deviance` of the binomial and GHS refuses lists, which the other families accept; the compiled families refuse calls in which all arguments are numpy scalars other than `float64`. The estimators always pass arrays, so fits are not affected.
* F54 (C120): with a link whose inverse can leave the family's range (Poisson or gamma with the identity link), a held-out mean outside the range gives NaN or a negative "deviance"; `np.argmin` returns the first NaN, so `GeneralizedLinearRegressorCV` silently selects exactly the combination whose predictions are invalid (`c120_undefined_selected_counterexample`, `c120_negative_deviance_counterexample`). One such row is enough, even with weight zero.
* F55 (C128): without intercept, `irls-cd` never moves the coefficient of a column of zeros that has no ridge penalty (`Q[ii, ii] <= eps` skips it), so with `l1_ratio = 1` a coefficient carried over by `warm_start`/`start_params` (a category level that no longer occurs) stays for good although the L1 penalty alone would set it to zero; `fit` runs to `max_iter` and warns (`c128_stale`, `c128_stale_warns`). With an intercept the start translation (`coef * col_stds` with `col_stds = 0`) resets it to zero.
* Others: `guess_intercept` ignores the offset for cloglog and Tweedie links; with `random_state` an instance or None, CV results depend on the order of the jobs (an integer re-seeds every solve); `min_alpha=0` gives a NaN path and `min_alpha_ratio` is not validated; `np.argmin` selects the first NaN in CV; a CV fold with constant y and a non-identity link raises.
