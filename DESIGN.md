# Formal model of regain: design

Source: `/repo/regain` (Python). Formal model: Lean 4, `/verif/lean`. Properties: `properties.jsonl`.
Claims and theorem names: `MANIFEST.json`. Deliberately broken variants: `seeded/LOG.jsonl`.

## Trusted base

* Lean 4.33.0's kernel, plus Mathlib definitions (reals, matrices, `det`, `trace`, `PosDef`, `log`, `sqrt`).
* Axioms: at most `propext`, `Classical.choice`, `Quot.sound` (`#print axioms` is run in `Verif/Audit.lean`).
  No axioms of our own, no `sorry`, no `native_decide`, no `bv_decide`.
* The reading of the Python source: every definition cites the file and the lines it models. The code is never run.
* **Numbers.** Floating point is modelled by exact real arithmetic (`ℝ`). Rounding, overflow and signed zeros are
  not modelled. Where the *special values* of IEEE arithmetic decide the outcome (division by zero, NaN), the model
  uses `XF` (`Verif/Model/XFloat.lean`): a real, `+inf`, `-inf` or `nan`, with the IEEE rules for each operation.
* **External routines.** `np.linalg.eigh` is modelled as *any* pair (orthogonal Q, eigenvalues e) with `A = Q diag(e) Qᵀ`
  (so results hold for whichever basis LAPACK returns). `cholesky` succeeds iff the matrix is positive definite.
  `prox_tv`, `scipy.optimize.minimize`, `bottleneck.argpartition`, random generators: arguments of the model
  with the contract written in the theorem's hypotheses; random generators are arbitrary streams.
* **Loops.** `for … else … break` is recursion on the remaining iterations, with the outcome recording whether the
  loop broke. Warnings, exceptions and returned tuples are values.
* **Not modelled**: plotting, real file formats, joblib scheduling, sklearn's estimator machinery beyond the methods
  regain overrides, numerical accuracy, performance.

## Layout

* `Verif/Spec/*`    – small independent specifications (minimiser of a function, symmetric graph, …).
* `Verif/Model/*`   – the code, function by function, with line references.
* `Verif/Lemmas/*`  – helper lemmas.
* `Verif/Props/*`   – the property theorems, each with a non-vacuity `example`.
* `Verif/Audit.lean` – `#print axioms` for every property theorem.

## When the code and the property disagree

The property is kept as a user would state it. The file then proves (a) a theorem suffixed `_partial` with the part
that holds, and (b) the negation with a concrete witness (theorem name ends in `_false` or `_counterexample`).
They are collected in the section "Findings" at the end.

## Plan per property

| id | modelled | proof |
|----|----------|-------|
| C01 | `soft_thresholding` entrywise over any finite index type | unique minimiser, entry by entry, strong convexity |
| C02 | same | case analysis on the threshold |
| C03 | matrix version restoring the diagonal | C01 applied with a weight that is 0 on the diagonal |
| C04 | `XF` model of `max(1-lamda/norm,0)*a` per column | group prox by Cauchy-Schwarz; NaN at lamda=0 with a zero column is a counterexample |
| C05 | `XF` model of the mat-mul with the diagonal matrix | equality when no column is zero; NaN on zero columns is a counterexample |
| C06 | spectral function of any eigendecomposition | log-det supporting-line inequality, strong convexity of the quadratic term |
| C07 | same | variational inequality with the negative part |
| C08 | `a/(1+2 lamda)` | completing the square |
| C09 | spectral functions | eigenvalue-wise identity plus C06 |
| C10 | time series `Fin T → ℝ` | subgradients of TV survive soft-thresholding |
| C11 | `update_rho` with options | case analysis, induction on calls |
| C12 | `U *= rho/rho_new` inside the GL loop | induction on the loop |
| C13 | `update_gamma` | case analysis, induction |
| C14 | generic `for/else/break` loop; GL return values | induction; off-by-one of `n_iter` is a counterexample |
| C15 | GL step on matrices | invariant by induction |
| C16 | GL step; objective | KKT from the three updates, convexity of -logdet |
| C17 | GL step with `over_relax` | counterexample in dimension 1 |
| C18 | GL loop at constant rho | ADMM Lyapunov function, residuals summable |
| C19 | LGL step | invariant |
| C20 | LGL step | KKT; diagonal counterexample in dimension 1 |
| C21 | TGL step for any T | KKT; diagonal counterexample |
| C22 | the pair update | change of variables (sum, difference) |
| C23 | TGL loop | induction |
| C24 | decision table | case analysis using C01, C08, C04; `l2` counterexample |
| C25 | shapes and index maps | case analysis |
| C26 | a store with array identities | case analysis |
| C27 | difference of sums | finite sums |
| C28 | flags as booleans | finite sums; `nonzero` counterexample |
| C29 | counts over a finite index type, error branch explicit | counting, field arithmetic |
| C30 | dictionary with the literal key list | every non-empty list fails |
| C31 | batch of matrices with a PD oracle | diagonal dominance |
| C32 | arrays as functions, masks | case analysis |
| C33 | list of upper-triangle indices | arithmetic of triangular numbers |
| C34 | lists | induction |
| C35 | lists of functions, nested lists | structural induction |
| C36 | file system as a finite map, names as lists of characters | case analysis; counterexample |
| C37 | `sys.stdout` state machine with bodies as programs | structural induction over bodies |
| C38 | any argpartition outcome | order argument |
| C39 | scores with parameters | algebra |
| C40 | the loop over rows | closed form by induction; counterexample to the average |
| C41 | loop with the early `return` | counterexample; first-sample theorem |
| C42 | boolean test | counterexample for every array |
| C43 | backtracking loop with an oracle | induction |
| C44 | keyword-argument binding | decision table; counterexample |
| C45 | convex combination | PD closed under convex combination |
| C46 | lasso step | KKT |
| C47 | partition test, aliased buffer | case analysis; counterexamples |
| C48 | index lists | counting |
| C49 | counts | concavity bounds |
| C50 | ranking of the monotonised curve | counterexample; partial theorem |
| C51 | MH loop over an arbitrary stream | invariant |
| C52 | energy and conditional | algebra; counterexample (pairs counted twice) |
| C53 | update loop over an arbitrary stream | invariant; diagonal counterexample |
| C54 | counts | metric laws by counting |
| C55 | slice loop over an arbitrary stream | invariant |
| C56 | matrix algebra | module identities |
| C57 | log, exp, sqrt | real analysis |
| C58 | truth value of an array | decision table; counterexample |
| C59 | keyword plumbing | counterexample |
| C60 | row imputation | case analysis |
| C61 | `BIC`, `EBIC`, `EBIC_m` with IEEE values | value formulas from C39, bounds on log; false against BIC |
| C62 | `EBIC_t` | value formula; false for T >= 2 |
| C63 | the call made by `Gaussian_GLM_GM.fit` | options dropped: counterexample |
| C64 | Gaussian `fit_each_variable` | generic proximal gradient inequality, telescoping |
| C65 | Poisson line search | induction on trials; false after a rejection |
| C66 | Poisson loss and gradient | derivative, convexity of exp |
| C67 | `grad_loss`, `grad_loss_laplacian` | derivative of log det by the characteristic polynomial, summation by parts |
| C68 | `choose_gamma` acceptance, one iteration | variational inequality of the proximal step, convexity |
| C69 | one forward-backward step, both modes | gradient inequality; first order optimality on symmetric directions |
| C70 | a full run | false: two explicit runs ending at negative definite matrices |
| C71 | a full run with one time point | false: both modes raise |
| C72 | loop with history | induction over the loop |
| C73 | same line-search model as C43 | local quadratic upper bound of -log det from the spectral decomposition, proximal step is O(sqrt gamma) |
| C74 | `overlapUpdate` on local copies indexed by group and position | subgradient argument per feature; documented claim refuted by a two-feature instance, stationary states shown to solve the count-weighted lasso |
| C75 | `upperBound` next to `globalInstability` | algebra on the common mean connectivity |
| C76 | `gstarsBest`: ranks, first argmin, infinite slices | specification of rank and argmin, monotonicity of the bounds |
| C77 | `checkParamOrder`, `candidates` | list reasoning; lists of grids refuted by concrete grids |
| C78 | NArr with shapes, samplerMH as repeated vstack, directSampling with the fixed repeat=10 | induction on n; counterexamples n = 1 and every graph size other than 10 |
| C79 | mhVisit with one uniform draw; mean over draws as interval integrals | detailed balance per visit by pairing states that differ in one coordinate, induction on the list of visits |
| C80 | pPlusMinmax on Option states | the arrays are local fields of two extreme completions; monotonicity of the two-point probability; counterexample for nonpositive second response |
| C81 | isingExact on finite prefixes of the stream | simulation relation between partial and complete states, induction over visits, sweeps, blocks, passes |
| C82 | constraints argument of isingExact, never read | concrete run |
| C83 | isingThetas, poissonThetas | induction on the steps; counterexample for responses |
| C84 | adjPairs, adjCols, yLambda, lpgmRow with ValueError on size mismatch | counting argument on symmetric 0/1 graphs; counterexamples for rate 0 and weights other than 1 |
| C85 | graphKMeans with IEEE division | loop invariant on representatives; nan for identical graphs |
| C86 | sliceThreshold | Lebesgue measure of the accepting draws |
| C87 | wpChain of slice steps | invariant: state is a multiple of the current sample (negation of the property) |
| C88 | tMvnLogpdf | sum formula and counterexample |
| C89 | gwpConstruct | Gram matrix |
| C90 | mhLogAccept, mhSelect | case split on the minimum; Lebesgue measure of the accepting draws |
| C91 | wpHistory: list of references to one array | every entry is the last value |
| C92 | E-step functions over `N -> P -> Option R`, loop over the inner solver | PSD and normal form of the returned covariance; invariance under scaling proves the negation |
| C93 | missing_graphical_lasso loop with the inner solver as a parameter | generic loop lemmas; negation with n_iter and max_iter=0 |
| C94 | Model/Temporal.lean ktBody over pairs of times | stationary equations, subgradient inequalities added over times and pairs, strict concavity of log det; diagonal counterexample |
| C95 | Model/Temporal.lean kernelWeight | C94 with a competitor changed at one time; reindexing of the double sum |
| C96 | Model/Temporal.lean ltBody with the chain of times | stationary equations and subgradient inequalities for both blocks; diagonal counterexample |
| C97 | Model/Temporal.lean ltBody with all pairs | as C96; dimension by counting pairs |
| C98 | Model/Temporal.lean ltRun | loop invariant |
| C99 | Model/Temporal.lean ltBody with the squared loss | as C96 with an exact quadratic expansion |
| C100 | Model/Infimal.lean | stationary equations; counterexamples for the announced log-likelihood and for the off-diagonal norm |
| C101 | Model/Temporal.lean | generic loop outcome theorem; the latent solvers return the last index instead of the count |
| C102 | kernelTimeGraphicalLasso of Model/Temporal | multipliers by Riesz extension, ADMM Lyapunov function, compact sublevel sets; the test thresholds are compared with the residuals of finitely many iterations |
| C103 | timeGraphicalLasso of Model/TGL | same, with the chain of consecutive times |
| C104 | graphicalLasso of Model/GL, problem of Spec/Objectives | compact sublevel sets; rank-one direction when a variance vanishes; C18 with the optimum supplied |
| C105 | `thetaMy`: neighbour selection, trimming of rows above four, unit diagonal; `myTime`: observed precision | at most four entries of 0.245 per row, so strictly diagonally dominant; quadratic form bound for the latent part |
| C106 | `makeStarting`, `updTheta`, `updEll`, `covLoop`, `makeCovariance` with exceptions | induction over the steps; counterexample to positive definiteness (degree 10, epsilon 3.1, three variables) |
| C107 | `sparsityStep`, `sparsityLoop`, `makeFixedSparsity` | every step is diagonally dominant after the diagonal is refilled; counterexample for the fixed pattern (`np.diag(theta)` is a vector, subtracted from every row) |
| C108 | `squareForm`, `makeSin` with `ensurePosdef2d` | C31; the lazy `map` makes `normalize` ineffective |
| C109 | `sinCosTheta`, `sinCosLoop`, `makeSinCos` | induction over the times; the list of observed precisions is overwritten in each pass |
| C110 | `fedeMats`, `fedeNext`, `fedeLoop` | invariant: eigenvalues of the precision at least c, of the latent part below c, c grows by one; counterexample at the default epsilon with three variables |
| C111 | `mxzC`, `mxzK`, `marginalOf`, `randKA` | spectral shift, Schur complement, block inverse; number of latent variables is `n_dim_obs // 20` |
| C112 | Blocks and assembly as functions of the draws, smallest eigenvalue as oracle | spectral decomposition of the assembled matrix, shift of the eigenvalues |
| C113 | Table of modes, keyword binding, unpacking, stacking; generators as arguments | case analysis on the mode; list induction for the layout; counterexamples for documented modes, offered modes and `degree` |
| C114 | Loop over the samples of the process | diagonal dominance; counterexample with a latent variable |
| C115 | Both loops, the second with the matrix of the last time | loop invariant (links constant, diagonally dominant), Schur complement |
| C116 | Class loop with the class index in place of the loop variable | induction on the coins; counterexamples for self-loops and positive definiteness |
| C117 | Positions, interpolation loops | length by induction; counterexample for symmetry |
| C118 | np.repeat, the check and the grouping loop | division lemmas; counterexamples for the default arguments |
| C119 | Window of the covariance and conditional covariance | Schur complement, reindexing of the inverse |
| C120 | `fitInput`, `tglFit` (Model/Estimators): sorted distinct labels, class-wise mean and covariance; the solver is an argument | permutation and relabelling lemmas on finite sums; covariance identities by algebra |
| C121 | `scoreTerm`, `tglScore` (Model/Estimators) in extended reals | each term is rewritten as a sum of log-densities (Spec/Density); nan absorbs; a 2x2 witness for indefinite matrices |
| C122 | `daFit`, `daDecision`, `daPredict` (Model/Estimators); SVD and argmax by contract | uniqueness of the positive square root identifies any SVD of a positive definite matrix with its spectral decomposition; witnesses for the two failures |
| C123 | TimeGLM: the solver loop over pairs of times with the inner fit (Ising step loop, Poisson union of neighbourhoods) | invariant of the loop (zero diagonals), every returned matrix is an output of the inner fit |
| C124 | TimeGLM: same loop; inner fit abstract with its exact-minimiser contract, Ising step concrete | first-order conditions: the fixed point minimises the documented problem plus rho/2 times the squared norms (partial); negation by a witness with one edge |
| C125 | TimeGLM: data test, class sizes, kernel argument, keyword binding of the parent constructor | case analysis; negations by witnesses |
| C126 | TimeGLM: tgObjectiveCode against the documented objective | algebra (differs by twice the loss) and positivity of the loss on spin data |
| C127 | the double `fill_diagonal` loop, the shift and division with IEEE rules, and the Ising variant with `squareform`; penalties through `check_norm_prox` | induction over the lags shows the table holds `psi(K_r - K_c)`; then order arguments; equal networks give nan everywhere (negation) |
| C128 | both external loops with the solver, the linkage and the initial networks as arguments; clustering rejects nan tables; `transform` on a missing attribute | loop invariant (the networks are the fit for the stored labels) gives the fixed-point property when the loop breaks; negations for exhausted rounds, equal initial networks, a given kernel, and the orientation of the clustering |
| C129 | constructors as tables (generated from the text) with the rules of Python for `super().__init__` keywords and defaults; values are abstract | a provenance analysis proved sound by induction over the chain of parents, evaluated on every class |
| C130 | every solver call as a table parameter -> argument; local expressions may depend on the attributes the class reads | the same provenance analysis; non-interference for ignored options |
| C131 | `fit` may change the attributes assigned by the methods of the class; the four assignments of parameters written out | disjointness of the two sets of names and induction over the fits; negations for the four classes that assign parameters |
| C132 | the objective functions of the eight solvers with the copies of the variables they are evaluated at; singular values as an oracle with the contract of an SVD | consensus of the copies from residual 0, nuclear norm of a positive semidefinite matrix = trace; continuity and the convergence theorems C18/C102/C103 for the limits |
| C133 | the calls of `graphical_lasso`, `time_graphical_lasso`, `kernel_time_graphical_lasso` with their histories | after a pass the scaled dual is a subgradient of the penalties, so a Lipschitz constant bounds it (`copySub_dual_bound`); the tangent of `-log det` at `K` plus the optimality of the K-update give the gap (`pass_certificate`, `pass_bound`); run invariants (`rho > 0`, symmetric duals, old copies) hold for every penalty rule. No convergence assumption is used. |
| C134 | the three solver loops with the adaptive penalty and the dual rescaling | from the pass at which the penalty has settled the run is a constant-penalty run from an arbitrary state (`tglRunFrom`, `ktRunFrom`, `glRunFrom`), to which the ADMM Lyapunov argument applies (`PassRun.main`, `AdmmRun.converges`); stops at zero tolerance are exact by `AdmmRun.exact`. Whether the rule can change the penalty forever is left open, hence the disjunction. |
| C135 | `normalizeMatrix` over extended reals (1/sqrt(0), sqrt of negatives) | congruence by a positive diagonal matrix; 2x2 quadratic forms for the entry bound |
| C136 | `readNetwork`: selection of the top rows of an arbitrary descending order, the writing loop, the diagonal fill, the separator rules | induction over the rows (`netLoop_entry`), the row-sum quadratic form as a sum of squares, the two-colouring vector for the negative result |
| C137 | `isPosSemidefEig`, `isPosDefFull`, `positiveDefinite2/3` on the lower triangle, eigenvalues from the eigh oracle | eigenvalue characterisation of the shifted matrix |
| C138 | `logentropyNormalize` on non-negative counts with NaN replaced by zero | log y <= y - 1 summed over the column |
| C139 | `errorNormTime` as the mean over zip of the existing `errorNorm`, `errorRank` with exact ranks | induction over the lists, sums of absolute values |
| C140 | `alphaHeuristic2/3` with an arbitrary density | maximum of products of non-negative numbers is the square of the maximum |
| C141 | `wishartLogLik`, `wishartMode`, `invWishartLogLik`, `invWishartMode` (multigammaln is an arbitrary function, it only enters constants) | strict concavity of log det against a linear term (`log_det_lt`); inversion of determinants. |
| C142 | `NIW`, `NIW.posterior`, `NIW.logLik`, `NIW.mode`, `NIW.marginalMu`, `NIW.predictive`, `NIWObj` for the array shape of the mean | scatter decomposition, matrix determinant lemma; refutation for the returned object. |
| C143 | `logLikFrob`, `lognormalLogpdf` | compared with Mathlib's `gaussianPDFReal`. |
| C144 | `predictU`, `wpPredict`, `rbfEntry` | product form of the constructed matrix; exponential monotonicity. |
| C145 | `upperPairs`, `binaryDigit`, `ugGraph`, `mkAllUgs` with the argsort result as an arbitrary sorting permutation | bijection between binary strings and graphs through testBit; digit sum = number of edges. |
| C146 | `inBlanket`, `resampledGraph`, `normalizedScores`; draws are arbitrary indices, blankets in arbitrary order | case analysis, softmax algebra. |
| C147 | `fillUpper`, `covselObj`, `covselGrad` | derivative of log det, strict concavity, local-minimum condition; explicit unbounded ray. |
| C148 | `gwEmpCov`, `skLogLik`, `bicScore` | Gaussian density in Spec/Density.lean. |
| C149 | `laplaceH`, `laplaceH1`, `laplaceH1v2`, `laplaceTerm`, `laplaceHess`, `laplaceDiag`, `gwLogh` | resolvent identity for the derivative of the inverse; trace form tr(S E1 S E2), square root; refutations for the diagonal and for logh. |
| C150 | `gwScoreDefault`, `gwFitCov`, `topResults`, `topMean` | shape analysis; sorted list split. |
| C151 | Model/FB.lean (fbStep, fbLoop, tglForwardBackward unchanged) | Props/FBConv.lean: sub-level sets of the objective lie in compact sets of positive definite sequences; on them accepted steps are bounded below (uniform version of C73); descent plus convexity gives the limit of the values, compactness and strict convexity the limit of the iterates; the stopping quantity tends to zero |
| C152 | Model/GLM.lean (gaussStep, nodeLoop, gaussFitCall unchanged) | Lemmas/Fejer.lean: an iteration that comes closer to each of its fixed points converges; the proximal gradient step is one when gamma times the curvature is below 2 (Props/GLMConv.lean); divergence with the fixed step size on a family of data by induction |
| C153 | Model/TimeGLM.lean (isingFitStep, isingFitLoop, isingFit unchanged) | Props/IsingConv.lean: log cosh has derivative tanh, which is monotone and 1-Lipschitz; existence of a minimiser by compactness, fixed points = minimisers by the tangent and curvature bounds, convergence by Lemmas/Fejer.lean |
| C154 | the passes of Model/TimeGLM.lean with inner fits that minimise `F_t + rho k/2 ‖X - A‖²` over symmetric matrices | each pass is a step of ADMM on `∑ F_t + rho/2 ∑ ‖K_t‖² + coupling`; existence by coercivity, multipliers by the Riesz extension theorem on the product space, Lyapunov decrease, summability; the certificate from the first-order conditions of the pass and strong convexity (Lemmas/RidgeAdmm.lean) |
| C155 | the passes of Model/Infimal.lean as one-member families (Props/LatentConv.lean) | the energy of Lemmas/LatentAdmm.lean decreases along passes when rho < 2 mu (mu the strong convexity of the loss, here 1), minimiser by compactness and saddle state by a separation argument (Lemmas/LatentSquare.lean), then the loop by `runLoop_spec`. |
| C156 | the passes of Model/Temporal.lean (`ltNext` with `ltSquareR`) | `ltNext_pass` (Lemmas/LatentRun.lean) gives the optimality conditions of the five updates; energy, minimiser and saddle as in C155 with mu = 2; calls in `lt_calls`. |
| C157 | latentObjective, latentTimeObjective, kernelLatentObjective (Spec) | partial minimisation over L of the penalties gives a convex, hence continuous, coercive function of K - L; existence for the log-det problem (Lemmas/Exist), multipliers by separation, trace bound by testing with multiples of the optimum |
| C158 | ltIter (constant penalty passes of Model/Temporal) | energy of the three-block scheme with the strong monotonicity of the inverse below spectral bounds (Lemmas/LatentAdmm, LatentLogdet); partial: the bound on the iterates is a hypothesis |
| C159 | Model/LGL against Model/Temporal with one time point and no pairs | step-by-step simulation of the loops |
| C160 | Model/LGL, Model/Infimal | invariant L = 0: the remainder of soft thresholding has entries at most alpha/rho, and the l1 norm of a PSD matrix is at most d times its trace |
| C161 | Model/LGL | tau >= d alpha: the passes are the two-block scheme of the time-varying solver on one time point (PassRun.main); general tau: transfer of C158 through C159, partial |
| C162 | Model/Glopridu (gloProx, gloSearch: the first accepted exponent, none when there is none) | expansion of the dual objective along the two-metric projection arc; the decrease is of first order in the step on inactive and active blocks (Lemmas/Glopridu) |
| C163 | gloBody, gloPrimal | the accepted step satisfies the sufficient decrease; w = w0 (1 - 1/(1+s)) with s >= 0 |
| C164 | latentCost, IsLatentProx (Spec/Linear) | settled + independent blocks + radii <= 1 gives the optimality conditions of the dual, hence the proximal point (latent_kkt); counterexamples: radius 2 on w0 = 3, three nested blocks on (2,2) |
| C165 | gloExit on the gradient computed at the top of the pass | duality gap (latent_gap); counterexample: multiplier 3 on w0 = 3/2 overshoots to 0 and stops there |
| C166 | notArray (truth value of an array), glopridu | first pass raises for two blocks or more; invariant of the loop for one block |
| C167 | gpPoint, ridgeRisk, IsOverlapMin (Spec/Linear) | variational inequality along segments for both problems |
| C168 | The loop on copies is shown to be the image of a loop on one value per feature (`overlap_loop`), in which only the counts occur. | Simulation between the two loops (`runLoop_map`), then equality of the feature loops. |
| C169 | `groupLassoOverlap` with the counter of good passes as loop state. | Invariant: the counter never exceeds the number of immediately preceding good passes. |
| C170 | The same loop on features. | The z-update gives `A^T(Az-b) = D y`, the x-update a subgradient at the new copies; convexity of the loss, the subgradient inequality and Cauchy-Schwarz give the gap. |
| C171 | `overlapObjective` as recorded. | False: a one-feature run records 1/8 while the documented objective is at least 1/2 everywhere; partial: at agreement the recorded penalty is the root of the count-weighted sum of squares over all groups together. |
| C172 | `fit_each_variable` with the line search as an unbounded `while` (`searchWhile`). | A bound on the second derivative over a bounded region gives a step size below which every trial is accepted; the quadratic model does not increase along two soft-threshold steps with one gradient (`soft_twice`), which covers the double steps of the code. |
| C173 | The same run. | The objective bounds the iterates; the step size can only shrink finitely often, after which every pass is a proximal gradient step; the basic inequality and Fejer monotonicity give convergence. |
| C174 | The gradient with its coupling term, the line search without it. | Convexity of the coupled loss for fixed points; a one-sample witness on which no step is ever accepted. |
| C175 | `PoissonGraphicalModel.fit` on checked data. | C172 for every node, C40 for the reconstruction; refuted for the intercept. |
| C176 | Model/Lasso.lean `groupLassoOverlap` reduced to one value per feature (Props/OverlapRun.lean). | The local step uses the previous copies, so a pass is a primal-dual step without extrapolation. Energy rho/2*|x - x* - (y - y*)/rho|^2 + |y - y*|^2/(2 rho) weighted by the counts decreases when the curvature is below 2 rho; multipliers converge, a subsequence of the coefficients tends to a point satisfying the optimality conditions, and the energy relative to that point vanishes. Existence of a solution from C46 by rescaling the columns. For small rho the energy of two consecutive passes (Props/OverlapSmall.lean `smallEnergy`) decreases by half of the squared error of the coefficients: the change of |x|^2 - x.y + |y|^2 is the sum of the subgradient terms, which telescope up to squares; the loss gives the sign of the rest when its curvature is at least rho. |
| C177 | Model/StabilityMore.lean `graphletInstability2/3`; the graphlet vectors and their distance belong to another package and are arbitrary functions. | Induction over the list of estimators: the sum over pairs i < j is half of the sum over ordered pairs for a symmetric distance. |
| C178 | Model/StabilityMore.lean `defaultSize`, `samplingSize`. | Floor and ceiling arithmetic; negation proved for at most ten samples and for more classes than drawn samples. |
| C179 | Model/Plotting.lean: the in-place de Casteljau recursion, the interval search and the control points of a chord. | Induction over the rounds with the Bernstein recursion as invariant; convexity of the Bernstein weights. |
| C180 | Model/MultiClass.lean: the three branches of `sample`, the stacking of rows and labels and the Ising branch of `make_multiclass_dataset`. | Indexing of concatenated blocks of equal length by induction over the classes; negation for Ising networks, whose diagonals are overwritten in place, and for zero classes. |
| C181 | Model/PoissonGibbs.lean: the Gibbs branch of `poisson_sampler` with arbitrary draws, the IndexError for one variable, the ValueError of `np.random.poisson` above its limit and the default variances. | The weights exp(v.x + sum of coefficients)/prod x! are the specification; conditional probabilities and invariance from the exponential series, symmetry of theta from a four state cycle, non-summability from the ratio of weights along the diagonal. |
| C182 | Model/IsingTop.lean: argument checks, dispatch, retry loop and direct method of `ising_sampler`; the samples of CFTP and MH are the models of Model/Ising.lean. | Case analysis of the dispatch; the direct method by counting: without replacement the rows are pairwise different and 1024 of them a permutation of all states. |
| C183 | the existing models of the solvers | simulation: every update commutes with the relabelling M ↦ D P M Pᵀ D; spectral functions do not depend on the eigenbasis (`recompose_basis`), so the two runs are related state by state and every check, branch and exception agrees |
| C184 | the existing models of the time-varying solvers | simulation with the reordered sequences, exchanging the two auxiliary variables of a pair of time points where its direction changes; all norms and objectives are sums that do not depend on the order |
| C185 | existing models of the solvers and the documented objectives | averaging the optimum with its copy under a change of sign of one group does not increase the objective (concavity of log det), so uniqueness removes the entries between groups; conversely the inverse has no entries between groups and the first order condition bounds the covariance; exact zeros of the returned matrix from the limit of the scaled dual variable |
| C186 | existing model of graphical_lasso | the scaled dual variable converges to (X⁻¹ - S)/rho, so soft thresholding gives exact zeros from some iteration on; transfer to returned results by `gl_accuracy` |
| C187 | the documented objectives and the model of time_graphical_lasso | equal data: compare with the constant sequence of the best time point; large beta: tangent inequality with subgradients whose sum is zero, bounded by the total variation in time; laplacian: perturb one time point along a segment; solver statement from C103 |
| C188 | `gaussStep`, `nodeLoop`, `poissonFitNode`, `poissonModelFit` as before | A step from zero stays at zero iff every partial derivative is at most alpha; that is also the optimality condition (small accepted steps decrease strictly otherwise). Converse for the Gaussian loop: a run that comes back to zero is periodic, and the O(1/k) rate makes zero optimal. For counts: the limit of the run is not zero, and no two consecutive iterates are zero. |
| C189 | `isingFitPlain`, `isingModelFit` (Model/IsingFit.lean): the loop of `_fit` and the modes of `fit`; scikit-learn's logistic regression arbitrary | Invariant: the iterate is c x_r x_j off the diagonal, x the first sample, because the gradient uses only that sample and tanh is odd; the strength c follows a scalar recursion, which stays 0 for alpha n >= 1 and positive for alpha n < 1 with step size <= n/(d-1). |
| C190 | `poissonTimeNode`, `poissonTimeInner`, `fitTimePoisson` (Model/PoissonTime.lean): the neighbourhood fits inside the ADMM loop, `none` for a line search that never ends | Threshold: invariant that all variables of the loop are diagonal. Counterexample: the first step of the fit of a constant 0 on a constant 1 is accepted, afterwards the coupling term reverses the direction and by induction on the number of trials no step is accepted. |
| C191 | `nodeInit`, `nodeA`, `nodeV`, `nodeZ`, `nodeNext`, `nodeDiagnose`, `nodeBody`, `proxNodePenalty`, `nodeCall` (Model/NodeProx.lean): the loop of prox_node_penalty with batches of matrices, `none` for NaN | `inverse` is computed in closed form (2x the multiple of C C^T it should contain); V is the group prox of half of Y1 - Y2 - U1 - U2^T (the W terms cancel, a transposition the wrong way round); each pass is then a 4/5-contraction in one matrix, whose fixed point satisfies the first-order conditions of another convex problem. Counterexamples: a 1x1 run in closed form for every number of passes; a constant difference of inputs for which the second thresholding divides 0 by 0. |
| C192 | `NodeConstraint`, `nodeCost` (Model/NodeProx.lean): the problem handed to scipy's minimize, solved exactly | Cauchy-Schwarz per column; attained by a constant matrix. The true penalty is bounded below by half of every entry. |
| C193 | The optima of the solvers (C18, C102, C103, C157) and the passes of `glBody` (Model/GL.lean) | First-order conditions along the directions that change one entry, for sequences the same entry at all times so that the coupling drops out (Lemmas/Direction.lean); for calls the identity of the log-det step and the bound of the scaled dual variable. |
| C194 | Optima of two problems; whole calls of `timeGraphicalLasso` via C103 | Sum of the two variational inequalities, strong monotonicity of the inverse (tr X tr X' |.|^2), traces bounded by the inequality along -X. |
| C195 | Optima for two penalty weights; whole calls of `graphicalLasso` via C104 | Exchange argument; strict by uniqueness of the optimum. |
| C196 | Optima in two units; whole calls of `graphicalLasso` via C104 | Change of variables X -> X / c moves the objective by a constant. |
| C197 | `timePoissonObjectiveCode`, `poissonObjectiveMat` (Model/PoissonTime.lean) against an independent likelihood | Rewriting of sums; lower bound exp y - x y >= x - x log x; unboundedness from exp(y) >= y^2/2 along the constant networks. |
| C198 | `bayesFit` (Model/BayesSearch.lean): the evaluations change one estimator in turn, `argmin` with the numpy treatment of nan | Induction over the evaluated points; setting the same names again forgets the earlier values. |
| C199 | `proxFL`, `fbProx`, `fbUpdate` with the denoiser as an argument (Model/FL.lean, Model/FB.lean) | The denoised series of a concrete example is forced by Cauchy-Schwarz; objective values compared with rational bounds of square roots and logarithms. |
| C200 | `glwZ`, `glwBody`, `graphicalLassoW`, `gwAlpha`, `gwFitGL` (Model/GLWeights.lean), penalties as `Option` with `none` infinite | Restricted to the subspace of the zero pattern the penalty is finite and convex: existence by compactness, optimality by directional derivatives, convergence by the ADMM lemma `AdmmRun.converges`; the constrained optimum is characterised by its inverse (as in C147). |
| C201 | `glBody`, `graphicalLasso`, `updateRho` (Model/GL.lean, Model/Update.lean) | With alpha = 0 the multiplier and the first residual are zero at every pass, so a pass is a proximal step of the likelihood; strong monotonicity of the inverse on bounded sets gives the contraction, and the residual test of the adaptive rule is decided by whether the iterate moved. |
| C202 | same model as C18 | The Fejer inequality of C18 keeps the gap of the inverse; strong monotonicity and co-coercivity of the inverse on the bounded set of the run bound the whole distance by the decrease, hence a contraction with an explicit factor. |
| C203 | `bglMask`, `gwFit`, `bayesianGL` (Model/BayesGL.lean) composing `inBlanket`, `resampledGraph`, `fillUpper`, `gwFitGL`, `topMean` | Support and symmetry are carried through the composition: C146 for the drawn graphs, the fill of covsel or C200_pattern for the fits, linearity for the mean. |
| C204 | `objectiveKernel`, `constKernel`, `periodicKernel`, `autoBody`, `autoFit` (Model/AutoKernel.lean), `rbfKernel` (Model/Similarity.lean); the scalar optimiser is any function of the precisions | The sum over lags is re-indexed as a sum over pairs; each kernel entry off the diagonal is strictly monotone in the parameter; two passes of the loop are computed. |
| C205 | `timeGraphicalLasso`, `graphicalLasso` | On positive definite matrices the full absolute sum is the off-diagonal one plus the trace, so a time point's problem is n_t times a graphical lasso with shifted covariance; a sum of separate problems has the separate optima; convergence of both solvers (C103, C104) gives the agreement of the calls, the optimality conditions (C193) the variances. |
| C206 | `ticcNewBlocks`, `ticcOutDiag`, `ticcDiag`, `ticcNewBlock`, `ticcNewInv`, `ticcRow`, `ticcRows`, `ticcNewPrec`, `ticcSparsePrec` (Model/TiccNew.lean); rows are vectors of elements of any inner product space, white noise an orthonormal family | Case analysis of the block layout; a banded precision makes the regression on the whole past use the window only (Lemmas/Markov.lean, elimination of the future rows); induction over the rows. |
| C207 | `ticcWindowCov`, `ticcOldRow`, `ticcOldRows` (Model/TiccNew.lean), `condCov` | Induction over the first rows, where the window is the whole past; the coefficients of the regression are read off the last block row of the precision; the variance of the fourth row is computed from these. |
| C208 | `ticcV3Inv`, `ticcV3Mean`, `ticcV3Samples` (Model/TiccNew.lean) | The dictionary of blocks has one entry, so the blocks off the diagonal are zero; then the regression on the past is zero. |
| C209 | Model/EllSampler: the steps as functions of state and draws (z standard normal, u uniform), component loop as `sweep` | Tonelli and detailed balance give one-dimensional invariance, the coordinate is split off with piFinSuccAbove, the loop by induction over independent draws; lognormal proposals by change of variables |
| C210 | Model/EllSampler `hyperLogPost` (rows centred at their mean) against the Gaussian process log posterior of the specification | algebra of the centred quadratic form; witness with one series; invariance under a common trend |
| C211 | the models of the graphical lasso (Model/GL) and of the empirical covariance (Model/Estimators `empCov`) on the first rows of a stream; IidRows and popCov (Mathlib covariance) are the specification | optimality conditions C193 bound the fitted covariance, perturbation of the inverse with traces, strong law of large numbers for the products of entries, C104 for the calls |
| C212 | the models of the time-varying solver (Model/TGL), objectives of Spec/Objectives and Spec/Temporal | comparison of the optimum with the sample precisions bounds the Bregman distance of -log det at each time point by penalty / n_t; a spectral bound turns this into a distance; strong law and C103 for the calls |
| C213 | glObjective and `empCov` on the first rows of a stream; precGraph with Mathlib reachability as specification | no edge between groups by C185 (population covariances between components vanish), all edges by C211_edges; Chebyshev's inequality for the means of products of pairwise independent rows |
| C214 | blanketDesign / r2Score / blanketScore with LassoLars replaced by any minimiser of the documented objective (Spec/LassoFit, with or without normalised columns); np.random.choice as a discrete law, independent across nodes and resamples | comparing with the constant prediction bounds the residual; probability of a product set for the edges and for the complement over resamples |
| C215 | nodeLasso solutions for each variable (what the fits converge to, C152) assembled by buildAdjacency; populations as laws of rows with Mathlib probability | residual correlations bounded by alpha, curvature of the sample close to that of the population; normal equations of the population solved by the columns of the inverse; strong law; counterexample rows: standard normal shifted to mean one |
| C216 | plot_cov_2d and plot_cov_ellipse point by point; eigh as a contract, arctan2 as Complex.arg, the matplotlib patch as its documented outline | the inverse computed in the eigenbasis; circle parametrised by the angle; concrete covariances for the false parts |
| C217 | the Poisson neighbourhood regressions as modelled for C172, C175 and C188, on rows drawn from a law | first-order conditions of the penalised loss; strong law of large numbers for the statistic at zero; Poisson product measures as witnesses |
| C218 | the generator statement by statement with arbitrary rankings and shuffles, exceptions as values (Model/SparseLatent.lean); samples left out | invariants of the loops (symmetric, two values, at most 2h connections per row), diagonal dominance, bound on the Schur term, induction over the times; witnesses for few nodes and for the shift |
| C219 | distances, thresholded probabilities and the ranking with arbitrary ties (Model/MYNodes.lean) | counting argument on the sorted ranking; witness with all thresholds above 0.8 |
| C220 | the moves with arbitrary draws of size at most 0.03 (Model/MYNodes.lean) | induction over the times; witness of a node leaving |
| C221 | likelihoods and means in one dimension with the Gamma function (Model/WishartMean.lean) | Gamma integrals, substitution for the inverse; divergence of the first moment for few degrees of freedom |
| C222 | the normalisation of the distances already modelled for the two estimators | quadratic forms of 3 by 3 tables; explicit vectors with negative quadratic form |
| C223 | the bisection as a recursion with 100 passes over real arithmetic, eigendecomposition as hypothesis (Model/GroupOld.lean) | strict monotonicity of t*norm(x(t)), intermediate value theorem, invariant of the bisection, first order condition; witness outside the interval |
| C224 | the attributes set by fit from an arbitrary selected state (Model/WPFit.lean), pseudo-inverse by the Moore-Penrose conditions | outer product form, uniqueness of the pseudo-inverse, a vector in the kernel |
| C225 | the chain with arbitrary proposals and acceptances, selection by the first largest recorded likelihood, shared history of factors (Model/WPFit.lean) | invariant over the iterations; witness of two iterations |
| C226 | centring, one solver call per target, intercept and prediction with an arbitrary solver; shapes of np.squeeze and np.dot (Model/GroupFit.lean) | the loss splits into that of the centred data and a square of the mean residual; case analysis of the shapes |
| C227 | sorted classes, columns of 1 and -1, one regression per column, threshold or first largest value (Model/GroupClassifier.lean) | columns of two classes are opposite, so their decision values are; simulation of the solver's loop with opposite variables for C227_odd; counting for the model without coefficients |
| C228 | the model of C168-C176 (Model/Lasso.lean) with an empty list of groups or a feature in none | the counts vanish, so the update is the normal equation; the primal residual is at least the uncovered coefficient |
| C229 | rows of coef_ as lists, assigned target by target with numpy's index and length errors (Model/WarmStart.lean) | induction over the targets with the rows already written in front |
| C230 | lines of the file with possibly missing labels, written row by row with or without header, parsed and passed to the model of C136 (Model/NetworkFile.lean) | at most one line is dropped, and every edge has two; C136 for the entries |
| C231 | Python's backward slice with its negative stop, applied to any ascending order of the weights (Model/Topics.lean) | induction shows the slice equals the first n of the reversed order; sortedness gives the rest |
| C232 | shapes of the blocks, check_array in order, np.array by release, np.unique test (Model/Input3d.lean) | induction on the list; case analysis of the stacking step |
| C233 | the loop over the edges of any random graph and the loop over all entries with any draws (Model/InvCov.lean) | induction over the edges: entries on edges are couplings, others untouched; counting of distinct edges |

## Modelled lines

Lines of each source file cited by a definition of the model (generated by tools/mkdesign.py from the doc
comments). Simplifications are stated in the comment of the definition. Everything else is not modelled.

| file | lines modelled | model |
|------|----------------|-------|
| regain/bayesian/_laplace_approximation.py (95 lines) | 35-36, 39-40, 48-55, 81-93 | GWishart |
| regain/bayesian/gwishart_inference.py (509 lines) | 50-69, 72-79, 97-99, 101-107, 112-114, 117-128, 137-139, 141-143, 145-148, 178-185, 187-198, 220-221, 224-227, 233-234, 254-255, 262-268, 271-279, 287-309, 323-347, 350, 374-395, 456-480, 482-509 | BayesGL, Blankets, GLWeights, GWishart, OptionTable |
| regain/bayesian/sampling.py (252 lines) | 39-42, 45-252 | Bayes, EllSampler, WPFit |
| regain/bayesian/stats.py (87 lines) | 36-46, 49-55, 58-63, 66-69, 72-87 | Bayes, Wishart |
| regain/bayesian/wishart_distribution_.py (261 lines) | 50-52, 54-56, 58-74, 76-77, 91-94, 96-99, 101-116, 146-149, 163-183, 185-188, 190-200, 202-229, 231-234 | Bayes, Wishart, WishartMean |
| regain/bayesian/wishart_process_.py (394 lines) | 54, 83-163, 166-209, 212-217, 225-262, 264-356, 358 | Bayes, OptionTable, WPFit, Wishart |
| regain/clustering.py (79 lines) | 36-44, 47-57, 60-79 | Clustering |
| regain/covariance/graphical_lasso_.py (338 lines) | 50-52, 54-56, 59-78, 81-95, 149-203, 264-292, 294-318, 320-338 | Estimators, GL, GLWeights, Init, Loop, Objective, OptionTable |
| regain/covariance/infimal_convolution_.py (172 lines) | 46-51, 54-67, 111-172 | Infimal, Objective |
| regain/covariance/kernel_latent_time_graphical_lasso_.py (901 lines) | 56-72, 75-96, 135-392, 467-507, 509-519, 521-595, 670-720, 722-732, 734-895, 897-901 | KernelArgs, Objective, OptionTable, Options, Temporal |
| regain/covariance/kernel_time_graphical_lasso_.py (820 lines) | 60-74, 77-96, 136-315, 318-332, 349-362, 429-465, 467-578, 645-686, 688-820 | AutoKernel, KernelArgs, OptionTable, Options, Similarity, Temporal |
| regain/covariance/latent_graphical_lasso_.py (321 lines) | 48-52, 55-69, 121-182, 250-278, 280-290, 292-321 | LGL, Objective, OptionTable |
| regain/covariance/latent_time_graphical_lasso_.py (518 lines) | 48-63, 66-86, 139-348, 433-469, 471-481, 483-518 | Estimators, Objective, OptionTable, Temporal |
| regain/covariance/latent_time_matrix_decomposition.py (487 lines) | 47-54, 57-76, 114-317, 402-438, 440-470, 472-487 | Objective, OptionTable, Temporal |
| regain/covariance/missing_graphical_lasso_.py (322 lines) | 44-61, 64-73, 76-79, 82-194, 258-286, 288-322 | Missing, OptionTable |
| regain/covariance/time_graphical_lasso_.py (584 lines) | 54-66, 69-83, 86-105, 156-301, 374-412, 414-423, 425-459, 461-500, 502-550, 552-584 | Estimators, FB, NodeProx, OptionTable, TGL, Utils |
| regain/datasets/base.py (243 lines) | 56-122, 125-146, 149-243 | Datasets |
| regain/datasets/gaussian.py (691 lines) | 43-65, 68-93, 97-111, 120-135, 138, 141-248, 251-270, 273-318, 321-336, 339-353, 356-364, 367-442, 445-480, 483-514, 517-556, 559-593, 618, 621-659, 662-691 | Datasets, Gaussian, MYNodes, SparseLatent |
| regain/datasets/ising.py (350 lines) | 3, 39-63, 120-133, 136-143, 146-159, 162-198, 201-232, 235-247, 250-271, 274-350 | Datasets, GraphGen, Ising, IsingTop, MultiClass |
| regain/datasets/kernels.py (691 lines) | 46-77, 80-132, 135-160, 163-207, 210-215, 236-244, 264-293, 295-300, 313-453, 456-591, 613-616, 620-669 | Datasets, InvCov, Kernels, TiccNew |
| regain/datasets/multi_class.py (256 lines) | 39-100, 143-165, 169-174, 179-187, 225-232, 234-239, 241-246 | Datasets, MultiClass |
| regain/datasets/poisson.py (207 lines) | 35-48, 57, 104-118, 121-129, 173-188, 190-203 | Datasets, GraphGen, Ising, PoissonGibbs |
| regain/discriminant_analysis.py (205 lines) | 88-91, 93-142, 145-158, 160-168, 170, 200-201, 203-205 | Estimators, OptionTable |
| regain/forward_backward/forward_backward.py (166 lines) | 36-37, 54-98, 101-118, 128-166 | FB |
| regain/forward_backward/time_graphical_lasso_.py (576 lines) | 57-67, 99-111, 139-390, 466-514, 516-576 | FB, OptionTable, Options |
| regain/generalized_linear_model/base.py (62 lines) | 19-36, 40-58, 61-62 | GLM, OptionTable |
| regain/generalized_linear_model/glm_gaussian.py (201 lines) | 42-45, 65-68, 72-91, 157-201 | GLM, OptionTable |
| regain/generalized_linear_model/glm_ising.py (327 lines) | 46-59, 68-87, 89-172, 227-258, 260-324, 326 | GLM, IsingFit, OptionTable, TimeGLM |
| regain/generalized_linear_model/glm_poisson.py (288 lines) | 44-50, 53-61, 64-70, 73-160, 216-245, 247-248, 250-285, 287 | GLM, OptionTable, Poisson, PoissonTime |
| regain/generalized_linear_model/glm_time_ising.py (786 lines) | 48-55, 58-69, 72-314, 374-406, 408-409, 411-532, 534-564, 567-576, 636-673, 675-780, 782-786 | AutoKernel, OptionTable, Options, Similarity, TimeGLM |
| regain/generalized_linear_model/glm_time_poisson.py (787 lines) | 49-53, 56-67, 70-293, 296-310, 371-402, 404-405, 407-528, 530-560, 627-670, 672-781, 783 | AutoKernel, GLM, OptionTable, PoissonTime, TimeGLM |
| regain/linear_model/_group_lasso_overlap_old_.py (170 lines) | 151-170 | GroupOld |
| regain/linear_model/group_lasso_.py (144 lines) | 43-135, 138-141 | Lasso |
| regain/linear_model/group_lasso_overlap_.py (564 lines) | 65-72, 75-88, 91-180, 184-237, 239-428, 431-433, 436-448, 450-466, 469-493, 562-564 | Glopridu, GroupClassifier, GroupFit, Lasso, OptionTable, WarmStart |
| regain/linear_model/lasso_.py (134 lines) | 41-118, 121-122, 127-131 | Lasso |
| regain/math.py (27 lines) | 4-9, 12-13, 16-18, 21-27 | Prox, Scores, TGL |
| regain/model_selection/_bayesian_optimization.py (280 lines) | 197-261, 273-280 | BayesSearch |
| regain/model_selection/stability_optimization.py (690 lines) | 54-92, 95-151, 154-182, 185-198, 272-305, 307-487, 489-643, 645 | OptionTable, Options, Stability, StabilityMore |
| regain/norm.py (78 lines) | 42-44, 47-49, 52-55, 58-78 | NodeProx, Prox, Validation |
| regain/plotting/covariance.py (111 lines) | 54-62, 64, 88-91, 93-111 | Ellipse |
| regain/plotting/plotly.py (359 lines) | 43-47, 50-52, 55-62, 65-67, 77-78, 81-85, 87 | Plotting |
| regain/prox.py (304 lines) | 49-51, 54-58, 61-63, 66-69, 72-78, 81-116, 119-124, 127-136, 139-147, 150-159, 162-164, 167-239, 242-285 | FL, GLWeights, NodeProx, Prox, Validation |
| regain/scores.py (122 lines) | 36-38, 41-43, 46-50, 53-66, 69-82, 85-91, 94-106, 109-122 | Scores |
| regain/update_rules.py (53 lines) | 35-46, 49-53 | Update |
| regain/utils.py (667 lines) | 51-71, 74-80, 83-96, 99-106, 115-130, 133-141, 174-178, 181-185, 188-190, 193-244, 252-258, 261-267, 270-276, 279-292, 295-306, 309-314, 317-395, 398-432, 435-540, 543-587, 590-594, 597-608, 611-614, 617-629, 632-643, 646-667 | Lasso, Metrics, NetworkFile, TGL, Topics, Utils, UtilsMore |
| regain/validation.py (117 lines) | 44-63, 66-85, 88-105, 108-117 | Input3d, Validation |
| regain/wrapper/__init__.py (161 lines) | 108 | OptionTable |
| regain/wrapper/paspal/glopridu.py (251 lines) | 15-149, 152-251 | Glopridu, OptionTable |

Not modelled at all: regain/bayesian/gaussian_process_.py, regain/data/base.py, regain/plotting/graph.py, regain/plotting/results.py.

## Findings

Properties the code does not have, or has only in part. Each entry names the theorems with the witnesses and
the part which is proved. (Generated from MANIFEST.json by tools/mkdesign.py.)

* **C04, blockwise_soft_thresholding is the exact column-group proximal map and never produces NaN.** Code disagrees: lamda = 0 with a zero column gives NaN. Exact for lamda > 0 or no zero column.
  Refuted: `C04_blockwise_soft_thresholding_nan_false`, `C04_full_statement_false`.
  Holds: `C04_blockwise_soft_thresholding_partial`.
* **C05, blockwise_soft_thresholding_symmetric agrees with the column-group proximal map.** Code disagrees: any zero column turns the whole result into NaN. Exact when no column is zero.
  Refuted: `C05_full_statement_false`.
  Holds: `C05_blockwise_symmetric_partial`.
* **C14, graphical_lasso reports the number of iterations it performed and warns exactly when it did not converge.** Code disagrees: n_iter is one less than the iterations performed when the loop breaks or ends; max_iter = 0 raises NameError. All other clauses proved.
  Refuted: `C14_n_iter_false`.
  Holds: `C14_outcome_partial`.
* **C17, over-relaxation does not change the solution graphical_lasso converges to.** Code disagrees for over_relax other than 1; exact relation at stationary states proved, witness in dimension 1.
  Refuted: `C17_over_relax_false`.
  Holds: `C17_over_relax_partial`.
* **C20, a stationary state of latent_graphical_lasso solves the documented sparse + low-rank problem.** Code soft-thresholds the diagonal too: optimality proved for the full l1 norm, the documented off-diagonal objective refuted by a witness.
  Refuted: `C20_diagonal_false`.
  Holds: `C20_stationary_partial`.
* **C21, a stationary state of time_graphical_lasso solves the documented time-varying problem.** Any number of time points, any convex temporal penalty with exact prox. Diagonal is penalised by the code: optimality for the full l1 norm proved, off-diagonal objective refuted for every T.
  Refuted: `C21_diagonal_false`.
  Holds: `C21_stationary_partial`.
* **C24, check_norm_prox returns a penalty together with its own proximal map.** Code disagrees: l2 norm pairs with a different prox, linf prox is not the prox of the max norm. Proved for l1, laplacian and the group case.
  Refuted: `C24_l2_false`, `C24_linf_false`.
  Holds: `C24_matching_partial`.
* **C28, error_norm is a squared distance restricted to the entries the caller selects.** Code disagrees: nonzero=True is not a norm of the difference on nonzero entries. Other options proved.
  Refuted: `C28_nonzero_false`, `C28_nonzero_counterexample`.
* **C30, mean_structure_error returns a summary for every non-empty list of predictions.** Code disagrees: every non-empty call raises KeyError; only the empty call succeeds.
  Refuted: `C30_mean_structure_error_false`.
  Holds: `C30_empty_partial`.
* **C36, load_pickle(f) after save_pickle(obj, f) returns obj.** Code disagrees: save appends .pkl, load does not; true exactly for names ending in .pkl.
  Refuted: `C36_roundtrip_false`, `C36_counterexample`.
  Holds: `C36_roundtrip_partial`.
* **C38, retain_top_n keeps exactly n entries, all at least as large in magnitude as every dropped one.** Every argpartition outcome for 1 <= n <= size; the n = 0 clause is false (raises or keeps everything).
  Refuted: `C38_zero_false`.
* **C40, build_adjacency_matrix returns a symmetric graph that treats both directions alike.** Code disagrees: union weight is a_ij/4 + a_ji/2 and estimates may cancel.
  Refuted: `C40_union_direction_false`, `C40_union_cancel_false`, `C40_intersection_cancel_false`.
  Holds: `C40_union_partial`, `C40_intersection_partial`.
* **C41, the Ising gradient uses every sample.** Code disagrees: only the first sample is used; correct for one sample.
  Refuted: `C41_first_sample_false`, `C41_counterexample`.
  Holds: `C41_single_sample_partial`.
* **C42, Poisson estimators reject data with negative entries.** Code disagrees: no data is ever rejected.
  Refuted: `C42_never_rejects_false`, `C42_counterexample`.
* **C43, backtracking in choose_gamma stops only at an admissible step.** First admissible trial returned with its own proximal point; on exhaustion the point belongs to the previous step size (C43_exhausted_false); max_iter=0 raises NameError.
  Refuted: `C43_exhausted_false`.
  Holds: `C43_returned_partial`.
* **C44, every documented choose option of tgl_forward_backward is usable.** 'gamma' and 'fixed' return for all inputs with T>=2; 'lamda' and 'both' always raise TypeError (unknown keyword vareps); the documented spelling 'lambda' raises ValueError; the default n_samples=None raises TypeError.
  Refuted: `C44_documented_lambda_false`, `C44_lamda_false`, `C44_default_samples_false`.
  Holds: `C44_usable_partial`.
* **C46, lasso's stationary states solve the lasso problem for every over-relaxation.** Fixed points, existence, convergence for relaxation in (0,2) and termination are proved. The return-shape clause fails for every call: lasso returns a pair even without return_history, and only the last history entry with it.
  Refuted: `C46_return_false`, `C46_history_false`.
* **C47, group_lasso accepts exactly the partitions of the features and monitors both residuals.** All three clauses fail: valid partitions in another order are rejected (and two degenerate non-partitions accepted), the dual residual is always 0 because zold aliases z, and the group step is entrywise soft-thresholding, so the solver provably returns the plain lasso solution.
  Refuted: `C47_guard_false`, `C47_dual_residual_false`, `C47_dual_residual_counterexample`, `C47_group_step_false`.
  Holds: `C47_accepts_partial`.
* **C50, stability selection chooses a parameter whose instability is at most 0.05 when one exists.** The monotonised curve excludes the candidate itself, so the selected candidate may have any instability. What holds is proved: every earlier candidate has instability at most 0.05; the second candidate is never selected.
  Refuted: `C50_stars_false`.
  Holds: `C50_monotonized_partial`, `C50_selected_partial`.
* **C52, the Metropolis-Hastings and direct Ising samplers target the same distribution.** p_plus is the conditional probability of the Ising model counting each pair once; hamiltonian counts every pair twice, so the two samplers target different distributions (counterexample).
  Refuted: `C52_hamiltonian_false`.
  Holds: `C52_hamiltonian_partial`.
* **C53, generated Ising/Poisson graphs stay symmetric with zero diagonal.** Symmetry for all streams; zero diagonal and the bound on the number of changed edges fail when a round containing an equal pair is rejected, since its edits are kept (counterexamples); both hold when the first round is accepted. The Poisson update keeps the zero diagonal and only removes edges.
  Refuted: `C53_ising_false`, `C53_poisson_false`.
  Holds: `C53_changes_partial`, `C53_first_round_partial`.
* **C58, KernelTimeGraphicalLasso accepts a precomputed kernel matrix.** False in the code: kernel or np.identity(..) evaluates the truth value of an array and raises ValueError for every kernel with two or more times (C58_array_false). None, callables, 1x1 arrays and the similarity class behave as documented.
  Refuted: `C58_array_false`.
  Holds: `C58_kernel_partial`.
* **C59, KernelLatentTimeGraphicalLasso uses the latent penalty phi it is given.** False in the code: phi is stored but never passed to the solver; in the similarity class eta is ignored too (C59_phi_false, C59_eta_false).
  Refuted: `C59_phi_false`, `C59_eta_false`.
  Holds: `C59_plumbing_partial`.
* **C60, missing-data imputation never changes observed entries.** Observed entries are kept and imputed values are conditional means divided by a common c>=1; the claim that they are the conditional means is false (C60_imputation_false): compute_cs divides by max(max|cs|,1), and compute_mean returns the column sums.
  Refuted: `C60_imputation_false`.
  Holds: `C60_conditional_mean_partial`.
* **C61, EBIC and EBIC_m penalise at least as much as BIC, as documented.** Code disagrees with its docstring: EBIC penalises less than BIC for all practical sizes.
  Refuted: `C61_ebic_false`, `C61_ebic_zero_false`.
  Holds: `C61_ebicM_partial`.
* **C62, EBIC_t is the sum of the per-time EBIC scores.** Code disagrees: log(T p) is used instead of log p.
  Refuted: `C62_ebicT_false`.
  Holds: `C62_ebicT_one_partial`.
* **C63, Gaussian_GLM_GM uses the tol, max_iter and gamma it is given.** Code disagrees: only alpha reaches the fit.
  Refuted: `C63_options_ignored_false`, `C63_counterexample`.
  Holds: `C63_alpha_partial`.
* **C65, the Poisson line search accepts a proximal gradient step of sufficient decrease.** Code disagrees: after a rejection the accepted point is two stale steps from the old iterate.
  Refuted: `C65_line_search_false`.
  Holds: `C65_line_search_partial`, `C65_first_trial_partial`.
* **C70, tgl_forward_backward returns positive definite precisions.** False: mode 'gamma' accepts negative definite points with positive determinant; witnesses for an identity start and for the documented init='zero'.
  Refuted: `C70_identity_start_false`, `C70_zero_start_false`.
* **C71, tgl_forward_backward handles a single time point.** False: AxisError in the l1 mode, IndexError in the Laplacian mode.
  Refuted: `C71_single_time_false`.
* **C74, group_lasso_overlap's stationary states solve the documented problem.** The documented problem is not solved; the stationary states solve the lasso weighted by the number of groups containing each feature.
  Refuted: `C74_overlap_false`.
  Holds: `C74_weighted_lasso_partial`.
* **C77, ordering the parameter grid preserves the candidates.** True for a single grid; lists of grids are merged into one grid, losing or inventing candidates.
  Refuted: `C77_grids_false`.
* **C78, Ising samples come back as a matrix of shape (n, n_dim_obs).** MH with n >= 2 proved; n = 1 gives a vector; the direct method gives rows of length 10 for every graph.
  Refuted: `C78_single_false`, `C78_direct_false`.
  Holds: `C78_mh_shape_partial`.
* **C80, the bounds used by coupling from the past bracket the conditional probability.** Second response positive (both documented choices); fails for nonpositive second response.
  Refuted: `C80_nonpositive_response_false`.
* **C82, constraints are honoured by coupling from the past.** The argument is not read.
  Refuted: `C82_cftp_constraints_false`.
* **C83, graph sequences are symmetric and use the given responses.** Symmetry and length proved; responses are not passed to the update (counterexample).
  Refuted: `C83_responses_false`.
* **C84, the local Poisson sampler sums the counts of a node, its edges and the noise.** Symmetric 0/1 graphs and nonzero rate; otherwise ValueError (counterexamples).
  Refuted: `C84_mismatch_false`.
* **C85, graph_k_means returns a finite similarity kernel.** nan for identical graphs.
  Refuted: `C85_identical_false`.
  Holds: `C85_finite_partial`.
* **C86, the slice threshold implements the likelihood ratio.** The threshold uses 0.001 log u: the ratio enters to the power 1000.
  Refuted: `C86_acceptance_false`.
  Holds: `C86_acceptance_partial`.
* **C87, the Wishart process chain can reach states outside a line.** The negation is proved for all runs.
  Refuted: `C87_always_multiple_false`.
* **C88, t_mvn_logpdf is the log-density of the data.** Each time is weighted by its number of samples.
  Refuted: `C88_weighted_false`.
  Holds: `C88_weighted_partial`.
* **C91, the history of L holds the values of the iterations.** The negation is proved for all runs in which L changes.
  Refuted: `C91_history_false`.
* **C92, covariance_ of MissingGraphicalLasso is the empirical covariance of the completed data.** False as stated: the returned matrix is divided by its largest entry, so it does not change when the data are rescaled (C92_scale_false). The normal form that does hold is C92_covariance_partial.
  Refuted: `C92_scale_false`.
  Holds: `C92_covariance_partial`.
* **C93, MissingGraphicalLasso's iteration count, history and warning describe the run.** Stopping index and warning hold; the reported count is one less than the number of iterations and max_iter=0 raises UnboundLocalError; history stores the log-likelihood function instead of values.
  Refuted: `C93_n_iter_false`.
  Holds: `C93_outcome_partial`.
* **C94, Kernel time-varying graphical lasso: a fixed point solves the documented problem.** Proved for the full l1 norm (diagonal included), which is what the code thresholds; the documented off-diagonal norm is refuted for every number of time points and every kernel. Convergence of the runs is C102.
  Refuted: `C94_diagonal_false`.
  Holds: `C94_stationary_partial`.
* **C96, Latent variable time-varying graphical lasso: a fixed point solves the documented problem.** Proved for the full l1 norm; the off-diagonal norm is refuted. Fixed points only; runs are treated in C158.
  Refuted: `C96_diagonal_false`.
  Holds: `C96_stationary_partial`.
* **C97, Latent variable kernel time-varying graphical lasso: a fixed point solves the documented problem.** Proved for the full l1 norm; the off-diagonal norm is refuted. Fixed points only; runs are treated in C158.
  Refuted: `C97_diagonal_false`.
  Holds: `C97_stationary_partial`.
* **C99, Latent temporal matrix decomposition: a fixed point solves the documented problem.** Proved for the full l1 norm; the off-diagonal norm is refuted. Fixed points only; runs are treated in C156.
  Refuted: `C99_diagonal_false`.
  Holds: `C99_stationary_partial`.
* **C100, Infimal convolution solves the problem its documentation announces.** The fixed points solve the squared-loss problem with the full l1 norm; the log-likelihood problem of the docstring is refuted, and so is the off-diagonal norm. The returned iteration count is one too small (C100_call). Convergence of the runs is C155.
  Refuted: `C100_loglik_false`, `C100_diagonal_false`.
  Holds: `C100_stationary_partial`.
* **C101, Temporal solvers: history, iteration count and warning agree.** History and warning proved; the returned count of the three latent solvers is one too small in every call (C101_count_false); the kernel solver without latent variables is right (C101_kernel).
  Refuted: `C101_count_false`.
  Holds: `C101_history_partial`.
* **C106, make_covariance returns a consistent, positive definite sequence.** The shape of the result is proved. Positive definiteness of the observed precisions after the first time is false: the only repair, adding epsilon plus the diagonal of the latent part, is not enough (C106_posdef_false).
  Refuted: `C106_posdef_false`.
  Holds: `C106_structure_partial`.
* **C107, make_fixed_sparsity keeps the matrices valid and the sparsity fixed.** Validity is proved. The pattern is not fixed: nonzeros is computed from theta - np.diag(theta), which subtracts the diagonal from every row, so zero entries receive noise (C107_sparsity_false).
  Refuted: `C107_sparsity_false`.
  Holds: `C107_valid_partial`.
* **C108, make_sin returns periodic positive definite precisions.** Validity is proved for every input; normalize=True is ignored because map is lazy in Python 3 (C108_normalize_false).
  Refuted: `C108_normalize_false`, `C108_normalize_ignored_false`.
  Holds: `C108_valid_partial`.
* **C109, make_sin_cos returns one observed precision per time.** Validity is proved; thetas_obs is reassigned inside the loop, so only the last observed precision is returned (C109_observed_false), and T=0 raises NameError.
  Refuted: `C109_observed_false`, `C109_observed_count_false`.
  Holds: `C109_valid_partial`.
* **C110, make_fede returns positive definite observed precisions.** Positive definiteness is proved when the threshold is off (epsilon <= 0); with the default epsilon=1e-3 it fails for some draws (C110_posdef_false). The orthogonal factors are any orthogonal matrices.
  Refuted: `C110_posdef_false`.
  Holds: `C110_valid_partial`.
* **C111, Ma-Xue-Zou generators return marginals of a Gaussian with the requested latent variables.** The marginal statement is proved for every draw. The argument n_latent is not used: below 20 observed variables there is no latent variable at all (C111_latent_count_false). make_ma_xue_zou_rand_k overwrites the positive definite matrix with A, which is never positive definite once an observed pair is chosen (C111_rand_k_false).
  Refuted: `C111_latent_count_false`, `C111_rand_k_false`.
  Holds: `C111_marginal_partial`.
* **C113, make_dataset offers the documented modes and returns consistently laid out data.** The layout and the rejections are proved. False: documented modes evolving, fixed, l1, l1l2 raise ValueError; offered modes my, mys, ticc never return; degree is ignored for Ising and Poisson data.
  Refuted: `C113_documented_modes_false`, `C113_offered_modes_false`, `C113_degree_false`.
  Holds: `C113_layout_partial`, `C113_dispatch_partial`, `C113_graph_layout_partial`.
* **C114, make_exp_sine_squared returns positive definite precisions.** Proved for the joint precision and without latent variables; false with latent variables (AssertionError for some samples).
  Refuted: `C114_latent_false`.
  Holds: `C114_valid_partial`.
* **C116, multi-class networks are valid graphs.** Symmetry proved; at most two pairs change per class; self-loops and indefinite Gaussian networks occur.
  Refuted: `C116_selfloop_false`, `C116_posdef_false`.
  Holds: `C116_classes_partial`, `C116_gauss_partial`.
* **C117, make_cluster_representative returns T symmetric precisions.** Count proved: T or T + 1; the precisions are not symmetric; too few times raise ZeroDivisionError.
  Refuted: `C117_symmetry_false`.
  Holds: `C117_count_partial`.
* **C118, make_ticc_dataset labels times and clusters consistently.** Proved when T is a multiple of len(clusters) and each segment is cut evenly; false for the default arguments (ValueError; AssertionError in make_ticc_dataset_new).
  Refuted: `C118_default_false`, `C118_condition_false`, `C118_new_default_false`.
  Holds: `C118_labels_partial`.
* **C121, The score of a time-varying estimator is the Gaussian log-likelihood.** Partial: the returned number is 2*loglik + N*p*log(2*pi), not the log-likelihood; counterexamples for absent classes (nan; ValueError with scikit-learn releases that validate the empty block) and indefinite matrices.
  Refuted: `C121_absent_class_false`, `C121_indefinite_false`.
  Holds: `C121_score_partial`.
* **C122, DiscriminantAnalysis applies the Bayes rule of the fitted Gaussians.** The decision rule, alignment and error cases are proved; two counterexamples: the wrapped estimator is modified in place with ensure_posdef, and latent variable estimators are used with the covariance of precision_ rather than of the observed precision.
  Refuted: `C122_estimator_modified_false`, `C122_latent_false`.
* **C124, Time-varying network estimators solve the documented problem.** False as documented: A is divided by n_times although only n_times - 1 consensus terms are summed (there is no Z_0 here), so the fixed points carry an extra ridge penalty rho/2 * sum ||K_t||^2. C124_stationary_partial proves the corrected statement for an exact inner fit; C124_inner_partial proves the inner contract for fixed points of the Ising step on one sample (several samples: see C41).
  Refuted: `C124_rho_false`.
  Holds: `C124_stationary_partial`, `C124_inner_partial`.
* **C125, Options of the time-varying network estimators.** False in several places: any two values are accepted and constant spin data rejected; array kernels and ker_param='auto' never work; SimilarityTemporalPoissonModel cannot be constructed; score is a constant.
  Refuted: `C125_values_false`, `C125_options_false`, `C125_similarity_false`, `C125_score_false`.
* **C126, Reported objective of the time-varying Ising model.** False: the loss enters the reported objective with the wrong sign (it differs from the documented objective by twice the loss).
  Refuted: `C126_sign_false`.
  Holds: `C126_value_partial`.
* **C127, The learned similarity table is a similarity.** The property holds as soon as two networks differ (`_partial`). If all networks are equal, or with a single time, every entry is nan (0/0), also on the diagonal. The Ising version ignores `psi` and the diagonals.
  Refuted: `C127_equal_false`, `C127_ising_psi_false`.
  Holds: `C127_gaussian_partial`, `C127_ising_partial`.
* **C128, The similarity estimators return networks and clusters that agree with the similarity they expose.** When the loop breaks, the exposed table is the similarity of the returned networks, which are a fixed point of the alternation. When the rounds run out, `similarity_matrix_` is the kernel of the last fit (diagonal 2). The similarity table is passed to the clustering as a table of distances, so the most different networks are merged first and equal networks are separated. `init="zeros"` (or any init with equal networks) raises ValueError for all data. With a given kernel `transform` raises NotFittedError. The inner solver and the linkage are arguments of the model (see C-claims on the solver for the former).
  Refuted: `C128_unconverged_false`, `C128_equal_init_false`, `C128_given_kernel_false`, `C128_clusters_false`.
  Holds: `C128_converged_partial`, `C128_ising_converged_partial`.
* **C129, Estimators keep the parameters they were constructed with.** Holds for 17 classes. `ker_param` of SimilarityTimeGraphicalLasso and SimilarityTemporalIsingModel is not handed to the parent: the stored value is always the default. get_params of WishartProcess (four priors) and PrecomputedDiscriminantAnalysis raises AttributeError. SimilarityTemporalPoissonModel cannot be constructed (TypeError). burn_in, groups, priors, cv and param_grid are rewritten by the constructors; a given cv is ignored.
  Refuted: `C129_ker_param_false`, `C129_get_params_false`, `C129_poisson_false`, `C129_rewritten_false`.
  Holds: `C129_kept_partial`.
* **C130, Options given to an estimator reach its solver.** Holds for 15 solver calls. `phi` of the kernel-based latent estimators never reaches the solver. A list of options has no effect at all on what the solver receives (mode, suppress_warn_list, beta of KernelTimeGraphicalLasso, assume_centered in three classes, and others). Local expressions are assumed to read only the attributes that the text of the class reads.
  Refuted: `C130_phi_false`, `C130_ignored_false`.
  Holds: `C130_reached_partial`.
* **C131, fit leaves the constructor parameters as they are.** Holds for 18 classes. n_clusters of the similarity estimators, alpha="max" of the forward-backward estimator, alphas of BayesianGraphicalLasso, and sampling_size and cv of the stability selection are overwritten by the first fit. Methods inherited from scikit-learn are assumed not to assign constructor parameters.
  Refuted: `C131_assigned_false`, `C131_clusters_false`, `C131_sampling_false`, `C131_alpha_max_false`.
  Holds: `C131_stable_partial`.
* **C132, The objective values in the history are those of the documented problem.** Values at consensus for all eight solvers, and limits for all of them at a constant penalty parameter: unconditional for graphical_lasso, the two time-varying solvers, infimal_convolution (penalty below 2), latent_time_matrix_decomposition (penalty below 4) and latent_graphical_lasso with tau >= d alpha; for the latent solvers with small penalties and small penalty parameter (C132_*_small_penalties); otherwise under the hypotheses of C158 and C161. The limit is the documented objective at the limit of the estimates, which minimises the problem with the full l1 norm (C94, C99), hence not always the documented one. C132_domain_false: the domain is only tested through the sign of the determinant, so an indefinite matrix with positive determinant gets a finite value instead of inf (first entry with init=-I and two variables).
  Refuted: `C132_domain_false`.
  Holds: `C132_latent_limit_partial`, `C132_latent_time_limit_partial`, `C132_kernel_latent_limit_partial`.
* **C136, read_network returns a symmetric non-negative matrix made of the heaviest rows.** partial because the docstring's positive definiteness fails (C136_posdef_false) and an odd row count loses a row (C136_odd_false); files with targets missing from the first column and negative thresholds are not modelled
  Refuted: `C136_posdef_false`, `C136_odd_false`.
* **C137, The definiteness checks decide definiteness up to the tolerance.** partial because asymmetric input is judged by its lower triangle (C137_asymmetric_false)
  Refuted: `C137_asymmetric_false`.
* **C138, logentropy_normalize damps counts without losing or reordering them.** partial because evenly spread terms keep a positive weight (C138_uniform_false)
  Refuted: `C138_uniform_false`.
* **C139, error_norm_time and error_rank measure the difference of two sequences.** partial because different lengths are cut silently (C139_length_false)
  Refuted: `C139_length_false`.
* **C140, alpha_heuristic depends on the largest variance, squared.** partial because of the quadratic scaling (C140_units_false)
  Refuted: `C140_units_false`.
* **C142, The normal-inverse-Wishart posterior is Bayes' rule.** Conjugacy, mode, marginal and predictive are proved for the parameters; C142_posterior_object_false: posterior stores the mean as a 1 x D array, which scipy's multivariate_normal refuses, so log_likelihood of a returned posterior raises unless D = 1. Proportionality constants of the Student laws are not computed.
  Refuted: `C142_posterior_object_false`.
* **C147, covsel returns the gradient of its value and its stationary points are maximum likelihood precisions.** C147_unbounded_false: covsel accepts indefinite matrices with positive determinant and its value is unbounded below there, so the optimiser is trusted to stay in the cone. The optimiser itself is not modelled.
  Refuted: `C147_unbounded_false`.
* **C149, The Laplace approximation uses the derivatives of the log-density.** C149_diagonal_false: diagonal parameters are counted twice per direction (Hessian entry 4 times too large; the constant cancels in the score). C149_logh_false: logh has + n_dim where h has - n_dim, so Laplace scores are too large by n*p for every graph (the ranking is not affected).
  Refuted: `C149_diagonal_false`, `C149_logh_false`.
  Holds: `C149_hessian_partial`.
* **C150, Scoring a graph works with the default prior, and the average of the best graphs is a precision.** C150_default_prior_false: np.cov(X) takes rows as variables, so the default S0 is n x n and GWishartScore raises ValueError unless n = p. The behaviour of laplace scoring on the empty data set depends on the sklearn version and is not modelled.
  Refuted: `C150_default_prior_false`.
* **C151, The forward-backward solver converges to the optimum and stops.** Partial: runs that leave the positive definite cone (possible, C70) or exhaust the 200 trials of the search are excluded by hypothesis; convergence, optimality of the limit and termination are proved for all other runs.
  Holds: `C151_converges_partial`, `C151_stops_partial`.
* **C152, Gaussian neighbourhood selection converges when the step size fits the data.** Convergence, termination and accuracy are proved; the last sentence is false: with the fixed step size 1/1000 of the estimator the iterates diverge on data with entries 100 (C152_default_diverges_false).
  Refuted: `C152_default_diverges_false`.
* **C153, The Ising fit converges to the penalised pseudo-likelihood estimate.** Partial: proved for the problem built from the first sample alone (divided by the number of samples), which is what the gradient of the code uses; C153_first_sample_false shows that all other samples are ignored.
  Refuted: `C153_first_sample_false`.
  Holds: `C153_converges_partial`, `C153_stops_partial`.
* **C154, The solver of the time-varying Ising and Poisson models converges, and its history certifies the result.** partial: the inner fits are assumed exact (C153 proves that they converge, for one sample); convergence is for a constant penalty. The limit solves the problem with the extra term rho/2 sum of squares, see C124. C154_certificate has no restriction on the penalty schedule.
  Holds: `C154_converges_partial`.
* **C158, The temporal latent variable solvers converge while their R stays bounded.** For every constant rho small enough the conclusion holds with no assumption on the iterates when the penalties are small against the data (C158_*_small_penalties: 2 sqrt(T) (d alpha + 4 kpsi sum(beta) + 2 kphi sum(eta)) <= min(n_samples) * smallest eigenvalue of the covariances, kpsi and kphi the Lipschitz constants of the couplings); the proof bootstraps the first pass: it bounds the energy, the energy bounds the next R, and while R is bounded the energy decreases. Outside that regime the partial theorems assume that the computed R are eventually bounded by c with rho*c*b < 2*min(n_samples).
  Holds: `C158_chain_partial`, `C158_kernel_partial`.
* **C161, latent_graphical_lasso converges at a constant penalty.** Full for tau >= d*alpha, and for every tau >= 0 and every rho small enough when 2 d alpha is at most the smallest eigenvalue of S (C161_small_penalties); otherwise the boundedness of the computed R is a hypothesis.
  Holds: `C161_converges_partial`.
* **C164, Settled multipliers of glo_prox give the proximal point.** Proved when the blocks are linearly independent on the support of w0 and radii are at most 1; both exclusions are necessary (C164_nested_false, C164_radius_false).
  Refuted: `C164_radius_false`, `C164_nested_false`.
  Holds: `C164_settled_partial`.
* **C165, The stopping test of glo_prox bounds the distance to the proximal point.** The certificate is proved; the stopping test itself is refuted (C165_stale_false).
  Refuted: `C165_stale_false`.
  Holds: `C165_certificate_partial`.
* **C166, GroupLassoOverlap(mode='paspal') fits any number of groups.** Holds for one group, refuted for every input with two or more.
  Refuted: `C166_groups_false`.
* **C167, The points glopridu_algorithm leaves unchanged solve the group lasso with overlap.** Exactness of the inner steps and convergence of the accelerated loop are not claimed.
  Holds: `C167_fixed_partial`.
* **C171, The objective recorded by group_lasso_overlap is that of the documented problem.** Counterexample at run level. The agreement theorem is for groups without repeated entries.
  Refuted: `C171_objective_false`.
  Holds: `C171_agreement_partial`.
* **C174, The coupled Poisson node fit returns a solution of the coupled problem.** False: the acceptance test leaves out the coupling term, so for one sample with predictor 1, response 0, alpha = 0 and coupling value 2 every trial is rejected and the loop does not end in exact arithmetic (in floating point it ends when the step underflows, with zero progress). regain/generalized_linear_model/glm_time_poisson.py:172 calls this function with a coupling matrix.
  Refuted: `C174_returns_false`.
* **C175, PoissonGraphicalModel.fit returns a symmetric matrix with one row per variable.** False with intercept=True (the matrix has one row more than the data has variables, for every data set); `C175_arguments_ignored` shows that gamma and max_iter of the constructor have no effect. The data is taken as already accepted by check_array.
  Refuted: `C175_intercept_false`.
* **C176, The group lasso with overlap converges when its penalty parameter is large or small enough.** Partial: proved when 2*rho exceeds the largest curvature of the loss relative to the group counts, and when rho is at most the smallest one (exact arithmetic, exact inverse). For rho between these bounds, possible when the largest curvature is more than twice the smallest one, neither convergence nor a diverging run is known. The theorems about large and small rho are separate (C176_converges_partial, C176_small_rho_partial).
  Holds: `C176_converges_partial`, `C176_stops_partial`, `C176_small_rho_partial`, `C176_small_rho_stops_partial`.
* **C177, Graphlet instability is the mean distance between the graphs of different repetitions.** Partial: one estimator raises ZeroDivisionError (C177_single_false). The graphlet distance of netanalytics is an arbitrary symmetric function vanishing on the diagonal.
  Refuted: `C177_single_false`.
* **C178, The default subsample size of stability selection is usable.** Partial: with at most ten samples the default is zero or negative, and with more classes than drawn samples the size is rounded down to zero.
  Refuted: `C178_few_samples_false`, `C178_many_classes_false`.
  Holds: `C178_default_partial`, `C178_classes_partial`.
* **C179, Chords of circular plots join their nodes inside the circle.** Partial: nodes in the same place (self-loops) get the index -1 and hence the class of the longest chords (C179_self_loop_false). Drawing itself is not modelled.
  Refuted: `C179_self_loop_false`.
* **C180, Rows, labels and networks of multi-class data belong together.** Partial: rows, labels and networks are aligned for all three distributions, but the Ising sampler zeroes the diagonals of the networks in place, so the networks returned are not the generated ones (whose diagonals are 1), and n_classes=0 yields rows without labels. The distribution of the draws is not modelled.
  Refuted: `C180_ising_diagonal_false`, `C180_generated_false`, `C180_no_classes_false`.
* **C181, The Gibbs sampler of Poisson data draws from the Poisson graphical model of the given matrix.** Partial: conditional distributions, invariance and independence of the samples are proved for symmetric theta (and balance fails for every other theta), but with a positive coefficient no such distribution exists, the call can raise ValueError from some starting state, one variable raises IndexError, and variances of another size are silently replaced by zeros. Convergence of the chain to the invariant distribution is not proved.
  Refuted: `C181_no_distribution_false`, `C181_raises_false`, `C181_variances_false`.
* **C182, ising_sampler returns samples of the requested graph for each of its methods.** Partial: success is characterised, but theta loses its diagonal in place, CFTP_retry <= 1 raises UnboundLocalError, CFTP with max_iter=0 never returns, and the direct method draws without replacement.
  Refuted: `C182_theta_false`, `C182_retry_false`, `C182_cftp_max_iter_false`, `C182_direct_false`.
* **C189, IsingGraphicalModel selects which pairs of variables interact.** False. C189_selects_false: for binary data every network the default mode can return has no edge or all edges, all of equal strength, whatever the data and options. C189_empty / C189_complete: which of the two (alpha * n_samples >= 1 or < 1). C189_default_false: empty for every data set of at least 100 samples with the default options. C189_time_empty: the same threshold empties the time-varying estimator. C189_mode: 'coordinate_descent' always raises.
  Refuted: `C189_selects_false`, `C189_default_false`.
* **C190, The fit of the time-varying Poisson model returns.** False. C190_returns_false: with constant counts the call never returns once rho * n_times >= 2 * n_samples, for alpha <= 1/4 and all other options. C190_empty_partial: above the threshold it returns identities; missing: conditions for returning below the threshold.
  Refuted: `C190_returns_false`.
  Holds: `C190_empty_partial`.
* **C191, The pair update of the node penalty is the proximal step it stands for.** False. C191_converges / C191_accuracy: while the penalty of the inner loop stays constant, the passes converge at rate 4/5 to the unique minimiser of another problem, with weight 2/3 beta on the node penalty and an extra rho/6 ||V - V^T||^2, and the residual the code records bounds the distance. C191_fuses_iff / C191_exact_fuses: so consecutive networks are joined for column norms up to 2/3 beta/rho instead of beta/rho. C191_exact_false: a run that returns at least 9.18 where the exact answer is 9, for all tolerances up to 0.01 and budgets of three passes or more. C191_nan_false: inputs that differ by a constant in all entries give NaN.
  Refuted: `C191_exact_false`, `C191_nan_false`.
* **C192, The recorded value of the node penalty is the node penalty.** False. C192_value: the minimum of the posed problem is |sum of X| / (2 sqrt(n)). C192_zero_false: zero for every nonzero symmetric X with zero sum, where the penalty is positive. C192_le_true_partial: never above the node penalty.
  Refuted: `C192_zero_false`.
  Holds: `C192_le_true_partial`.
* **C193, The fitted covariance has the sample variances and stays within alpha of the sample covariances.** True for graphical_lasso (C193_optimum_iff, C193_every_call) and for the documented time-varying problem (C193_documented). False for time_graphical_lasso and kernel_time_graphical_lasso, which also penalise the diagonal: the weighted sums of the fitted variances exceed those of the data by exactly alpha times the number of times (C193_variance_false, C193_kernel_variance_false, C193_time_call_false). C193_latent_pooled / C193_latent: latent versions, with the diagonal weight e as a parameter (e = 1 is what the code does).
  Refuted: `C193_variance_false`, `C193_kernel_variance_false`, `C193_time_call_false`.
* **C197, The reported objective of the Poisson models is the documented objective.** True for the static model (C197_static). False for the time-varying one: `loss_poisson` negates a loss that is already the negative log-likelihood (C197_value_partial gives the exact difference), so without penalties better networks get larger values (C197_sign_false) and the reported value is unbounded below whatever alpha is (C197_unbounded_false) although the documented one is bounded (C197_documented_bounded).
  Refuted: `C197_sign_false`, `C197_unbounded_false`.
  Holds: `C197_value_partial`.
* **C198, The Bayesian search returns the best parameters it evaluated.** The selection and the refit are right when no score is nan (C198_best_partial). best_score_ has the opposite sign (C198_score_false), one nan score (scikit-learn's default for a failing fit) is selected as best (C198_nan_false), and the user's estimator is left with the parameters of the last evaluated point (C198_mutates_false). GPyOpt and the cross-validation are arbitrary functions here; that GPyOpt goes on after a nan is assumed.
  Refuted: `C198_score_false`, `C198_nan_false`, `C198_mutates_false`.
  Holds: `C198_best_partial`.
* **C199, The forward-backward solver solves the documented problem for every time_norm.** Exact for p = 1 (C10, C69), for two times (C199_two_times) and without the l1 penalty (C199_no_l1). False for p = 2 and three times: thresholding after denoising is not the proximal map (C199_prox_false) and the solver has fixed points that are not optimal (C199_fixed_false). `tvgen` is taken to be exact for the chosen norm.
  Refuted: `C199_prox_false`, `C199_fixed_false`.
* **C204, ker_param='auto' selects a kernel parameter from the data.** scipy's bounded search is not modelled: the theorems say what an exact minimiser is (or that there is none). In double precision the objective is exactly zero for small length scales, and any of those may be returned: the kernel is then the identity. If the precisions become constant in time the objective is zero for every parameter and the answer is arbitrary.
  Refuted: `C204_best_length_scale_false`.
* **C205, A time-varying fit without coupling is the separate fit of every time point.** The calls are compared at constant penalty parameter rho; for the kernel solver the optimum is compared (its convergence is C102).
  Refuted: `C205_separate_fits_false`.
* **C206, make_ticc_dataset_new samples from the precision it returns.** numpy's multivariate_normal is any factor of the covariance times white noise; that the noise is normal is not used. The smallest eigenvalue is that of a symmetric matrix (np.linalg.eig of a floating point matrix may return complex numbers). The labels and the assertion at the end are C118.
  Refuted: `C206_stationary_false`.
* **C207, Windows of rows of make_ticc_dataset have the covariance returned for their cluster.** The failure of pinvh on an empty array for w_size = 1 is not modelled.
  Refuted: `C207_later_window_false`.
* **C208, make_ticc_dataset_v3 generates data that depend on the past through the window.** The loop order and the array of samples are arguments of the means: the theorem says they do not matter.
  Refuted: `C208_dependence_false`.
* **C210, The kernel parameter is sampled from its posterior given the latent series.** The log posterior used by sample_hyper_kernel centres the series at their empirical mean although the Gaussian process has mean zero: the term N/2 m' K^-1 m is missing, a common trend of all series has no influence on the kernel parameter, and the sampled distribution is not the posterior.
  Refuted: `C210_posterior_false`.
  Holds: `C210_target_partial`.
* **C215, With enough data Gaussian neighbourhood selection finds every edge, and precision_ approaches the precision matrix.** The edges and the limits are proved. That precision_ approaches the precision matrix is false (C215_sign_false, for every edge), and that only dependent variables are joined is false without centring (C215_uncentered_false). The theorems are about exact solutions of the regressions; when the loop reaches them is C152.
  Refuted: `C215_sign_false`, `C215_uncentered_false`.
* **C216, The curve drawn for a covariance matrix is the set of points at the given number of standard deviations.** The curves are proved. False: the returned value is the covariance and not the correlation (C216_correlation_false), npts is ignored (C216_npts_false), and the axis limits cut off the ellipse or its centre (C216_limits_false, C216_centre_false).
  Refuted: `C216_npts_false`, `C216_correlation_false`, `C216_limits_false`, `C216_centre_false`.
* **C217, A Poisson graphical model does not join independent counts.** False as stated: C217_false for every Poisson rate other than one, C217_intercept_false and C217_poisson_intercept_false for the variant with a column of ones. Proved: the exact limit of the statistic, and when nothing (C217_empty) or something (C217_selected) is selected.
  Refuted: `C217_intercept_false`, `C217_false`, `C217_poisson_intercept_false`.
* **C218, The generator with sparse latent variables always returns proper models.** C218_defaults has no hypothesis on the draws beyond shuffles being permutations. False for few nodes (C218_few_nodes_false: edges[:-to_put] with a float) and for which variables are connected (C218_shift_false: columns of latent are taken from h on, while node numbers count observed variables first).
  Refuted: `C218_shift_false`, `C218_few_nodes_false`.
* **C219, The Meinshausen-Yuan generator only joins nodes whose probability passed its threshold.** C219_positive_partial needs four positive entries; C219_zero_probability_false gives the general failure (the top four of the ranking are used without a look at their entries).
  Refuted: `C219_zero_probability_false`.
  Holds: `C219_positive_partial`.
* **C220, The nodes of the Meinshausen-Yuan generator stay in the unit square.** C220_leaves_square_false: locations are clipped below at zero only.
  Refuted: `C220_leaves_square_false`.
* **C221, The mean of the Wishart distributions is the expectation under their likelihood.** Missing: more than one dimension. C221_mean_false: for nu < 2 the first moment of the inverse Wishart diverges, while the code returns a negative number.
  Refuted: `C221_mean_false`.
  Holds: `C221_wishart_partial`, `C221_inverse_partial`.
* **C222, The similarity learned between times is a positive semidefinite kernel.** C222_laplacian_false covers every straight line of three distinct networks, equally spaced, with the default penalty; C222_ising_false uses six networks.
  Refuted: `C222_laplacian_false`, `C222_ising_false`.
  Holds: `C222_three_times_partial`.
* **C223, The bisection of the group update finds the minimiser.** The only caller allocates arrays with a float length (TypeError in Python 3) and is not modelled. C223_range_false: shift above 1e10.
  Refuted: `C223_range_false`.
* **C224, WishartProcess estimates invertible covariances.** C224_positive_definite_false and C224_predict_false hold for every run with at least two variables (nu_ is fixed to 1); C224_one_direction and C224_complete_network say what is returned instead.
  Refuted: `C224_positive_definite_false`, `C224_predict_false`.
* **C225, WishartProcess returns the most likely sample after the burn-in.** Full for learn_ell=False (C225_best_partial); C225_mixed_false is the failure for learned factors, a consequence of C91.
  Refuted: `C225_mixed_false`.
  Holds: `C225_best_partial`.
* **C226, The intercept of GroupLassoOverlap is free and not penalised.** The minimum, the residuals and the shifts are full (sklearn's _pre_fit and _set_intercept for dense data, normalize=False, precompute=False, trusted as transcribed); C226_shapes_partial needs two features, C226_single_feature_false is the failure for one feature and several targets.
  Refuted: `C226_single_feature_false`.
  Holds: `C226_shapes_partial`.
* **C227, GroupLassoOverlapClassifier predicts the class of largest decision value, whatever the classes are called.** C227_largest holds for every solver that is odd in the targets (C227_odd proves it for mode='admm') and two or more features; C227_names_partial excludes ties, where C227_tie_false is the failure; C227_single_feature_false is the ValueError for one feature. LabelBinarizer and LinearClassifierMixin are trusted as transcribed.
  Refuted: `C227_tie_false`, `C227_single_feature_false`.
  Holds: `C227_names_partial`.
* **C228, Features in no group, and the default of no groups, are fitted with the penalty and stop like others.** C228_least_squares and C228_uncovered_stop say what holds; C228_alpha_false and C228_all_passes_false are the failures (mode='admm'; singular A.T A raises LinAlgError in the code and is excluded by the exact inverse).
  Refuted: `C228_alpha_false`, `C228_all_passes_false`.
* **C229, Fitting GroupLassoOverlap again with warm_start=True gives the model of the new data.** C229_same_shape_partial is the part that holds; the three _false theorems cover fewer targets, more targets and other features (n_jobs=1, previous fits with at least two features). The solvers never see the previous coefficients, so warm_start saves no passes.
  Refuted: `C229_fewer_targets_false`, `C229_more_targets_false`, `C229_features_false`.
  Holds: `C229_same_shape_partial`.
* **C230, A network written with write_network is read back by read_network.** C230_header_false is the failure for current pandas; C230_edges_partial and C230_diagonal_partial describe releases without a header, C230_negative_false the loss of signs. What pandas writes and parses is trusted as transcribed; labels are those read_network expects (G1, G2, ...).
  Refuted: `C230_header_false`, `C230_negative_false`.
  Holds: `C230_edges_partial`, `C230_diagonal_partial`.
* **C232, Time points may have different numbers of samples.** C232_unequal_false is the failure for current numpy, C232_list_current what is left there; C232_list_partial is the full claim for older releases. What np.array does with unequal shapes is trusted as transcribed; data are finite numbers.
  Refuted: `C232_unequal_false`.
  Holds: `C232_list_partial`.
* **C233, Random blocks of the TICC generators have the requested couplings and sparsity.** C233_first_block and C233_other_blocks are the claim about couplings; C233_sparsity_false shows that sparsity_inv_matrix acts as a density. gnm_random_graph is trusted to return the documented number of distinct edges, listed with the smaller node first. Real arithmetic in the number of edges.
  Refuted: `C233_sparsity_false`.
