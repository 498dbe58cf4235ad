"""Status and note of each property in MANIFEST.json."""
NOTES = {
 "C01": ("proved", "Exact arithmetic over the reals."),
 "C02": ("proved", ""),
 "C03": ("proved", "CHEBFUN needs at least two distinct points (division by max - min)."),
 "C04": ("proved", "FEJER without assumption; the external leggauss / roots_legendre are a contract (exact to degree 2m-1)."),
 "C05": ("proved", ""),
 "C06": ("proved", ""),
 "C07": ("proved", ""),
 "C08": ("proved", ""),
 "C09": ("proved", "Interpolation and integration matrices, any point order, both options."),
 "C10": ("proved", "C10_exact_iff is the exact condition for distinct points; C10_unsorted_points_fails the finding."),
 "C11": ("proved", ""),
 "C12": ("proved", "np.argsort is any permutation that sorts.  C12_reuse_fails is the finding; C12_exact says when rows are exact.  Unsorted input points go through LagrangeApproximation with unsorted points, which is finding C10."),
 "C13": ("proved", "scipy's eigh_tridiagonal is modelled by Mathlib's eigenvalues of the symmetric tridiagonal matrix, then sorted."),
 "C14": ("proved", ""),
 "C15": ("proved", ""),
 "C16": ("proved", ""),
 "C17": ("proved", ""),
 "C18": ("proved", ""),
 "C19": ("proved", ""),
 "C20": ("proved", "Also the mirror relation CHEBY-3 / CHEBY-4."),
 "C21": ("proved", ""),
 "C22": ("proved", "Needs tLeft < tRight."),
 "C23": ("proved", ""),
 "C24": ("proved", "C24_nodes_exact and C24_boundary_iff are the exact statements for two nodes or more, C24_one_node for one; C24_snapping_fails and C24_single_node_fails are the findings."),
 "C25": ("proved", ""),
 "C26": ("proved", ""),
 "C27": ("proved", "hCoeffs is the value at 1 (C27_hCoeffs), which is not the value at tRight for any other right end (C27_hCoeffs_fails).  Runge-Kutta classes: C27_rk, C27_registered; EDIRK43 is the exception (C27_registered_fails)."),
 "C28": ("proved", "On every interval that is not tiny relative to its position and the node number (Wide); false otherwise (C28_order_fails); C28_order_iff is the equivalence for LEGENDRE.  LOBATTO without condition."),
 "C29": ("proved", "C29_convergence_iff is the equivalence; C29_many_nodes_fails the finding."),
 "C30": ("proved", ""),
 "C31": ("proved", "Also for embedded weights."),
 "C32": ("proved", "All registered schemes; finding C32_embedded_fails."),
 "C33": ("proved", "All rooted trees, all registered schemes but the ones in C33_tree_fails."),
 "C34": ("proved", "All but RK53 (C34_row_sums_fails)."),
 "C35": ("proved", ""),
 "C36": ("proved", "Embedded weights are not padded: C36_padding_embedded_fails."),
 "C38": ("proved", ""),
 "C39": ("proved", ""),
 "C40": ("proved", ""),
 "C41": ("proved", "All 26 registered classes; finding C41_bepar_tLeft_fails."),
 "C42": ("proved", "Finding C42_trapar_tLeft_fails."),
 "C43": ("proved", "Finding C43_zero_pivot_fails."),
 "C44": ("proved", "scipy.linalg.lu is a contract (IsPLU); finding C44_row_exchange_fails."),
 "C45": ("proved", ""),
 "C46": ("proved", "Finding C46_interval_ignored_fails."),
 "C47": ("proved", "scipy.optimize.fsolve is arbitrary; that its result is a root is a hypothesis, shown satisfiable."),
 "C48": ("proved", ""),
 "C49": ("proved", "Tables transcribed mechanically by tools/gen_mincoeffs.py; decimal literals as the decimals they denote."),
 "C50": ("proved", ""),
 "C55": ("proved", "Finding C55_extra_positional_fails."),
 "C51": ("proved", "Explicit heap of arrays.  Findings C51_genCoeffs_fails, C51_shared_fails."),
 "C52": ("proved", ""),
 "C53": ("proved", "Finding C53_list_modified_fails."),
 "C54": ("proved", "Finding C54_consistency_fails."),
 "C56": ("proved", "Over the complex numbers; np.linalg.solve is the exact solution or LinAlgError."),
 "C57": ("proved", ""),
 "C58": ("proved", "An unknown monitor raises AssertionError once nSteps and QDelta are valid."),
 "C59": ("proved", ""),
 "C60": ("proved", "Order bounds from above and below for all Q, QDelta and K; C60_base_order for collocation objects with any number of nodes, from the order of their quadrature."),
 "C61": ("proved", "Findings: C61_table_fails (above the order of the collocation, not monotone, alias dependent), C61_bonus_fails (overstated bonus), C61_overstated_fails (announced 7, exact 5), C61_understated_fails (announced 1, exact 2); C61_announced lists all differences; see also C60_lastnode_fails."),
 "C62": ("proved", "scipy.linalg.lu and fsolve are contracts, as in C44 and C47."),
 "C63": ("proved", "np.linalg.inv / solve of the normal equations is exact or LinAlgError."),
 "C64": ("proved", "Exact real arithmetic; arrays of any sizes, nan as a separate value."),
 "C65": ("proved", "Classes are objects of a heap with MRO and attributes; any history, raising calls included."),
 "C66": ("proved", "The unconditional statement is false: C66_trace_fails, C66_rk_fails, C66_inherited_alias_fails; C66_unchanged, C66_unchanged_qdelta and the C66_trace_bound theorems (one per registry) are what holds; C66_class_changed_fails: a refused QDelta class may have become k-dependent."),
 "C67": ("proved", ""),
 "C68": ("proved", "Findings C68_b2_fails (embedded weights of any size), C68_mixin_fails."),
 "C37": ("proved", "Parameters that are arrays are not modelled.  The form error comes after the constructor's errors (C37_errors)."),
 "C70": ("proved", "Heap of arrays by identity; Collocation objects are assumed to share no array with others (their arrays are made in the constructor).  C70_rk_fails is the finding."),
 "C69": ("proved", "The clock is an arbitrary input; finding C69_nested_fails."),
 "C71": ("proved", "The condition Unmoved (no node moved by the closeness tests) is shown for LOBATTO and for up to 158 nodes; without it see C24 and C29_many_nodes_fails."),
 "C72": ("proved", "RADAU-LEFT is excluded: C73_radau_left_fails."),
 "C73": ("proved", "Nodes at an end are excluded by hypothesis where they would be the result of a moved node (legendre_ends_small: none up to 158 nodes)."),
 "C74": ("proved", "Entries of the tables are the exact numbers written in the code.  Findings C74_nearly_fails, C74_embedded_fails, C74_explicit_fails."),
 "C75": ("proved", "Finding C75_damps_fails: six implicit classes do not damp."),
 "C76": ("proved", "Butcher's order conditions as in C33; that they give the local and global error for smooth f is C82.  Condition Unmoved as in C71."),
 "C77": ("proved", "Sweeps on u'=f(u) as a Runge-Kutta method with (K+1)M stages (Spec/SDCTrees.lean); the code has SDC for Dahlquist's equation only, where C77_linear links the two.  Finding C77_bonus_fails."),
 "C78": ("proved", "The step is the one defined by the coefficients (Spec/RKStep.lean); that the stage equations have a solution is a hypothesis.  Finding C78_left_end_fails."),
 "C79": ("proved", "As C78: the step is the one defined by the coefficients.  Findings C79_contractive_fails, C79_invariants_fails: a right-hand side that acts at the time of one stage only."),
 "C80": ("proved", "Nelder-Mead itself is a parameter of the model (ExternalNum.minimize), so optimality is under the hypothesis that its result is a minimum."),
 "C81": ("proved", "LU and LU2 under the hypotheses of C44 (no row exchange, invertible Q), MIN-SR-S under those of C47 (fsolve finds roots).  C81_picard is for the iterates of C56 and collocation methods on [0,b]."),
 "C82": ("proved", "Taylor expansion of steps and solutions in rooted trees; uniform on compact sets.  RK53 (wrong node) and classes with rounded coefficients are settled for u' = f(u); time dependent f needs nodes equal to row sums."),
 "C83": ("proved", "Classes with rounded coefficients have no order in the limit h -> 0; see C82_tables_rounded for their steps."),
 "C84": ("proved", "Autonomous f: with the copied initial value f is evaluated at other times than the nodes."),
 "C85": ("proved", "Unbounded exponents (no overflow or underflow); 'FAST' and 'STABLE'."),
 "C86": ("proved", "Unbounded exponents (no overflow or underflow)."),
 "C87": ("proved", "Unbounded exponents (no overflow or underflow); weights of 'FAST'."),
 "C88": ("proved", "Stiff limit only; the documented values are upper bounds, not the radii (C88_documented_radius_fails)."),
 "C89": ("proved", "Five, seven and nine EQUID nodes only on the negative real axis; false on the imaginary axis (C89_imaginary_axis_fails)."),
 "C90": ("proved", "The documented fallback of 'AUTO' does not cover these cases (C90_overflow_fails, C90_underflow_fails)."),
 "C91": ("proved", "Classical remainders with explicit constants; sharp for x^n (C91_sharp). The statements on order need an interval that is not tiny relative to its position, as in C28."),
 "C92": ("proved", "Weights of 'FAST' without scaling; cosine, the complex quotients in v0 and the Fourier transform are operations with given error bounds. C92_check_fails: the check of imaginary parts in computeFejerRule is not robust."),
 "C93": ("proved", "Bounds via the Christoffel-Darboux kernel of the orthogonal polynomials used for the nodes, and for LEGENDRE LOBATTO via Fejer's interpolation argument. C93_equid_fails: no such bound for EQUID."),
 "C94": ("proved", "The eigenvalues of scipy.linalg.eigh_tridiagonal enter with a bound of their errors. The bound of the entries uses Markov's inequality for the dependence of the Lagrange polynomials on the nodes and the Lebesgue constants of C93."),
 "C95": ("proved", "Eigenvalues: Weyl's inequality. The ratios of values of orthogonal polynomials at the ends are bounded in Lemmas/FloatNodes; the routines of scipy and numpy (eigh_tridiagonal, solve) enter with bounds of their errors."),
 "C96": ("proved", "Monitors are not modelled in rounded arithmetic (they do not change the values). np.linalg.solve enters with a bound of its residual."),
 "C97": ("proved", "np.linalg.solve enters with a bound of its residual, scipy.linalg.eigh_tridiagonal and the FFT of the Fejer rule with bounds of their errors. The end-to-end statement in double precision assumes |lam dt| B <= 1/2."),
 "C98": ("proved", "Integers are unbounded in the model (64 bits in numpy)."),
 "C99": ("proved", "getQDelta with its default copy; what is written into arrays returned without copy is C51."),
 "C100": ("proved", "No overflow or underflow; TRAPAR with tLeft other than 0 can cancel and is left out of the relative bounds."),
 "C101": ("proved", "Assumptions on LAPACK (eigenvalues, solve) and on the Fejer weights of numpy as in C94-C97; no overflow or underflow."),
 "C102": ("proved", "errorDahlquist itself is in exact arithmetic; in double precision the computed values are compared with the exact solution."),
 "C103": ("proved", "Backward error; a zero pivot (infinite or nan entries in numpy) is excluded by hypothesis."),
 "C104": ("proved", "The factors are bounds, not the norms themselves."),
 "C105": ("proved", "Over exact complex numbers."),
 "C106": ("proved", "Over exact complex numbers."),
 "C107": ("proved", "Over exact complex numbers. LU: for any factorization of Q.T without row exchange. C107_stiff_fails records the divergence of TRAP (finding 28)."),
 "C108": ("proved", "Over exact real numbers. Tables with rounded decimals (tableAccuracy > 0) are not covered by C108_rk: their order conditions hold up to rounding only."),
 "C109": ("proved", "Python's import system is modelled by its rules for sys.modules; class objects of repeated executions of a class statement are not distinguished; RK_SCHEMES is left out."),
 "C110": ("proved", "The bound with the power of h is for rows that are computed or copied from equal offsets; for all rows C110_sparse_reuse."),
 "C111": ("proved", "Single attribute and dictionary operations are atomic (as with the GIL or per-object locks)."),
 "C112": ("proved", "For nodes that the constructor has not moved to an end: LOBATTO always, symmetric GAUSS types with up to 158 nodes; in general Unmoved is a hypothesis."),
 "C113": ("proved", "For nodes that the constructor has not moved to an end (UnmovedOn): LOBATTO always, types with superconvergence on intervals that are Wide; C113_shift_fails and C113_length_fails are the cases where the claim does not hold."),
 "C114": ("proved", "Tables with rounded decimals carry a term with their accuracy (4e-26); ARK548L2SAESDIRK is excepted, see C32_embedded_fails."),
 "C115": ("proved", "C115_two_levels_fails shows that M < M' cannot be weakened to M <= M'; LEGENDRE_NUMPY and LEGENDRE_SCIPY under the assumption that the external rules are exact, as in C04."),
 "C116": ("proved", "The limit for a growing number of nodes is stated for LOBATTO, whose nodes are never moved to the ends of the interval; exact arithmetic."),
 "C117": ("proved", "Solvability holds for all quadrature types, convergence for GAUSS and RADAU-RIGHT: C78_left_end_fails shows that the others can double a distance in one step. The step is the mathematical step with the coefficients of the generator; exact arithmetic."),
 "C118": ("proved", "The step is the mathematical step with the coefficients of the generator; exact arithmetic. The negative part for Legendre nodes is stated for up to 158 nodes, where no node is moved to an end of the interval, and for every collocation without a node at 1 (C118_order_fails)."),
 "C119": ("proved", "The sweep is the mathematical sweep for a nonlinear equation with the coefficients of the generators; qmat itself only has the sweep for the Dahlquist equation (C106). Exact arithmetic; no node moved to an end of the interval by the 1e-14 rule (true up to 158 nodes)."),
 "C120": ("proved", "The step is the mathematical step with the coefficients of the generator; exact arithmetic. Generalises C117 (mu = 0). No node moved to an end of the interval by the 1e-14 rule (true up to 158 nodes)."),
 "C121": ("proved", "Single clock readings and attribute accesses are atomic, as in C111; findings C121_scaled_fails, C121_negative_fails."),
 "C122": ("proved", "The sweep is the one of solveDahlquistSDC with lam u replaced by f(t, u) at the times of the nodes (the library solves u' = lam u only; its coefficients are meant for this use). Removes the restriction of C84 to autonomous equations. Exact arithmetic."),
}
