# Formal model of qmat: design

## 1. What is modelled, and at which level

* Every modelled Python function is a Lean definition under `lean/Verif/Model/`, with the same branches, in the same
  order, and a comment citing the file and lines of `/repo` it follows.
* 1D arrays of size `n` are functions `Fin n → K`, 2D arrays are `Matrix (Fin n) (Fin m) K`; loops become recursion or
  folds, whole-array numpy expressions become pointwise definitions.  Dynamic sizes (np.unique, stacking arrays of
  different sizes) are dependent pairs or lists.
* Python exceptions are values: `Except PyErr α`.
* Python objects with identity (cached arrays, lists mutated in place) are modelled with an explicit heap where
  aliasing is what the property is about (C51, C53, C70); elsewhere arrays are values.
* Registries are association lists in insertion order (Python dict), classes are identified by a number.

## 2. Trusted base

* Lean 4.33.0's kernel, Mathlib's definitions; axioms `propext`, `Classical.choice`, `Quot.sound` only
  (per-theorem axioms are checked by the gate, no theorem depends on anything else).
* **Exact arithmetic**: numbers are elements of a field (`ℚ`, `ℝ`, `ℂ` or an arbitrary (ordered) field).  Dtype
  truncation is not modelled; rounding is modelled for `lagrange.py`, nodes, collocation and the SDC sweeps
  (C85-C87, C92, C94-C97, C100, C101, C103, `Model/Float`, `Model/FloatIntegration`, `Model/FloatCollocation`, `Model/FloatNodes`, `Model/FloatSDC`, `Model/FloatDahlquist`, `Model/FloatQDelta`, `Model/FloatFlex`, `Model/FloatNum`): any rounding with relative error at most `u` after every operation, unbounded exponents, array
  reductions in any order.  Overflow, underflow, infinities and nan are modelled for weights and interpolation (C90, `Model/Double`): any
  format with gradual underflow and `np.log`, `np.exp` with bounded errors.  Elsewhere, where numpy would produce `inf` in an intermediate (`1/0` in
  `getInterpolationMatrix`) the model tests for the zero denominator; where it would produce nan (division by a
  zero pivot, CHEBFUN with one point) the theorem assumes the denominator is non-zero and DESIGN says so.
  Comparisons with a tolerance written in the code (`np.allclose`, `1e-15`) are modelled with the tolerance as written.
* **External routines by contract or exact meaning**: `scipy.linalg.eigh_tridiagonal` = the sorted eigenvalues of the
  symmetric tridiagonal matrix (Mathlib's `Matrix.IsHermitian.eigenvalues`), `np.linalg.solve`/`inv` = matrix inverse
  (result given only if the determinant is non-zero, `LinAlgError` otherwise), `np.fft.ifft` = its defining sum,
  `leggauss`/`roots_legendre` = a quadrature rule exact to degree `2m-1`, `scipy.linalg.lu` = some `P, L, U` with
  `A = P L U`, `scipy.optimize.fsolve/minimize` = a returned vector satisfying the equation passed,
  `np.polyfit` = the least-squares line, `time()` = an arbitrary clock.  In the files with rounding these routines are any functions
  with stated bounds of their errors or residuals (`FejerOps`, `NodeOps`, `SolveOps`).
* **Butcher tables**: `Verif/Model/Tables.lean` is generated by `tools/gen_tables.py` from the syntax tree of
  `butcher.py`; decimal literals are read as the decimal numbers they denote, not as the nearest doubles; entries are
  `a + b√2` or `a + b√3` with rational `a`, `b`.  Statements over the list of all registered tables are settled by
  `decide +kernel` (kernel evaluation, no compiler) of a boolean check proved to imply the statement.
* **MIN tables**: `Verif/Model/MinCoeffs.lean` is generated by `tools/gen_mincoeffs.py` from `mincoeffs.py`, same reading
  of decimals.
* **Order bonuses**: the `if` cascade of `getOrderSDC` is `Verif/Model/OrderSDC.lean`, generated by `tools/gen_ordersdc.py`
  from the syntax tree of `sdc.py`, as a list of tests with their bonus.  Statements over this list, and the exact orders on
  equidistant nodes (C61), are settled by `decide +kernel` on rational lists (`Lemmas/SDCRat`), with soundness proofs
  that connect the lists with the model's matrices; nodes, steps, `lam`, `u0`, `tEnd` are not sampled.
* **Exact orders with one to four nodes** (C61): the nodes of all types are enclosed in balls of radius `2^-59` by sign changes
  of the polynomial whose roots they are (`Lemmas/NodeEnclosure`, `SDCTables`); the first Taylor coefficient that must not be
  `1/j!` is computed with balls and seen to avoid it (`notFaster_table`).  Where the order is above the base order the nodes lie in
  `ℚ(√d)` and the coefficients are computed there (`Lemmas/SDCExact`).  The tables are data checked by `decide +kernel`; that
  the checks mean what they should is proved once for any arithmetic that respects a relation to ℝ (`Arith.Sound`).
* **scipy in the QDelta generators** (`structure ExternalNum`, `Model/QDelta.lean`): `lu`, `fsolve`, `minimize` are
  arbitrary functions; what a theorem needs of them (the factors multiply back, the result is a root) is a hypothesis of
  that theorem, with an `example` showing it can be met.
* **Threads** (C111, `Model/Threads.lean`): reading or assigning one attribute or one dictionary entry is atomic (the GIL, or the locks of
  the objects in free-threaded builds), arrays are filled before they are stored; between any two such operations other threads may run.
  The same for `Timer` (C121, `Model/TimerThreads.lean`), where a call may also be ended by an exception between any two operations.
  Elsewhere one thread is assumed.
* **The model itself**: the correspondence between `/repo` and `Verif/Model` is by reading; each definition cites lines.

Not modelled: floating-point rounding outside `Model/Float`, `Model/FloatIntegration`, `Model/FloatCollocation`, `Model/FloatNodes`, `Model/FloatSDC`, `Model/FloatDahlquist`, `Model/FloatQDelta`, `Model/FloatFlex`, `Model/FloatNum` and `Model/Double`; printing, warnings, plotting; package discovery (`pkgutil`) and `__all__`; `qmat/scripts` (prints a result of `genQCoeffs`)
and docs; the web of `inspect` signatures except as used by the registration checks; scipy's sparse containers (a sparse
matrix is its dense content).

## 3. Layout

    Verif/Model/*.lean   the code, function by function
    Verif/Spec/*.lean    small, independent vocabulary used in statements
    Verif/Lemmas/*.lean  helper lemmas
    Verif/Props/*.lean   one theorem (or a few) per property, named C<nn>_..., each followed by a non-vacuity `example`

## 4. Plan per property

| id | modelled | how it is proved |
|----|----------|------------------|
| C01, C02 | constructor with all weight options, coincidence branch, row normalisation | barycentric second form = Lagrange interpolant (Mathlib `Lagrange`), for weights proportional to the nodal weights |
| C03 | analytic, logScale, chebfun | each is `c • nodalWeight`, `c ≠ 0`; matrices invariant under scaling |
| C04 | getIntegrationMatrix, all numQuad branches | affine change of variable + C01 + C05 |
| C05, C06 | computeFejerRule incl. the DFT | ifft of the vector = Fejér's cosine formula; discrete cosine orthogonality; integrals of Chebyshev polynomials |
| C07, C08 | getDerivativeMatrix | differentiate the product/barycentric form; D2 formula by second derivative at nodes |
| C09 | np.unique with index/inverse, zeroed columns | finite sums over fibres |
| C10 | same constructor | the row at one time that is no point determines the weights up to a factor; counterexample |
| C11 | `__call__` | unfolding + error cases |
| C12 | getSparseInterpolationMatrix with the reuse test | loop invariant on the last line; counterexample for the reuse |
| C13, C14 | getNodes, getTridiagCoefficients, eigenvalues | eigenvalues of a Jacobi matrix are the distinct roots of the last polynomial; sign of the recurrence outside [-1,1] |
| C15 | constructor and getNodes errors | case analysis |
| C16 | EQUID branches | algebra |
| C17 | recurrences for CHEBY-1..4 | trigonometric closed form of the recurrence, uniqueness of the sorted roots |
| C18 | evalOrthogPoly loop | loop invariant |
| C19 | LEGENDRE recurrences | Legendre ODE from the recurrence, orthogonality, division by the node polynomial |
| C20 | | parity of the recurrence |
| C21 | T, S, Tinv | finite sums |
| C22–C26 | Collocation | C04 with the intervals used by the class |
| C27 | hCoeffs | counterexample + statement on [0,1]; Runge-Kutta: sorted, repeated or containing 1, checked over the whole table |
| C28 | order | C19, C20; converse by a positive polynomial that vanishes at all nodes, with simple roots at the ends |
| C29 | solveDahlquist + Collocation | simplifying assumptions B, C, D ⇒ linear order conditions ⇒ C31, and back with the sharp bound of C31; Gauss weights are positive, test polynomial (y-t)(t+1)^(2M-2) for the largest node |
| C30 | solveDahlquist loop | induction over steps |
| C31 | | Neumann identity for the stability function, Lady Windermere argument |
| C32–C35 | all tables of butcher.py, transcribed mechanically | kernel evaluation of rational arithmetic, over ℚ(√2), ℚ(√3) by algebra |
| C36 | padding | block structure |
| C37 | genQCoeffs, genCoeffs, getInstance, parameters by name | case analysis on branches, C25, C36 |
| C38–C40 | BE, FE, TRAP loops | sums |
| C41 | all QDelta generators | structure lemma per generator |
| C42 | TRAP, TRAPAR | algebra + C22 |
| C43 | lduFactorization loops | induction over k, loop invariants |
| C44 | LU | strictly upper-triangular nilpotency |
| C45–C47 | MIN_SR_NS, MIN_SR_FLEX, MIN_SR_S | Q acts as integration on polynomials: degree-lowering argument; characteristic polynomial argument |
| C48–C50 | diag.py | algebra, table evaluation |
| C51–C53 | getQDelta cache, genCoeffs, genQDeltaCoeffs with a heap | invariant over arbitrary histories |
| C54 | SOE loop | strong induction |
| C55 | useQGen | dictionary algebra |
| C56–C59 | solveDahlquistSDC loops | induction over sweeps and steps |
| C60 | solveDahlquistSDC, errorDahlquistSDC | power-series bound on the iteration, Lady Windermere argument from above and below |
| C61 | getOrderSDC | pairwise exclusion of the tests; Taylor coefficients of the step factor in ℚ, in ℚ(√d) and in balls around the nodes |
| C62 | SDC with MIN-SR-NS, MIN-SR-FLEX, MIN-SR-S, LU | C44–C47 + C56, perturbation bounds in `z` and `1/z` |
| C63 | getExtrapolationMatrix | Vandermonde invertibility, normal equations |
| C64 | numericalOrder | least squares of an exact line |
| C65–C68 | utils registry | invariants over histories |
| C69 | Timer | state machine |
| C70 | genQCoeffs with a heap of arrays | invariant over arbitrary histories of calls and writes |
| C71, C72 | solveDahlquist with Legendre collocation | collocation polynomial, quadrature as upper bound for degree 2M-2 or 2M-1 (monic polynomial not positive on [0,1]), energy estimate |
| C73 | solveDahlquist with collocation | `P' - zP` is a multiple of the node polynomial, so `P` is one of its Neumann series in `1/z` |
| C74, C75 | solveDahlquist with the tables | numerator and denominator of the stability function computed in `ℚ(√d)` and checked by the kernel, `|D(iy)|² - |P(iy)|²` a sum of non-negative terms, Phragmén–Lindelöf; explicit: polynomial of positive degree |
| C76 | Collocation coefficients on `u' = f(u)` | Butcher's simplifying assumptions B(p), C(M) and D(p - M) by induction on trees; bushy trees for the converse |
| C77 | SDC on `u' = f(u)` | elementary weights of the (K+1)M-stage method by induction on sweeps and trees; exact table for equidistant nodes checked by the kernel |
| C78 | Collocation coefficients on `u' = f(t, u)` | `b_i a_ij + b_j a_ji - b_i b_j` as quadrature error of `2 P P'`, Burrage-Butcher identity |
| C79 | Tables on `u' = f(t, u)` | matrix of algebraic stability in `ℚ(√d)` checked by the kernel; one-stage right-hand sides for the converse |
| C80 | `MIN` | spectrum as the roots of the characteristic polynomial |
| C81 | SDC as nSweeps grows | Gelfand's formula; continuity of eigenvalue bounds at `z = 0` and `1/z = 0`; constants are cyclic for `Q` |
| C82 | order on every smooth equation, one step | expansion in rooted trees (`Lemmas/BSeries`), Taylor bounds uniform on compact sets, contraction for the stages; the converse by an equation whose solution has one component per tree (`Lemmas/TreeODE`) |
| C83 | convergence on every smooth equation | discrete Gronwall in a tube around the solution (`Lemmas/GlobalError`) |
| C84 | SDC on every smooth `u' = f(u)` | sweeps as a Runge-Kutta method with `(K+1) M` stages (`Lemmas/SDCTransfer`) |
| C85 | weights in rounded arithmetic | `Model/Float`: each operation followed by a rounding, reductions in any order as relations; factors `φ` with bounded `|log φ|` (`Lemmas/Rounding`) |
| C86 | interpolation in rounded arithmetic | the barycentric quotient with perturbed weights (`Lemmas/RoundingLagrange`) |
| C87 | derivation matrices in rounded arithmetic | same; diagonals by the sums of the exact rows |
| C88 | documented radii of the tabulated coefficients | `stiffLimit`; a power of it is bounded by integer arithmetic with 400 bits (`Lemmas/MinCert`, data from `tools/gen_mincert.py`, checked by the kernel), nodes enclosed by sign changes of the Legendre polynomials |
| C89 | sweeps with tabulated coefficients in the left half-plane | `sweepMatrix`; an eigenvalue of modulus at least one gives an eigenvalue `1/z` of `D - ν D S`, `S` the stiff limit, `|ν| ≤ 1`; the characteristic polynomial is computed with exact integers packed into one number (Faddeev-Leverrier), its roots in `ν` are kept away from the disk by root squaring (Graeffe) on the imaginary axis and a maximum principle in the half-plane (`Lemmas/HalfPlane`, `Lemmas/HalfPlaneCert`); traces of powers for the counterexamples (`Lemmas/GrowCert`) |
| C90 | range of double precision | `Model/Double`: finite numbers, infinities and nan, any format with gradual underflow; reductions in any order; simulation of the arithmetic of `Model/Float` as long as logarithms of products are bounded (`Lemmas/DoubleLagrange`, `Lemmas/DoubleStable`), products out of range (`Lemmas/DoubleFail`); `binary64` is an instance (`Lemmas/DoubleBinary`) |
| C91 | errors for smooth functions | `Lemmas/InterpError`: iterated Rolle theorem for the difference of a smooth function and a polynomial gives the remainders of interpolation and of its first two derivatives (not in Mathlib); combined with the exactness theorems of C01, C04, C07, C22, C28 |
| C92 | integration in rounded arithmetic | `Model/FloatIntegration`: the Fejer rule with rounded cosines, an approximate Fourier transform and its check of imaginary parts, evaluation times, products and sums in any order; `Lemmas/RoundingIntegration`: norm of `v1`, errors of evaluation times, mean value theorem for Lagrange polynomials |
| C93 | Lebesgue constants of the nodes | `Lemmas/Lebesgue`: Christoffel-Darboux kernel of the recurrence used by the nodes, its values at roots (also with the modified last coefficients of RADAU and LOBATTO), bounds on [-1, 1]; `Lemmas/Hermite`: Fejer's argument for LEGENDRE LOBATTO |
| C94 | collocation methods in rounded arithmetic | `Model/FloatCollocation`; `Lemmas/Markov` (Markov's inequality), `Lemmas/NodePerturb` (Lagrange polynomials of perturbed nodes), `Lemmas/FloatCollocation` (rows of the integration with perturbed nodes and bounds of integration) |
| C95 | nodes in rounded arithmetic | `Model/FloatNodes`; `Lemmas/Weyl` (Weyl's inequality for tridiagonal matrices), `Lemmas/NodesGapAll` (distances of the nodes from the ends), `Lemmas/FloatNodes` (recurrence at the ends, last coefficients in rounded arithmetic) |
| C96 | `solveDahlquistSDC` in rounded arithmetic | `Model/FloatSDC`; `Lemmas/FloatSDC` (errors of complex operations, residual of a sweep, recursion of errors over sweeps and steps) |
| C97 | `solveDahlquist` in rounded arithmetic | `Model/FloatDahlquist`; perturbed stage systems, recursion over steps; with C93, C95 and C72 for collocation in double precision |
| C98 | time-stepping coefficients for integer nodes | `Model/IntNodes`: `deltas` is an integer array, the first step is truncated toward zero |
| C99 | generators and the arrays they were built from | `Model/QDeltaInputs`: content of the array and cache as state; invariants over histories of calls and writes |
| C100 | node-based QDelta coefficients in floating point | `Model/FloatQDelta`, `Model/FloatFlex`; the loops of sub-diagonal updates touch each entry with one nonzero value, errors by `Apx` (relative and absolute part) |
| C101 | SDC with coefficients computed in floating point | residuals with respect to the exact coefficients, recursion of C96; C93, C95 and C100 for the coefficients |
| C102 | Explicit bounds of the error against the exact solution | exact formula for the defect of the collocation polynomial, orthogonality of the node polynomial; Neumann series for general methods, with sizes of all tables by computation in the kernel; C97 and C101 for rounded arithmetic |
| C103 | lduFactorization in rounded arithmetic | invariant of the loops with rounded values; uniqueness of the exact recurrences for the product of the computed factors |
| C104 | Node values in the left half-plane, residual and error | energy estimate of the collocation polynomial divided by t, maximum against mean square of polynomials through Legendre expansions; C59, C97 |
| C105 | Legendre collocation computes Padé approximations | nodal polynomial orthogonal to low degrees: its derivatives at both ends up to a constant (uniqueness), C76's formula for the stability function |
| C106 | parallel implicit Euler sweeps contract with rate abs(z)/sqrt(1+abs(z)^2) | a Hardy inequality for averages of polynomials, transported to the quadrature rule of the weights |
| C107 | sweeps on two nodes in the left half-plane | determinant of the pencil `QΔ + ν(Q − QΔ)`, abs(ν) ≤ 1, bounded away from 0; sign of a real determinant for divergence |
| C108 | the order measured with `numericalOrder` is the order of the method | leading term of the largest error (telescoping of powers, uniform in the step), continuity of the regression and its invariance under scaling |
| C109 | `importAll`, the order of imports and class statements in `qmat.qdelta`, `sys.modules`, exceptions at any statement | executions as an inductive relation; induction over executions and sessions; the conditions for `qmat.qdelta` by kernel evaluation |
| C110 | `getSparseInterpolationMatrix` (plain, periodic), `getExtrapolationMatrix`, `hCoeffs` for smooth functions | remainder of interpolation (repeated Rolle) on the closest points; counting argument for their distance |
| C111 | `getQDelta`, `genCoeffs`, `dTau`, `storeClass`, `getClasses` in several threads | small-step semantics, invariant over all schedules; steps left as variant |
| C112 | mirrored collocation and Runge-Kutta coefficients, `solveDahlquist` there and back | substitution `t -> 1 - t` and uniqueness of interpolatory rows; a step backwards satisfies the equations of the mirrored method; expansion at 0 and a coefficient computed in the kernel for the tables that are not symmetric |
| C113 | `LagrangeApproximation`, `Collocation` and QDelta coefficients in another unit and with another origin of time | substitution and uniqueness of interpolatory rows; strong induction over the columns of LDU |
| C114 | embedded weights of the Runge-Kutta classes as error estimators | local error with approximate tree conditions for both sets of weights and the same stages; expansion of the stability functions |
| C115 | interpolation, integration and derivation matrices of two point sets; `Q` of two collocation methods; differential form | matrices that agree on the values of all polynomials are equal; antiderivatives |
| C116 | explicit error of Legendre collocation for `Re z ≤ 0`, any step; more nodes; sign of the error | remainder integral of Padé approximations by induction on the degrees; differential equation for the squared modulus of the denominator on the imaginary axis, coefficients not negative; factorisation to the left |
| C117 | dissipative equations: unique steps of any size, residuals, order `M` with a constant free of the stiffness | coercivity of the inverse collocation matrix with weights `b_i / c_i` from the quadrature of `(t W²)'`; continuation in the size of the slopes; algebraic stability with perturbations; Taylor defects |
| C118 | stiff equations with a smooth solution: limit of one step, order reduction | polynomials of degree `M` that vanish at the start are bounded by their values at the nodes (left inverse of evaluation); the defect of the slopes forces the stages onto the solution; Taylor polynomials |
| C119 | parallel implicit Euler sweeps on dissipative nonlinear equations | coercivity of the averages of the slopes (discrete Hardy inequality of C117); each implicit Euler solve is a resolvent of a dissipative map |
| C120 | equations with a one-sided Lipschitz constant | the slopes minus `mu` times the differences are dissipative, the shift is a small residual for C117's bounds; contraction for existence |
| C121 | `Timer` in several threads, with interruptions (`Model/TimerThreads.lean`) | small-step semantics, invariant over all schedules; steps left of one `stop` |
| C122 | order of SDC on `u' = f(t, u)` (`Spec/SDCTime.lean`) | contraction for the stages, C82 for the collocation, accumulation of the step errors |

## 5. Findings (properties false of the code)

See `Verif/Props`: theorems whose name contains `_fails` give concrete witnesses.  Initial list from reading the code:

1. C10 unsorted distinct points: weights are computed for the sorted points but paired with the unsorted ones
   (`lagrange.py` 169-178); `EDIRK43.hCoeffs` is affected (`C27_registered_fails`), no other registered class is.
2. C12 `np.allclose` reuse of a stencil that is not the same.
3. C24 snapping of interior nodes to the interval ends; C29: on [0,1] with 50000 Gauss nodes or more `Collocation.order` is not the order.
4. C27 `hCoeffs` evaluates at 1 whatever `tRight`.
5. C32 embedded order of ARK548L2SAESDIRK; C33 RK32, ARK343ERK; C34 RK53 row 2.
6. C36 `b2` is not padded.
7. C41/C42 BEPAR/TRAPAR with `tLeft ≠ 0`.
8. C51 `genCoeffs(k)` hands out the cached array; C53 `genQDeltaCoeffs` extends the caller's list.
   C43 `lduFactorization` has no row exchange; C44 `LU` drops the permutation; C46 MIN-SR-FLEX and MIN-SR-S built from a
   `Collocation` on another interval use `[0, 1]`.
9. C54 SOE ignores `tLeft`, and is not consistent (row sums plus `dTau`) unless the first node is 0; C55 extra positional arguments dropped.
10. C66 a failing registration leaves entries behind.
11. C60 with the last node value nothing converges if the last node is not the end of the step (`GAUSS`, `RADAU-LEFT`), though
    `getOrderSDC` announces an order.  C61 `getOrderSDC`: some bonuses are one too high, one exceeds the order of the
    collocation, the result is not monotone in the sweeps, depends on which alias of a class is given, and `stepUpdate` is
    documented as a boolean but compared with strings.
12. C66 `registerRK` leaves classes in `RK_SCHEMES` that `Q_GENERATORS` refuses; a subclass inheriting `aliases` cannot be
    registered.  C68 the size of `b2` is not checked, `cls.order is not None` holds for every property, a mixin listed after the
    base class breaks `checkOverriding` (the class before `object` is not the base).  C69 a timer used inside its own block
    reports the inner time; `__enter__` returns `None`, so `with Timer(..) as t` binds `None`.
13. C70 `genQCoeffs` and `genCoeffs` of an unpadded Runge-Kutta class return the arrays of the class: `A *= dt` on the result
    changes the method for the whole process.
14. C73 `RADAU-LEFT` collocation is not A-stable: stiff decaying equations blow up by any factor per step.
15. C74 `ESDIRK53` (documented as A-stable), `ARK324L2SAESDIRK` and `ARK343ESDIRK` are so only up to 1e-25, 1e-25, 1e-9 per step;
    the embedded weights of `ESDIRK53`, `ARK548L2SAESDIRK`, `ARK324L2SAESDIRK` are not (from the printed decimals, far below
    rounding errors).
16. C77 two bonuses of `getOrderSDC` go beyond the order of the collocation; they hold on Dahlquist's equation only.
17. C78 `LOBATTO` and `RADAU-LEFT` collocation is not B-stable: solutions of dissipative equations can move apart.
18. C79 of the registered Runge-Kutta classes only `BE`, `MidPoint` and `GAUSS_LG` are B-stable.
19. C82 `RK32` and `ARK343ERK` miss their declared order on a polynomial system, `RK32` on `u' = t^2`; so do the embedded weights of
    `ARK548L2SAESDIRK`.
20. C61 with one to four nodes `getOrderSDC` announces more than the exact order in 97 configurations (`overstatements`; 7 instead of 5
    for four `LEGENDRE` `RADAU-RIGHT` nodes, `TRAP`, four sweeps, `LASTNODE`) and less for one `RADAU-RIGHT` node with `TRAP` or
    `TRAPAR`, one sweep, `LASTNODE` (1 instead of 2).
21. C88 the spectral radii in the comments of `mincoeffs.py` are not those of `I - QΔ⁻¹ Q`: these are smaller (0.06 instead of 0.116 for
    seven Radau nodes, 0.00005 instead of 0.0208 for two), except for two Lobatto nodes.
22. C89 with five, seven and nine `EQUID` nodes the sweeps with `MIN3` do not contract for oscillatory problems (`lambda dt = 10i`, `13i`,
    `14i`), though they do for all decaying ones.
23. C90 `weightComputation='AUTO'` "tries the 'FAST' algorithm, and if an overflow is detected, it switches to the 'STABLE' algorithm", but
    only a division by zero is detected (`np.errstate(divide='raise', over='ignore')`): with 198 points `0, 1, ..., 197` all weights are
    zero and `getInterpolationMatrix` returns nan; with 227 points `j / 1024` the weight in the middle is infinite and its column is nan.
24. C92 `computeFejerRule` raises `ValueError` if an imaginary part exceeds the absolute threshold `1e-15`; a transform with a relative error of
    `1e-15` is enough (`C92_check_fails`), although the real parts, which are all that is used, may be exact. With the errors of numpy's
    transform (a few units of roundoff, divided by `sqrt(n)`), the check is passed.
25. C93 Interpolation on `EQUID` nodes amplifies perturbations of values by at least `2^(n-1)/(4(n-1)^2)` (`C93_equid_fails`); nothing in the code
    warns about many `EQUID` nodes. For all other node types the amplification grows at most like a power of the number of nodes.
26. C98 time-stepping `QDelta` generators given integer nodes truncate the first step toward zero: `BE(nodes=[1, 2, 3], tLeft=0.5)` starts with a
    step of length 0 and its matrix is singular (`C98_rows_fails`).
27. C99 generators compute from the content of the given array at the first call, not at construction; `BE`, `FE`, `TRAP` use a copy. After a write to the
    nodes, `getQDelta` and `dTau` of a `TRAPAR` object belong to different nodes (`C99_inputs_fails`).
28. C107 sweeps with the trapezoidal rule (`TRAP`, `CN`) on two positive nodes diverge for every strongly decaying equation (`lambda dt = -9` for
    `RADAU-RIGHT`), and those with `BE` if the first node is more than three quarters of the second one (`C107_stiff_fails`).
29. C109 if the import of `qmat.qdelta` (or `qmat.qcoeff`) is interrupted between two submodules, the next import raises nothing and the classes of the
    submodules that were completed are missing from the registry (`C109_retry_fails`); `importlib.reload` of the package leaves an empty registry
    (`C109_reload`). Reloading the submodules afterwards registers their classes again (`C109_repair`).
30. C110 the tolerance of `getSparseInterpolationMatrix` for reusing a row is absolute (`1e-8`): on a grid of two points at a distance `eps <= 1e-8` the
    interpolation of order 2 of `x -> x` at the grid point `eps` gives 0 (`C110_scale_fails`).
31. C111 `storeAlias` checks and assigns in two steps: two threads that register classes with the same name may both succeed, and only one class is in the
    registry (`C111_register_fails`). `getClasses` raises `RuntimeError` if a class is registered meanwhile (`C111_getClasses_fails`). Two threads that
    call `getQDelta(k, copy=False)` at the same time may get different arrays, of which only one is the cached one (`C111_identity_fails`).
32. C113 QDelta generators get no `tLeft` from `qGen`: with a collocation on `[a, b]`, `a != 0`, BE, TRAP, BEPAR, TRAPAR, MIN-SR-NS and DNODES have
    coefficients of an interval that starts at 0 (`C113_shift_fails`); MIN3, VDHS, MIN-SR-S and MIN-SR-FLEX are not multiplied by `b - a`
    (`C113_length_fails`).
33. C30/C64 numpy broadcasting hides wrong sizes: `errorDahlquist(..., uNum=[x])` compares the one value with the solution at every time
    (`C30_given_sizes`), and `numericalOrder` with one error for many step numbers returns order 0 with rmse 0 instead of an error
    (`C64_single_error_fails`).
34. C118 `Collocation.order` of GAUSS and RADAU-LEFT nodes is not the order on stiff equations: the error of a step on `u' = lam (u - t^(M+1)) + ...` is at
    least `g h^(M+1)` for every step size once `-lam` is large (`C118_order_fails`, `C118_declared_order_fails`); RADAU-RIGHT and LOBATTO do not
    have this (`C118_end_node`).
35. C121 `Timer.stop` writes `tWall` twice and reads it back: two threads that stop one timer at the same time may both report the time divided twice by
    `scale` (`C121_scaled_fails`), an interrupted `stop` may leave the unscaled time in `tWall`, and a `start` in between gives a negative time
    (`C121_negative_fails`).
36. C66 `qdelta.register` sets `_K_DEPENDENT` on the class (and wraps its `__init__`) before it stores the name: a call that raises because the name is
    taken leaves the class changed (`C66_class_changed_fails`).
