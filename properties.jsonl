{"id": "C01", "title": "Interpolation matrix is exact on polynomials", "statement": "For increasing distinct points, LagrangeApproximation(points).getInterpolationMatrix(times) applied to the values of a polynomial of degree < nPoints at the points returns the values of this polynomial at the times, whatever the weightComputation, scaleWeights and scaleRef options.", "quantifier": "all point counts, all strictly increasing points, all evaluation times (on or off the points), all polynomials of degree < n, all weight options", "why_tests_cant": "tests sample a few n, points and random polynomials", "anchors": ["qmat/lagrange.py: LagrangeApproximation.__init__", "qmat/lagrange.py: getInterpolationMatrix"]}
{"id": "C02", "title": "Interpolation is cardinal at the points and every row sums to one", "statement": "A row of getInterpolationMatrix(times) whose time equals points[j] is exactly the j-th unit vector, and the entries of every row add up to 1.  Cardinality also holds for distinct points in any order.", "quantifier": "all increasing points or points with repetitions, all times, all options", "why_tests_cant": "the coincidence branch is taken for particular times only; tests take some", "anchors": ["qmat/lagrange.py: getInterpolationMatrix"]}
{"id": "C03", "title": "Barycentric weight options are interchangeable", "statement": "FAST, STABLE and CHEBFUN weight computations give non-zero weights that differ only by one common non-zero factor, so interpolation and derivative matrices do not depend on weightComputation, scaleWeights or scaleRef.  The weights themselves are one positive number times 1/prod_{j!=i}(x_i-x_j); the number is 1 for AUTO and FAST without scaling; the largest absolute weight is 1 with scaleWeights, with CHEBFUN and with STABLE and scaleRef MAX; with STABLE and scaleRef ZERO the weight of the first point closest to zero is 1 in absolute value.  Unknown option names raise NotImplementedError, function values of another length than the points raise ValueError, and every other call succeeds.", "quantifier": "all increasing distinct points (at least two for CHEBFUN), all options", "why_tests_cant": "tests compare for some point sets within a tolerance", "anchors": ["qmat/lagrange.py: LagrangeApproximation.__init__ (analytic, logScale, chebfun)"]}
{"id": "C04", "title": "Integration matrix integrates polynomials exactly", "statement": "getIntegrationMatrix(intervals) applied to the values of a polynomial of degree < nPoints at the points gives, for each interval (a,b), the integral of the polynomial from a to b, with the FEJER rule and with any Gauss-Legendre rule of (n+1)//2 points.", "quantifier": "all point counts, all increasing points, all intervals (also reversed or empty), all polynomials of degree < n", "why_tests_cant": "tests sample intervals and random polynomials with tolerance", "anchors": ["qmat/lagrange.py: getIntegrationMatrix", "qmat/lagrange.py: computeFejerRule"]}
{"id": "C05", "title": "computeFejerRule(n) is an interpolatory quadrature rule on (-1,1)", "statement": "computeFejerRule(n) returns n strictly monotone nodes in (-1,1) and weights that integrate every polynomial of degree < n over [-1,1] exactly (degree <= n when n is odd); its imaginary-part check never raises.", "quantifier": "all n >= 1, all polynomials of degree < n", "why_tests_cant": "a rule for each n; tests check a range of n numerically", "anchors": ["qmat/lagrange.py: computeFejerRule"]}
{"id": "C06", "title": "Fejer weights are positive, symmetric and add up to 2", "statement": "The weights returned by computeFejerRule(n) are strictly positive, symmetric, and sum to 2.", "quantifier": "all n >= 1", "why_tests_cant": "universally quantified over n", "anchors": ["qmat/lagrange.py: computeFejerRule"]}
{"id": "C07", "title": "Derivative matrices are exact", "statement": "getDerivativeMatrix(order=1) (resp. 2) maps the values of a polynomial of degree < nPoints at the points to the values of its first (resp. second) derivative; order='ALL' returns both, and every row sums to zero.", "quantifier": "all point counts, increasing points, polynomials of degree < n, all weight options", "why_tests_cant": "tests sample polynomials and points with tolerance", "anchors": ["qmat/lagrange.py: getDerivativeMatrix"]}
{"id": "C08", "title": "Second derivative matrix is the square of the first", "statement": "For increasing distinct points the D2 returned by getDerivativeMatrix is the matrix product D1*D1.", "quantifier": "all n and all increasing points", "why_tests_cant": "universally quantified over points", "anchors": ["qmat/lagrange.py: getDerivativeMatrix"]}
{"id": "C09", "title": "Duplicate points are handled by zero columns", "statement": "When points contain duplicates, P and Q have a zero column for every unused copy; with USE_LEFT the first copy carries the coefficient, with USE_RIGHT the last; the other columns are those of the approximation built on the sorted unique points, so polynomials of degree < nUniquePoints are still reproduced.", "quantifier": "all point sequences with duplicates, in any order, both options", "why_tests_cant": "all multiplicity patterns cannot be enumerated", "anchors": ["qmat/lagrange.py: _setupDuplicates", "qmat/lagrange.py: _handleDuplicates"]}
{"id": "C10", "title": "Points must be given in increasing order", "statement": "Interpolation reproduces every polynomial of degree < number of distinct points when the points are increasing, or when at least one is duplicated (then in any order).  For distinct points in another order it does so iff the products prod_{k!=j}(x_j-x_k) of the points as given and of the sorted points are proportional index by index, because the weights are those of the sorted points while the points stay as given: in general it is NOT exact (finding, e.g. [0,2,1]).", "quantifier": "all points, in any order, with or without duplicates; all options, times and polynomials", "why_tests_cant": "a test passes unless it uses unsorted points", "anchors": ["qmat/lagrange.py: LagrangeApproximation.__init__", "qmat/qcoeff/butcher.py: EDIRK43", "qmat/qcoeff/butcher.py: RK.hCoeffs"]}
{"id": "C11", "title": "Calling the approximation equals the matrix applied to the values", "statement": "LagrangeApproximation(points, fValues)(t) equals getInterpolationMatrix(ravel(t)) applied to the values; explicit fValues override the stored ones; without any values, or with values of a wrong shape, an error is raised and nothing is returned.", "quantifier": "all points, values, times", "why_tests_cant": "universally quantified over data", "anchors": ["qmat/lagrange.py: LagrangeApproximation.__call__"]}
{"id": "C12", "title": "Sparse interpolation matrix rows", "statement": "For increasing inPoints, getSparseInterpolationMatrix(inPoints, outPoints, order, gridPeriod) raises AssertionError when order > len(inPoints) and otherwise returns a matrix each of whose rows has its non-zero entries on order input points that are nearest to the output point, whatever way np.argsort breaks ties; with gridPeriod = P > 0 and inPoints in [0, P) nearest means over all images moved by whole periods, and each input point is used with one image only.  The row reproduces every polynomial of degree < order at the output point after moving the points by no more than the tolerance of np.allclose, and without moving them unless the stencil of an earlier output point was taken again.  Taking it again is not harmless: with input points 0 and 1, order 2, the output points 0.3 and 0.300001 get the same row.", "quantifier": "all increasing input grids, output points, 0 <= order, periods, and sorting permutations with arbitrary tie breaking", "why_tests_cant": "the reuse heuristics depend on magnitudes tests never use", "anchors": ["qmat/lagrange.py: getSparseInterpolationMatrix"]}
{"id": "C13", "title": "Requested nodes: number, order and range", "statement": "NodesGenerator(nodeType, quadType).getNodes(n) returns n strictly increasing nodes in [-1,1] for every valid combination.", "quantifier": "all n >= 1 (>= 2 for boundary types), all six node types, all four quadrature types", "why_tests_cant": "n is unbounded; tests stop at small n", "anchors": ["qmat/nodes.py: NodesGenerator.getNodes"]}
{"id": "C14", "title": "Boundary nodes are exactly where the quadrature type says", "statement": "-1 is a node iff quadType is RADAU-LEFT or LOBATTO, 1 is a node iff quadType is RADAU-RIGHT or LOBATTO; forcing the end nodes to the boundary does not change the eigenvalue computed by the tridiagonal solver in exact arithmetic.", "quantifier": "all n, node types, quadrature types", "why_tests_cant": "n is unbounded", "anchors": ["qmat/nodes.py: NodesGenerator.getNodes", "qmat/nodes.py: getTridiagCoefficients"]}
{"id": "C15", "title": "Node request errors", "statement": "NodesGenerator raises ValueError exactly for an unknown nodeType or quadType, getNodes raises ValueError exactly when n is too small for the quadType, and never otherwise.", "quantifier": "all strings and all integers n", "why_tests_cant": "infinite input domain", "anchors": ["qmat/nodes.py: NodesGenerator.__init__", "qmat/nodes.py: getNodes"]}
{"id": "C16", "title": "Equidistant nodes", "statement": "EQUID nodes are equally spaced; GAUSS leaves a full step on both sides, LOBATTO includes both ends, RADAU-LEFT/RIGHT one end.", "quantifier": "all n and quadTypes", "why_tests_cant": "n is unbounded", "anchors": ["qmat/nodes.py: getNodes"]}
{"id": "C17", "title": "Chebyshev nodes have their closed form", "statement": "CHEBY-1..4 GAUSS nodes are cos((2i-1)pi/2n), cos(i pi/(n+1)), cos((2i-1)pi/(2n+1)), cos(2i pi/(2n+1)) in increasing order.", "quantifier": "all n >= 1, i = 1..n", "why_tests_cant": "n is unbounded, tests use tolerance", "anchors": ["qmat/nodes.py: getOrthogPolyCoefficients", "qmat/nodes.py: getTridiagCoefficients", "qmat/nodes.py: getNodes"]}
{"id": "C18", "title": "evalOrthogPoly evaluates the monic orthogonal polynomials", "statement": "evalOrthogPoly(t, alpha, beta) returns (pi_{n-1}(t), pi_n(t)) for the monic three-term recurrence with these coefficients; for CHEBY-1..4 and LEGENDRE these are the scaled T, U, V, W and Legendre polynomials.  The coefficients exist for every positive number of a type other than EQUID; without coefficients IndexError, for EQUID UnboundLocalError.", "quantifier": "all n, all t, all coefficient vectors", "why_tests_cant": "universally quantified", "anchors": ["qmat/nodes.py: evalOrthogPoly", "qmat/nodes.py: getOrthogPolyCoefficients"]}
{"id": "C19", "title": "Legendre nodes give Gauss, Radau and Lobatto quadrature", "statement": "The interpolatory weights on LEGENDRE nodes integrate polynomials over [-1,1] exactly up to degree 2n-1 (GAUSS), 2n-2 (RADAU), 2n-3 (LOBATTO).", "quantifier": "all n, all polynomials of that degree", "why_tests_cant": "n and polynomials unbounded", "anchors": ["qmat/nodes.py: getNodes", "qmat/qcoeff/collocation.py: Collocation.order"]}
{"id": "C20", "title": "Symmetric node sets", "statement": "LEGENDRE, EQUID, CHEBY-1 and CHEBY-2 nodes of quadType GAUSS or LOBATTO are symmetric about 0; RADAU-LEFT nodes are the mirror image of RADAU-RIGHT nodes for these types.", "quantifier": "all n", "why_tests_cant": "n is unbounded", "anchors": ["qmat/nodes.py: getNodes"]}
{"id": "C21", "title": "T, Tinv, S and Q are consistent", "statement": "For every Q-generator T*Tinv = Tinv*T = I, S = T*Q is the difference of consecutive rows of Q (first row kept) and Tinv*S = Q.", "quantifier": "all generators, node numbers", "why_tests_cant": "n is unbounded", "anchors": ["qmat/qcoeff/__init__.py: QGenerator.T", "qmat/qcoeff/__init__.py: QGenerator.S", "qmat/qcoeff/__init__.py: QGenerator.Tinv"]}
{"id": "C22", "title": "Collocation Q and weights integrate polynomials exactly", "statement": "For Collocation, Q maps values of a polynomial of degree < nNodes at the nodes to its integrals from tLeft to each node, weights to its integral over [tLeft,tRight]; S to its integrals between consecutive nodes.", "quantifier": "all nNodes, node types, quadrature types, intervals, polynomials of degree < nNodes", "why_tests_cant": "tests sample random polynomials", "anchors": ["qmat/qcoeff/collocation.py: Collocation.__init__", "qmat/qcoeff/collocation.py: Collocation.S"]}
{"id": "C23", "title": "Collocation row sums", "statement": "Rows of Collocation Q sum to nodes - tLeft, weights sum to tRight - tLeft, rows of S sum to node spacings.", "quantifier": "all collocation configurations", "why_tests_cant": "n and intervals unbounded", "anchors": ["qmat/qcoeff/collocation.py: Collocation"]}
{"id": "C24", "title": "Collocation nodes live in the interval with the requested boundary nodes", "statement": "Collocation nodes are strictly increasing inside [tLeft,tRight] and contain every end point that the quadType asks for.  Exactly: the nodes are those of the generator scaled to the interval, except that the first one is replaced by tLeft and the last one by tRight when np.allclose holds, so an end point is a node iff the quadType asks for it or the outermost node is np.allclose to it.  On intervals that are not tiny relative to their position and the number of nodes this is iff the quadType asks for it; in general it is NOT (finding: interior nodes are snapped to the ends, a single RADAU node may end at the wrong end).", "quantifier": "all numbers of nodes, node types, quadrature types, intervals", "why_tests_cant": "failures appear at magnitudes tests do not use", "anchors": ["qmat/qcoeff/collocation.py: Collocation.__init__"]}
{"id": "C25", "title": "Collocation override of S equals T*Q", "statement": "Collocation's own S property returns the same matrix as the base-class definition T*Q.", "quantifier": "all collocation configurations", "why_tests_cant": "universally quantified", "anchors": ["qmat/qcoeff/collocation.py: Collocation.S", "qmat/qcoeff/__init__.py: QGenerator.S"]}
{"id": "C26", "title": "Last-stage weights with a right boundary node", "statement": "If the last collocation node is tRight, weights equals the last row of Q, and (on [0,1]) hCoeffs is the last unit vector.", "quantifier": "all configurations with right node", "why_tests_cant": "n unbounded", "anchors": ["qmat/qcoeff/collocation.py: Collocation", "qmat/qcoeff/__init__.py: QGenerator.hCoeffs", "qmat/qcoeff/collocation.py: Collocation.hCoeffs"]}
{"id": "C27", "title": "hCoeffs extrapolates to the end of the interval", "statement": "hCoeffs applied to nodal values of a polynomial of degree < nNodes gives its value at 1, the right end of the default interval; for tRight != 1 and at least two nodes it does NOT give the value at the right end (finding).  For Runge-Kutta classes, padded or not, the same holds for polynomials of degree less than the number of distinct nodes when the nodes increase, when some node is repeated, or when 1 is a node (then, without repetition, hCoeffs is the indicator of that node); so it holds for every registered class except EDIRK43, whose nodes are distinct, unsorted and without 1: its hCoeffs are wrong for x^2 (finding).", "quantifier": "all configurations, all Runge-Kutta tables, all registered names and aliases", "why_tests_cant": "tests only use [0,1]", "anchors": ["qmat/qcoeff/collocation.py: Collocation.hCoeffs", "qmat/qcoeff/butcher.py: RK.hCoeffs", "qmat/qcoeff/__init__.py: QGenerator.rightIsNode"]}
{"id": "C28", "title": "Collocation.order is a quadrature order", "statement": "The weights integrate every polynomial of degree < order exactly over the interval, where order is the number returned by Collocation.order, on every interval with 4*nNodes^2*(1e-8+1e-5*max(|tLeft|,|tRight|)) < tRight-tLeft (any interval for LOBATTO); on intervals tiny relative to their position it does NOT (finding).  For LEGENDRE nodes it does iff the np.allclose tests of the constructor moved no node (or order = nNodes).", "quantifier": "all nNodes, node types, quadrature types, polynomials", "why_tests_cant": "n and polynomials unbounded", "anchors": ["qmat/qcoeff/collocation.py: Collocation.order"]}
{"id": "C29", "title": "Collocation methods converge with Collocation.order on Dahlquist's equation", "statement": "On Dahlquist's equation the error of solveDahlquist at T with a Collocation on [0,1] is O(nSteps^-p) iff the weights integrate every polynomial of degree < p exactly.  Hence it is O(nSteps^-order), order being the value of Collocation.order, whenever the np.allclose tests of the constructor move no node (always so for at most 158 nodes and for LOBATTO), and it is O(nSteps^-nNodes) always; for LEGENDRE nodes this is an equivalence.  With 50000 GAUSS nodes or more on [0,1] the last node is moved to 1 and the order is NOT attained (finding).", "quantifier": "all collocation configurations on [0,1], all p, all complex lam, all final times, all step numbers", "why_tests_cant": "an asymptotic statement; tests fit slopes on few dt", "anchors": ["qmat/qcoeff/collocation.py: Collocation.order", "qmat/qcoeff/__init__.py: QGenerator.solveDahlquist", "qmat/qcoeff/__init__.py: errorDahlquist"]}
{"id": "C30", "title": "solveDahlquist is the power of the stability function", "statement": "solveDahlquist(lam,u0,tEnd,nSteps) returns nSteps+1 values with u[0]=u0 and u[n] = R(lam*dt)^n*u0, R(z)=1+z b^T(I-zA)^{-1}1; with useEmbeddedWeights b is replaced by the embedded weights.  errorDahlquist returns the largest distance to u0*exp(lam*t_n) over all n of the given values, or of solveDahlquist's values when none are given, and passes on the error of solveDahlquist.  Given values of any number: it raises ValueError for nSteps < 0, for sizes that differ when neither is one, and when there is nothing to compare; a single given value is compared with the whole solution.", "quantifier": "all generators, lam, u0, tEnd, nSteps", "why_tests_cant": "universally quantified; histories of any length", "anchors": ["qmat/qcoeff/__init__.py: QGenerator.solveDahlquist"]}
{"id": "C31", "title": "Dahlquist order conditions imply global order", "statement": "If b^T A^{k-1} 1 = 1/k! for k = 1..p then the solveDahlquist error at fixed T is O(dt^p).", "quantifier": "all tableaux, lam, T", "why_tests_cant": "asymptotic statement", "anchors": ["qmat/qcoeff/__init__.py: solveDahlquist", "qmat/qcoeff/__init__.py: errorDahlquist"]}
{"id": "C32", "title": "Registered Runge-Kutta tables satisfy the linear order conditions of their declared order", "statement": "For each registered Runge-Kutta scheme b^T A^{k-1} 1 = 1/k! for k=1..order (and orderEmbedded for b2), exactly for exactly given coefficients and up to the digits given for the others, and errorDahlquist converges with that order; the next condition fails, so the declared order is the true one.  It does NOT hold for the embedded order 5 of ARK548L2SAESDIRK, whose residual 1.8e-8 is far above the digits given (finding).", "quantifier": "all registered schemes, all k <= order", "why_tests_cant": "floating point tests check slopes with tolerance on order", "anchors": ["qmat/qcoeff/butcher.py: all schemes"]}
{"id": "C33", "title": "Registered Runge-Kutta tables satisfy all rooted-tree order conditions of their declared order", "statement": "For every rooted tree with at most order vertices the elementary weight of the scheme is 1/density (up to the digits given), also for embedded weights.  It does NOT hold for RK32 (declared 3, nonlinear order 2), ARK343ERK (declared 4) and the embedded weights of ARK548L2SAESDIRK (declared 5) (findings).", "quantifier": "all registered exact schemes, all rooted trees up to the order", "why_tests_cant": "repo tests use the linear Dahlquist problem only", "anchors": ["qmat/qcoeff/butcher.py: all schemes"]}
{"id": "C34", "title": "Nodes are the row sums of A", "statement": "c_i = sum_j a_ij for each registered Runge-Kutta scheme, up to the digits given.  It does NOT hold for RK53 (A[2,1]=3/13 while c[2]=3/16) (finding).", "quantifier": "all registered schemes and stages", "why_tests_cant": "linear tests never look at c", "anchors": ["qmat/qcoeff/butcher.py: all schemes"]}
{"id": "C35", "title": "Explicit and diagonally implicit structure, solvability", "statement": "Schemes documented explicit have strictly lower-triangular A, hence I - zA is invertible for every z and solveDahlquist is defined for every lam and dt; all others but GAUSS_LG are lower triangular; with every scheme solveDahlquist is defined for every number of steps when Re(lam*tEnd) <= 0.", "quantifier": "all registered explicit/DIRK schemes, all z", "why_tests_cant": "all z cannot be sampled", "anchors": ["qmat/qcoeff/butcher.py: all schemes", "qmat/qcoeff/__init__.py: solveDahlquist"]}
{"id": "C36", "title": "Zero padding a Runge-Kutta scheme does not change its results", "statement": "RK(padding='LEFT'|'RIGHT'|'BOTH') gives the same solveDahlquist values as the unpadded scheme, keeps c = A*1 and puts nodes 0 and/or 1 at the ends; an unknown padding raises; embedded weights are NOT padded, so solveDahlquist(useEmbeddedWeights=True) and genCoeffs(embedded=True) of a padded scheme fail (finding).", "quantifier": "all schemes, paddings, lam, dt, nSteps", "why_tests_cant": "universally quantified", "anchors": ["qmat/qcoeff/butcher.py: RK.__init__"]}
{"id": "C37", "title": "genQCoeffs returns what the generator returns", "statement": "genQCoeffs(name, form, hCoeffs, embedded, **params) finds the class under its name and every alias, makes an instance and returns its nodes, weights and Q (form Z2N) or the row differences of Q (form N2N); embedded adds a second row of weights and hCoeffs a fourth array, and the flags change nothing else.  Errors in this order: ValueError for an unknown name, what the constructor raises, ValueError for another form, NotImplementedError for embedded weights that do not exist (all of Collocation), ValueError for embedded weights of a padded class.  The constructors raise TypeError for unknown or missing parameters, ValueError for unknown node or quadrature types or a wrong number of nodes, and AssertionError for a padding that is neither one of the three strings nor false.  A padded class has a zero stage before and the weights as last row after.  getInstance() is the class without padding, or the collocation with 4 Legendre RADAU-RIGHT nodes.", "quantifier": "all names, forms, flags, paddings; all node types, quadrature types, numbers of nodes and intervals tLeft < tRight", "why_tests_cant": "all combinations", "anchors": ["qmat/qcoeff/__init__.py: genQCoeffs", "qmat/qcoeff/__init__.py: QGenerator.genCoeffs", "qmat/qcoeff/__init__.py: QGenerator.getInstance"]}
{"id": "C38", "title": "Backward Euler, forward Euler and trapezoidal QDelta", "statement": "With the coefficients and dTau that genQDeltaCoeffs(name, dTau=True, nodes=..., tLeft=...) returns for BE/IE, FE/EE, TRAP/CN, the vector QDelta f + dTau f0 is obtained by stepping from node to node with backward Euler, forward Euler and the trapezoidal rule: each component is the previous one (0 for the first) plus the step times the right, left, mean value of f.  The constructor only needs one node.", "quantifier": "all node vectors, tLeft, f", "why_tests_cant": "universally quantified", "anchors": ["qmat/qdelta/timestepping.py: BE", "qmat/qdelta/timestepping.py: FE", "qmat/qdelta/timestepping.py: TRAP"]}
{"id": "C39", "title": "Row sums of time-stepping QDelta plus dTau", "statement": "Row sums of BE, of FE plus dTau and of TRAP plus dTau are nodes - tLeft: constants are integrated exactly.  BEPAR and TRAPAR (with dTau) with tLeft 0 make one backward Euler or trapezoidal step from 0 to each node.  dTau is zero for all other classes but SOE.", "quantifier": "all nodes, tLeft", "why_tests_cant": "universally quantified", "anchors": ["qmat/qdelta/timestepping.py: BE, FE, TRAP", "qmat/qdelta/__init__.py: dTau"]}
{"id": "C40", "title": "SDelta of BE, FE, TRAP", "statement": "SDelta of BE is diag(deltas), of FE the first lower diagonal holding deltas[1:], of TRAP their mean; for every generator SDelta holds the differences of consecutive rows of QDelta and the cumulative row sums of SDelta give QDelta back.", "quantifier": "all nodes, any generator, any k", "why_tests_cant": "universally quantified", "anchors": ["qmat/qdelta/__init__.py: getSDelta", "qmat/qdelta/timestepping.py: BE, FE, TRAP"]}
{"id": "C41", "title": "QDelta coefficients are lower triangular", "statement": "For all parameters and sweeps every registered generator except Exact returns a lower-triangular matrix, the diagonal families a diagonal one, PIC, FE, SOE a strictly lower one (for LU/LU2 given that scipy's U is upper triangular).  BEPAR and TRAPAR only with tLeft = 0: with another tLeft they return full matrices (finding).", "quantifier": "all nodes, Q matrices, k, tLeft", "why_tests_cant": "tests use tLeft = 0", "anchors": ["qmat/qdelta/timestepping.py", "qmat/qdelta/algebraic.py", "qmat/qdelta/diag.py"]}
{"id": "C42", "title": "TRAPAR and TRAP match Q on first order", "statement": "TRAP, for any tLeft, maps the values of t - tLeft to (t - tLeft)^2/2, and so does TRAPAR with tLeft = 0; on collocation nodes (at least 2) this is what Q does, so (Q - QDelta) vanishes on that function.  It does NOT hold for TRAPAR with tLeft != 0 (finding).", "quantifier": "all nodes, tLeft, all Collocation objects with at least 2 nodes", "why_tests_cant": "universally quantified", "anchors": ["qmat/qdelta/timestepping.py: TRAP, TRAPAR", "qmat/utils/sdc.py: getOrderSDC"]}
{"id": "C43", "title": "LDU factorization", "statement": "lduFactorization(A) returns unit-lower L, diagonal D, unit-upper U with A = L*D*U whenever no leading principal minor vanishes (the last may), and this is the only such factorization of an invertible matrix; a non-square A raises AssertionError.  It has no row exchanges, so it does NOT factor invertible matrices with a zero pivot (finding).", "quantifier": "all n, all square matrices with non-vanishing pivots", "why_tests_cant": "universally quantified over matrices", "anchors": ["qmat/utils/num.py: lduFactorization", "qmat/qdelta/algebraic.py: LDU, GS, QPar, LU, LU2"]}
{"id": "C44", "title": "LU trick makes the stiff SDC iteration nilpotent", "statement": "If Q^T is factored without row exchange and Q is invertible, QDelta of LU satisfies (I - QDelta^{-1}Q)^M = 0: M sweeps solve the stiff limit exactly; LU2 is twice LU.  With a row exchange the property is lost, since the permutation is dropped (finding).", "quantifier": "all M, all such Q", "why_tests_cant": "universally quantified", "anchors": ["qmat/qdelta/algebraic.py: LU"]}
{"id": "C45", "title": "MIN-SR-NS makes the non-stiff SDC iteration nilpotent", "statement": "For every collocation matrix on [0,tRight], and every Q generator whose Q integrates polynomials up to degree M-1 from 0, MIN-SR-NS gives QDelta = diag(nodes)/M with (Q-QDelta)^M = 0.", "quantifier": "all M, all node types, all such Q", "why_tests_cant": "universally quantified over nodes", "anchors": ["qmat/qdelta/diag.py: MIN_SR_NS"]}
{"id": "C46", "title": "MIN-SR-FLEX solves the stiff limit in M sweeps", "statement": "With the matrices MIN-SR-FLEX gives for the sweeps 1..M, stiff errors (I-QDelta_M^{-1}Q)...(I-QDelta_1^{-1}Q) vanish for collocation on [0,1] without zero node.  On any other interval the generator built from the Collocation object returns the coefficients of [0,1] (finding).", "quantifier": "all M, node and quadrature types, initial errors", "why_tests_cant": "universally quantified over nodes", "anchors": ["qmat/qdelta/diag.py: MIN_SR_FLEX"]}
{"id": "C47", "title": "MIN-SR-S coefficients solve the stiff nilpotency system", "statement": "If the root finder returns a root with non-zero entries of the last system it is given, MIN-SR-S satisfies (I - QDelta^{-1}Q)^M = 0 for GAUSS and RADAU-RIGHT, and the same on the nodes other than the first for RADAU-LEFT and LOBATTO (where the first node is 0).", "quantifier": "all M, node and quadrature types, root finders, fits", "why_tests_cant": "universally quantified", "anchors": ["qmat/qdelta/diag.py: MIN_SR_S"]}
{"id": "C48", "title": "Diagonal families are related as documented", "statement": "MIN-SR-NS = diag(nodes)/M, MIN-SR-FLEX(k) = diag(nodes)/k up to k = M then MIN-SR-S, Jumper(k) = diag(nodes)/(2k), FlexJumper(1) = diag(nodes), FlexJumper(k+1) = Jumper(k), DNODES-j = diag(nodes)/j, PIC = 0, QPar = diag(Q), GS = lower(Q), Exact = Q; through every alias.", "quantifier": "all nodes, Q, k", "why_tests_cant": "universally quantified", "anchors": ["qmat/qdelta/diag.py", "qmat/qdelta/algebraic.py"]}
{"id": "C49", "title": "Tabulated coefficients lookups", "statement": "FromTable generators return the tabulated diagonal exactly for tabulated (nodeType, quadType, M) and raise NotImplementedError for any other combination.", "quantifier": "all nodeType/quadType strings and M", "why_tests_cant": "infinite key domain", "anchors": ["qmat/qdelta/diag.py: FromTable", "qmat/qdelta/mincoeffs.py"]}
{"id": "C50", "title": "Sweep index checks", "statement": "k-dependent generators accept k=None as k=1, raise ValueError for k<1; generators are k-dependent iff their documented default k is not None.", "quantifier": "all integers k and generators", "why_tests_cant": "infinite domain", "anchors": ["qmat/qdelta/diag.py: check", "qmat/qdelta/__init__.py: QDeltaGenerator.isKDependent"]}
{"id": "C51", "title": "getQDelta cache is transparent", "statement": "getQDelta(k) (default copy) and getSDelta(k) return the same matrix whatever getQDelta/getSDelta calls (also failing ones) were made before on the object, in whatever order and for whatever sweeps, and whatever the caller wrote into the arrays returned with copy=True.  Findings: genCoeffs(k) with a scalar k and getQDelta(k, copy=False) hand out the cached array, writing to it changes later results; MIN-SR-S objects share one stored matrix between calls.", "quantifier": "all generator objects, all call histories, all in-place modifications of the returned copies", "why_tests_cant": "all histories cannot be enumerated", "anchors": ["qmat/qdelta/__init__.py: QDeltaGenerator.getQDelta", "qmat/qdelta/__init__.py: genCoeffs"]}
{"id": "C52", "title": "genCoeffs of a list of sweeps stacks the single sweeps", "statement": "genCoeffs(k=[k1..kn], form) returns the stack of genCoeffs(k=ki, form) in order; Z2N gives QDelta, N2N gives T*QDelta; other forms raise; dTau is appended iff asked.", "quantifier": "all lists of sweeps, forms", "why_tests_cant": "lists unbounded", "anchors": ["qmat/qdelta/__init__.py: QDeltaGenerator.genCoeffs"]}
{"id": "C53", "title": "genQDeltaCoeffs with nSweeps", "statement": "genQDeltaCoeffs(type, nSweeps=n) gives the stack of the matrices of sweeps k=1..n of this type; a list of types gives the matrix of type i for k=i+1, completed with its last entry up to nSweeps; dTau is the one of the first type; the call succeeds as soon as every sweep can be computed with matrices of one size; without nSweeps a single name gives its k=None matrix; a non-positive nSweeps and unknown names raise ValueError, an empty list and a list longer than nSweeps AssertionError.  Finding: a caller's list shorter than nSweeps is extended in place, so that repeating the call with fewer sweeps raises.", "quantifier": "all type names and lists, all nSweeps, forms, parameters", "why_tests_cant": "lists unbounded", "anchors": ["qmat/qdelta/__init__.py: genQDeltaCoeffs"]}
{"id": "C54", "title": "Second-order explicit (SOE) QDelta", "statement": "For increasing non-negative nodes the SOE QDelta is strictly lower triangular and U = QDelta f is leap-frog: U is 0 at the first node and the parabola through three consecutive points has slope f at the middle one, the first parabola starting at (0,0); if the first node is 0 the first step is forward Euler and the rows add up to the nodes.  Findings: tLeft plays no role; if the first node is positive, row sums and dTau do not add up to the nodes.", "quantifier": "all node numbers, all increasing non-negative nodes, all right-hand sides", "why_tests_cant": "universally quantified", "anchors": ["qmat/qdelta/timestepping.py: SOE"]}
{"id": "C55", "title": "useQGen parameter resolution", "statement": "A generator constructed with qGen= (or the deprecated coll=) takes from it exactly the parameters not given explicitly; explicit values win over the extracted ones, keyword over positional; without qGen it gets the given ones; giving both qGen and coll raises.  Extra positional arguments are dropped silently (finding).", "quantifier": "all parameter lists", "why_tests_cant": "all combinations", "anchors": ["qmat/utils/__init__.py: useQGen"]}
{"id": "C56", "title": "SDC sweep error recursion", "statement": "When solveDahlquistSDC returns, it returns nSteps+1 values starting with u0; each step runs nSweeps sweeps (I - z QDelta_k) u^{k+1} = u + z (Q - QDelta_k) u^k from the copy of the value and takes the last node value or the quadrature of the last iterate.  The iterates satisfy (I - z QDelta_k)(u^{k+1}-u*) = z (Q-QDelta_k)(u^k - u*), u* the collocation solution, which is the unique fixed point of a sweep.  Singular sweep matrices raise LinAlgError, nSteps=0 ZeroDivisionError.  errorDahlquistSDC returns the largest distance to u0*exp(lam*t_n) of the given or computed values, and passes on the error of solveDahlquistSDC.", "quantifier": "all Q, QDelta sequences, lam, dt, sweeps, steps", "why_tests_cant": "all histories", "anchors": ["qmat/utils/sdc.py: solveDahlquistSDC"]}
{"id": "C57", "title": "Exact QDelta needs one sweep", "statement": "A sweep with QDelta = Q gives the collocation solution, whatever the iterate before; so when the last sweep uses Q, solveDahlquistSDC with the weights returns what solveDahlquist returns, and with the single matrix Q the two also raise together.", "quantifier": "all Q, lam, dt, steps", "why_tests_cant": "universally quantified", "anchors": ["qmat/utils/sdc.py: solveDahlquistSDC", "qmat/qdelta/algebraic.py: Exact"]}
{"id": "C58", "title": "Monitors never change the SDC solution; 2D QDelta equals repeated 3D QDelta", "statement": "solveDahlquistSDC returns the same uNum for every valid monitors argument, and a single QDelta behaves as nSweeps copies of it; unknown monitors raise AssertionError.", "quantifier": "all inputs", "why_tests_cant": "universally quantified", "anchors": ["qmat/utils/sdc.py: solveDahlquistSDC"]}
{"id": "C59", "title": "SDC residual monitor", "statement": "The monitored residual is u + z Q u^k - u^k for every step and sweep, 0 iff the iterate is the collocation solution; the monitored error is the distance to the exact solution at the node times.", "quantifier": "all inputs", "why_tests_cant": "universally quantified", "anchors": ["qmat/utils/sdc.py: solveDahlquistSDC"]}
{"id": "C60", "title": "SDC gains one order per sweep up to the quadrature order", "statement": "On Dahlquist's equation K sweeps from the copy initial guess with any QDelta (also varying with the sweep) give errorDahlquistSDC = O(nSteps^{-q}) with q = min(p, K+1) for the quadrature update and min(p, K) for the last node value, p the linear order of the method; the order is exactly this when p is larger, unless the functional of the defect (Q-QDelta_{K-1})...(Q-QDelta_0) Q 1 vanishes, and then at least one more.  For a collocation on [0,1] the value getOrderSDC starts from is right, including the extra order of TRAP/TRAPAR, when it starts from an order of the quadrature; Collocation.order is one whenever no node was moved (C28), in particular up to 158 nodes.  In general the order is p iff the Taylor coefficients of the step factor are 1/j! up to j=p and not further.", "quantifier": "all Q of linear order p, all QDelta sequences, all K, all lam, u0, tEnd; all collocations on [0,1]", "why_tests_cant": "asymptotic in dt, unbounded in K", "anchors": ["qmat/utils/sdc.py: getOrderSDC", "qmat/utils/sdc.py: solveDahlquistSDC", "qmat/utils/sdc.py: errorDahlquistSDC"]}
{"id": "C61", "title": "getOrderSDC: bounds, saturation, and the exact orders with one to four nodes", "statement": "getOrderSDC returns the base order of C60 plus a bonus of at most two; there is no bonus for fewer than one or more than four sweeps, fewer than two or more than four nodes, or a QDelta type that is not a time stepping one, so from max(5, order) sweeps on the result is the order of the collocation and stays it.  For one to four nodes of every node and quadrature type, the six time stepping types, both step updates and any number of sweeps the exact order of convergence on Dahlquist's equation is the base order of C60, and one more in an explicit list of configurations.  The order announced by getOrderSDC is this order except for an explicit list: 97 configurations for which it is one or two too high, and one node at the end of the step with one trapezoidal sweep, for which it is one too low; from five sweeps on it is exact.", "quantifier": "all M, nSweeps, types, stepUpdate strings; the exact orders: all node and quadrature types with at most four nodes, all nSweeps, lam, u0, tEnd", "why_tests_cant": "infinite domain of nSweeps", "anchors": ["qmat/utils/sdc.py: getOrderSDC"]}
{"id": "C62", "title": "SDC with nilpotent QDelta: non-stiff and stiff limits", "statement": "K sweeps reduce the distance between the iterate and the collocation solution by a factor O(|z|^K) for z->0; with MIN-SR-NS and K >= M by O(|z|^{K+1}), and SDC then has one more order.  With MIN-SR-FLEX (its M matrices, also when a node is zero), MIN-SR-S (if fsolve finds a root) and LU (no row exchange, Q invertible), M sweeps are defined for all large z and reduce the distance by O(1/|z|) for |z|->oo.", "quantifier": "all collocations, M, K, complex z, u", "why_tests_cant": "universally quantified", "anchors": ["qmat/qdelta/diag.py", "qmat/utils/sdc.py: solveDahlquistSDC"]}
{"id": "C63", "title": "Extrapolation matrix is exact", "statement": "getExtrapolationMatrix(nodes, evalPoints, pOrder) maps nodal values of a polynomial of degree <= pOrder to its values at evalPoints; in general it evaluates the unique least-squares polynomial of degree <= pOrder; with pOrder=None it is the Lagrange interpolation matrix.  It raises ValueError for pOrder < -1 and LinAlgError for fewer than pOrder+1 different nodes, and nothing else.", "quantifier": "all distinct nodes, evaluation points, orders < n", "why_tests_cant": "universally quantified", "anchors": ["qmat/utils/num.py: getExtrapolationMatrix"]}
{"id": "C64", "title": "numericalOrder recovers the exponent", "statement": "numericalOrder(nSteps, err) returns order p and rmse 0 exactly for err = C*n^{-p}; in general it is the slope and the error of the least-squares line of the logarithms; scaling the errors or the step numbers does not change it.  For arrays of any sizes and entries it raises ValueError exactly for different sizes none of which is one, and gives numbers exactly for positive entries with two different step numbers; FALSE that one error for many step numbers is refused: it gives order 0 and rmse 0.", "quantifier": "all positive C, real p, step sequences with at least two different values; all arrays", "why_tests_cant": "universally quantified", "anchors": ["qmat/utils/num.py: numericalOrder"]}
{"id": "C65", "title": "Registries never overwrite and every alias resolves", "statement": "After any sequence of register and registerRK calls, raising ones included, no key ever changed its class, and the name and all aliases of a class whose call succeeded give this class; a call with a name or alias that is taken, or repeated, raises.  The classes of the package have different keys, so any order of registration gives the same registry.", "quantifier": "all registration histories", "why_tests_cant": "all histories", "anchors": ["qmat/utils/__init__.py: storeClass", "qmat/utils/__init__.py: storeAlias", "qmat/qcoeff/__init__.py: register", "qmat/qdelta/__init__.py: register"]}
{"id": "C66", "title": "Failed registrations leave no trace", "statement": "A register call that raises leaves the registry unchanged.  TRUE when a check fails or the name is taken; FALSE otherwise: the name and the aliases before the one that is taken stay, RK_SCHEMES keeps classes that Q_GENERATORS refuses, and a subclass that inherits aliases is always refused and stays.  What stays is exactly such an initial segment of the keys.", "quantifier": "all registration histories", "why_tests_cant": "all histories", "anchors": ["qmat/utils/__init__.py: storeClass", "qmat/qcoeff/butcher.py: registerRK"]}
{"id": "C67", "title": "getClasses lists each registered class exactly once", "statement": "getClasses(dict, module) has each class of the dictionary (of the module) exactly once, under its first key, which in a registry filled by register is the name of the class.", "quantifier": "all registries", "why_tests_cant": "infinite domain", "anchors": ["qmat/utils/__init__.py: getClasses"]}
{"id": "C68", "title": "Registration rejects classes that break the generator interface", "statement": "register accepts a Q-generator exactly when nodes, Q, weights and order are overridden by properties, an instance can be made and its keys are new; register accepts a QDelta-generator exactly when its constructor takes **kwargs, computeQDelta is overridden with a positional parameter k, and its keys are new (it is k-dependent exactly when k has no default None or it inherits this); registerRK in addition needs arrays of consistent shapes.  So getInstance never raises for a registered class.", "quantifier": "all classes/tableaux", "why_tests_cant": "infinite domain", "anchors": ["qmat/utils/__init__.py: checkOverriding", "qmat/qcoeff/butcher.py: checkAndStore"]}
{"id": "C69", "title": "Timer accounting", "statement": "After any history of start and stop calls, stop sets tWall to the clock minus the clock of the last start, over scale, and later starts keep it; stop raises exactly without a start or for scale 0.  As context manager it reports the time of the block also when the block raises, and lets the exception through.", "quantifier": "all clock histories", "why_tests_cant": "all histories", "anchors": ["qmat/utils/__init__.py: Timer"]}
{"id": "C70", "title": "Arrays returned by genQCoeffs", "statement": "In any history of genQCoeffs calls and in-place writes to returned arrays: returned arrays contain the returned values and keep them until written to; arrays of Collocation and of padded classes are new; collocation results never depend on the history, and those of a Runge-Kutta class do not as long as none of its own arrays is written to.  FALSE without this restriction: unpadded Runge-Kutta calls return the arrays of the class, so writing to them changes what every later call returns, under every alias.", "quantifier": "all histories of calls and writes, all classes", "why_tests_cant": "all histories", "anchors": ["qmat/qcoeff/__init__.py: genQCoeffs", "qmat/qcoeff/__init__.py: QGenerator.genCoeffs", "qmat/qcoeff/butcher.py: RK"]}
{"id": "C71", "title": "Legendre collocation solves every decaying or oscillating equation", "statement": "With LEGENDRE nodes on [0,1], whatever the quadrature type, the weights are positive, and solveDahlquist never raises for Re(lam)*tEnd <= 0, however stiff the equation and whatever the number of steps.  Condition: the closeness tests of the constructor moved no node (always for LOBATTO, and up to 158 nodes).", "quantifier": "all numbers of nodes, quadrature types, complex lam and u0, tEnd, numbers of steps", "why_tests_cant": "unbounded lam and nNodes", "anchors": ["qmat/qcoeff/__init__.py: QGenerator.solveDahlquist", "qmat/qcoeff/collocation.py: Collocation"]}
{"id": "C72", "title": "A-stability of Legendre collocation", "statement": "With LEGENDRE nodes of type GAUSS, RADAU-RIGHT or LOBATTO on [0,1] (no node moved) the values returned by solveDahlquist never grow in modulus for Re(lam)*tEnd <= 0, whatever the step size; with GAUSS they all have the same modulus for purely imaginary lam.", "quantifier": "all numbers of nodes, complex lam and u0, tEnd, numbers of steps", "why_tests_cant": "unbounded lam and nNodes", "anchors": ["qmat/qcoeff/__init__.py: QGenerator.solveDahlquist", "qmat/qcoeff/collocation.py: Collocation"]}
{"id": "C73", "title": "Stiff limit of collocation", "statement": "For every node family, once |lam*tEnd/nSteps| is large enough solveDahlquist succeeds and each step multiplies by prod(1-1/c_i) up to any accuracy, if no node is 0: RADAU-RIGHT damps stiff components to nothing (L-stable with C72), GAUSS with symmetric nodes multiplies them by (-1)^M; LOBATTO with symmetric nodes multiplies them by (-1)^(M-1).  Finding: RADAU-LEFT multiplies them by an arbitrarily large factor, so these methods are not A-stable.", "quantifier": "all node families, numbers of nodes, complex lam and u0, tEnd, numbers of steps, accuracies", "why_tests_cant": "limit in lam", "anchors": ["qmat/qcoeff/__init__.py: QGenerator.solveDahlquist", "qmat/qcoeff/collocation.py: Collocation"]}
{"id": "C74", "title": "A-stability of the implicit Runge-Kutta classes", "statement": "With each implicit registered class except three the values returned by solveDahlquist never grow in modulus for Re(lam)*tEnd <= 0, whatever the step size; also with the embedded weights of EDIRK43 and ARK548L2SAESDIRK2.  With ESDIRK53 and ARK324L2SAESDIRK, and the embedded weights of ESDIRK43, a step grows by less than the factor 1+1e-25, with ARK343ESDIRK by less than 1+1e-9: FALSE without this margin, the printed decimals miss stability.  With the embedded weights of ESDIRK53, ARK548L2SAESDIRK and ARK324L2SAESDIRK some purely imaginary lam gives growth.  With the explicit classes every step multiplies by more than any given factor once |lam*tEnd/nSteps| is large.", "quantifier": "all registered Runge-Kutta classes, complex lam and u0, tEnd, numbers of steps", "why_tests_cant": "unbounded lam and step counts", "anchors": ["qmat/qcoeff/__init__.py: QGenerator.solveDahlquist", "qmat/qcoeff/butcher.py: registered classes"]}
{"id": "C75", "title": "Stiff limit of the implicit Runge-Kutta classes", "statement": "For Re(lam)*tEnd <= 0 and |lam*tEnd/nSteps| large enough, solveDahlquist multiplies in every step by a fixed number up to any accuracy: 0 for BE, SDIRK2, SDIRK2_2, SDIRK3, DIRK43, SDIRK54, ESDIRK43, ARK548L2SAESDIRK2, ARK222EDIRK, ARK443ESDIRK, ARK343ESDIRK (stiff parts vanish); less than 1e-22, but not 0, for ESDIRK53, ARK548L2SAESDIRK, ARK324L2SAESDIRK; -1 for MidPoint and TRAP, 1 for GAUSS_LG, -341/625 for EDIRK43, -379/570 for EDIRK4, 5/12 for ARK4EDIRK, where stiff parts persist.", "quantifier": "all implicit registered classes, complex lam and u0, tEnd, numbers of steps, accuracies", "why_tests_cant": "limit in lam", "anchors": ["qmat/qcoeff/__init__.py: QGenerator.solveDahlquist", "qmat/qcoeff/butcher.py: registered classes"]}
{"id": "C76", "title": "Order of collocation on nonlinear equations", "statement": "The coefficients of a collocation on [0,1] satisfy the Runge-Kutta order conditions of all rooted trees (order on u'=f(u), not only on Dahlquist's equation) with at most p vertices iff the weights integrate polynomials of degree < p exactly; so Collocation.order is an order on u'=f(u) whenever no node was moved (in particular up to 158 nodes, and for LOBATTO), it is never below the number of nodes, and no collocation has an order above twice the number of nodes.", "quantifier": "all node families, numbers of nodes, rooted trees", "why_tests_cant": "infinitely many order conditions", "anchors": ["qmat/qcoeff/collocation.py: Collocation.order", "qmat/qcoeff/collocation.py: Collocation"]}
{"id": "C77", "title": "Order of SDC on nonlinear equations", "statement": "On u'=f(u), K sweeps from the copy initial guess with any QDelta (also varying with the sweep) satisfy the order conditions of all rooted trees with at most min(order, K+1) vertices for the quadrature update and min(order, K) for the last node value, one more with TRAP and TRAPAR: the value getOrderSDC starts from.  No QDelta and no number of sweeps gives an order beyond the one of the quadrature.  For two to four equidistant nodes, up to five sweeps, BE, FE, TRAP, BEPAR, TRAPAR the order announced by getOrderSDC is exact on u'=f(u), except for the configurations of C61 and two more, where it holds for Dahlquist's equation only.", "quantifier": "all collocations on [0,1], all QDelta sequences, all K, all rooted trees", "why_tests_cant": "infinitely many order conditions, unbounded K", "anchors": ["qmat/utils/sdc.py: getOrderSDC", "qmat/qcoeff/collocation.py: Collocation"]}
{"id": "C78", "title": "Legendre collocation: quadratic invariants and contractivity", "statement": "On u'=f(t,u) in any vector space, a step with the coefficients of LEGENDRE GAUSS nodes keeps every quadratic form that the equation keeps (symplectic coefficients).  With GAUSS and RADAU-RIGHT nodes two solutions of a dissipative equation in an inner product space never move apart, for any step size (algebraic stability).  Condition: no node moved.  FALSE for LOBATTO (though A-stable) and RADAU-LEFT: the distance can double in a step.", "quantifier": "all numbers of nodes, vector spaces, f, step sizes, values", "why_tests_cant": "arbitrary f", "anchors": ["qmat/qcoeff/collocation.py: Collocation", "qmat/qcoeff/__init__.py: genQCoeffs"]}
{"id": "C79", "title": "Runge-Kutta classes: quadratic invariants and contractivity", "statement": "On u'=f(t,u), two solutions of a dissipative equation never move apart in steps with the coefficients of BE, MidPoint and GAUSS_LG, for any step size; steps with MidPoint and GAUSS_LG keep every quadratic form that the equation keeps.  FALSE for every other registered class, implicit ones included: there is a dissipative (norm keeping) equation and a step that increases the distance (changes the norm).", "quantifier": "all registered Runge-Kutta classes, vector spaces, f, step sizes, values", "why_tests_cant": "arbitrary f", "anchors": ["qmat/qcoeff/butcher.py: registered classes"]}
{"id": "C80", "title": "MIN: minimal spectral radius among diagonal coefficients", "statement": "The coefficients named MIN are diag(1/x) where x is what scipy.optimize.minimize, started from 10 for every node, returns for the largest modulus of the eigenvalues of I - diag(x) Q; if some x is zero LinAlgError is raised.  If the minimizer finds a minimum then no diagonal QDelta without zeros has a smaller spectral radius of I - QDelta^-1 Q, the factor of a sweep in the stiff limit.", "quantifier": "all matrices Q, all minimizers, all diagonal matrices", "why_tests_cant": "all matrices; an optimum over a continuum", "anchors": ["qmat/qdelta/diag.py: MIN"]}
{"id": "C81", "title": "SDC with more and more sweeps", "statement": "With a constant QDelta, if I - z QDelta is invertible and all eigenvalues of (I - z QDelta)^-1 z (Q - QDelta) have modulus less than one (z = lambda dt), then the collocation problem has exactly one solution, solveDahlquist and solveDahlquistSDC succeed, and as nSweeps grows the values of solveDahlquistSDC tend to the ones of solveDahlquist, with the weights, and with the last node value when the weights are the last row of Q.  The error after K sweeps is at most C rho^K for any rho above these moduli.  The condition holds for every small z with any QDelta, for every large z if the eigenvalues of I - QDelta^-1 Q have modulus less than one; in particular for LU, LU2 and MIN-SR-S.  Picard iteration (PIC) on a collocation method converges exactly when all eigenvalues of z Q have modulus less than one.", "quantifier": "all matrices Q, QDelta, all lambda, numbers of steps, initial values, monitors", "why_tests_cant": "limits in the number of sweeps", "anchors": ["qmat/utils/sdc.py: solveDahlquistSDC", "qmat/qdelta/algebraic.py: LU, LU2, PIC", "qmat/qdelta/diag.py: MIN_SR_S"]}
{"id": "C82", "title": "Every method has its declared order on every smooth differential equation, in one step", "statement": "For every registered Runge-Kutta class with exact coefficients other than RK32 and RK53, and every collocation method with up to 158 nodes: for every differential equation u' = f(t,u) in a Banach space and every solution y along which f is p times continuously differentiable, where p is .order, a small step from y(t) can be done in exactly one way near y(t), and misses y(t+h) by at most C h^(p+1), uniformly in t; the same for the embedded weights with .orderEmbedded. With rounded coefficients, and for RK53, the error on u' = f(u) is at most eps B h + C h^(p+1). A method has order p on all such equations if and only if it satisfies the conditions of all rooted trees with up to p vertices. RK32, ARK343ERK and the embedded weights of ARK548L2SAESDIRK miss their declared order on an explicit polynomial system; RK32 even on u' = t^2.", "quantifier": "all registered RK classes, all node and quadrature types, all Banach spaces, right hand sides, solutions, times and small step sizes", "why_tests_cant": "tests measure the slope of errors for a few equations", "anchors": ["qmat/qcoeff/butcher.py: RK, RK.order", "qmat/qcoeff/collocation.py: Collocation.order", "qmat/qcoeff/__init__.py: QGenerator.genCoeffs"]}
{"id": "C83", "title": "Every method converges with its declared order on every smooth differential equation", "statement": "For the methods of the previous property: for every solution y on [t0,T] there are h0, C such that for every step size h < h0 all N steps up to T can be done, in exactly one way near the solution, and all N values miss y by at most C h^p; for explicit classes the values are those of the usual explicit recursion, without further conditions. Collocation with any number of nodes of any type converges at least with order M.", "quantifier": "all registered RK classes with exact coefficients but RK32 and RK53, all collocation methods, all Banach spaces, right hand sides, solutions, step sizes and numbers of steps", "why_tests_cant": "tests look at a few equations and step sizes; convergence is a statement about all small step sizes", "anchors": ["qmat/qcoeff/butcher.py: RK, RK.order", "qmat/qcoeff/collocation.py: Collocation.order", "qmat/utils/num.py: numericalOrder"]}
{"id": "C84", "title": "SDC with K sweeps has its order on every smooth autonomous differential equation", "statement": "For collocation methods with up to 158 nodes, any QDelta matrices, any number of sweeps from the copied initial value: one step of u' = f(u), with f smooth along the solution, is possible in exactly one way near the solution, and has the order that getOrderSDC computes before its special cases (number of sweeps, one more for the quadrature update, one more for TRAP/TRAPAR first sweeps, at most the order of the collocation), locally and after N steps. The order conditions of the rooted trees are also necessary, so no sweeps give more than the order of the quadrature, at most 2M.", "quantifier": "all node and quadrature types, all QDelta matrices changing from sweep to sweep, all numbers of sweeps, all Banach spaces, right hand sides, solutions and small step sizes", "why_tests_cant": "tests measure orders on Dahlquist's equation only", "anchors": ["qmat/utils/sdc.py: getOrderSDC, solveDahlquistSDC", "qmat/qcoeff/collocation.py: Collocation.order"]}
{"id": "C85", "title": "Barycentric weights in floating point arithmetic", "statement": "With every subtraction, product and division rounded with relative error at most u, products in any order: each weight of 'FAST' has a relative error of at most (2n-1)u/(1-(2n-1)u), of at most 4n-1 roundings with scaleWeights; the weights of 'STABLE' are those of the formula up to a common positive factor, with relative errors bounded by the number of points, the roundings and the sums of |log| of distances, independently of the size of the weights.", "quantifier": "all rounding functions, all numbers of points, all distinct points, all orders and bracketings of the reductions", "why_tests_cant": "the order of operations depends on numpy, the machine and the vector instructions; a test sees one order and a few grids", "anchors": ["qmat/lagrange.py: LagrangeApproximation.__init__"]}
{"id": "C86", "title": "Interpolation in floating point arithmetic", "statement": "Each entry of getInterpolationMatrix computed in floating point has a relative error of at most g(1+L)/(1-gL), where g stands for 3n+2 roundings (3n+3 for scaled weights; similar for 'STABLE') and L is the Lebesgue function of the points at t; the value of the approximation at t misses the value of the interpolation polynomial by this (4n+2 roundings) times sum |l_j(t)| |f_j|, however close t is to a point; at the points themselves the rows are exact unit vectors.", "quantifier": "all rounding functions, all numbers of points, all distinct points, all evaluation points, all values, all orders of the sums, with or without fused multiply-add", "why_tests_cant": "the division by t - t_j near a point looks unstable and tests cannot try all floats next to the points", "anchors": ["qmat/lagrange.py: LagrangeApproximation.getInterpolationMatrix, LagrangeApproximation.__call__"]}
{"id": "C87", "title": "Derivation matrices in floating point arithmetic", "statement": "Off the diagonal each entry of getDerivativeMatrix of order 1 has a relative error of at most 4n+2 roundings; on the diagonal the error is at most 5n+1 roundings times the sum of the other entries' sizes; rows sum to zero up to n-1 roundings of the row, so constants are differentiated to rounding level whatever the weights. For order 2 the errors are at most 9n+6 and 10n+5 roundings times explicit sums of first derivatives.", "quantifier": "all rounding functions, all numbers of points, all distinct points, all orders of the sums", "why_tests_cant": "tests compare with a tolerance on a few grids", "anchors": ["qmat/lagrange.py: LagrangeApproximation.getDerivativeMatrix"]}
{"id": "C88", "title": "Documented spectral radii of the tabulated coefficients", "statement": "For every entry of the MIN3 table (and no other combination) a spectral radius is documented; for Collocation nodes on [0, 1] of that type, the matrix returned for 'MIN3' makes a sweep for u' = lambda u well defined when |lambda dt| is large enough, with all eigenvalues below every number above the documented radius, so that the sweeps converge to the collocation solution with every such factor from every start. For 'VDHS' the same with 0.006 for three nodes and 0.03 for four.", "quantifier": "all entries of the tables, all complex lambda dt beyond a radius, all initial values and starts, all numbers of sweeps", "why_tests_cant": "a limit of spectral radii over all complex step sizes; the nodes are known in floating point only, and eigenvalues of the nearly nilpotent matrices move by 0.01 under rounding of the nodes", "anchors": ["qmat/qdelta/mincoeffs.py: MIN3, MIN_VDHS", "qmat/qdelta/diag.py: FromTable.computeQDelta, MIN3, MIN_VDHS"]}
{"id": "C89", "title": "Sweeps with tabulated coefficients converge in the left half-plane", "statement": "For Collocation nodes on [0, 1], the matrix returned for 'MIN3' makes a sweep for u' = lambda u well defined with all eigenvalues below one, for every complex lambda dt with non-positive real part, for every table entry with LEGENDRE nodes and for two, three and four EQUID nodes; SDC then converges to the collocation solution. The same holds for both entries of 'VDHS', and on the negative real axis for all entries of 'MIN3'. For five, seven and nine EQUID nodes it does not hold on the imaginary axis: at lambda dt = 10i, 13i and 14i a sweep has an eigenvalue of modulus larger than one.", "quantifier": "all entries of the tables, all complex lambda dt with non-positive real part, all initial values, all numbers of sweeps", "why_tests_cant": "spectral radii over an unbounded region of the complex plane; sampled values say nothing about those in between, and near the imaginary axis the radius comes close to one", "anchors": ["qmat/qdelta/mincoeffs.py: MIN3, MIN_VDHS", "qmat/qdelta/diag.py: FromTable.computeQDelta, MIN3, MIN_VDHS", "qmat/utils/sdc.py: solveDahlquistSDC"]}
{"id": "C90", "title": "Weights and interpolation stay in the range of double precision, and what happens if not", "statement": "LagrangeApproximation in double precision: if the absolute logarithms of the distances of each point to the others add up to at most 706, the weights with 'FAST' and 'AUTO' are finite and have the relative errors of rounding alone; up to 350, so are the entries of getInterpolationMatrix (with an absolute error of 2^-1074 more), and its rows at the points are exact. With 'STABLE' and scaleRef='MAX' the weights are finite for all points with distances between exp(-700) and exp(700), with an absolute error of at most 2^-1072 by underflow. 'AUTO' does not always switch to 'STABLE' if the range is left: if all products of distances overflow (as for the points 0, 1, ..., n - 1 with n at least 198) all weights are zero and all entries of the interpolation matrix nan, and if a product is below 2^-1026 but does not vanish a weight is infinite and a column of the matrix is nan.", "quantifier": "all sets of points and times with the given bounds, all orders of the sums and products, all roundings and elementary functions with the error bounds of double precision", "why_tests_cant": "the range is left only with particular numbers and distances of points, and results depend on the order of operations chosen by numpy", "anchors": ["qmat/lagrange.py: LagrangeApproximation.__init__, LagrangeApproximation.getInterpolationMatrix"]}
{"id": "C91", "title": "Errors of the matrices for functions that are not polynomials", "statement": "For f with n derivatives on an interval containing the n points, |f^(n)| <= K there: getInterpolationMatrix misses f at t by at most K/n! prod |t - x_j|, getIntegrationMatrix (any rule) misses the integral over an interval by at most K/n! |int prod |t - x_j||, getDerivativeMatrix misses f' at x_i by at most K/n! prod_{j != i} |x_i - x_j| and f'' by K/n! |w''(x_i)| + 2 K'/(n+1)! |w'(x_i)|, w = prod (x - x_j), |f^(n+1)| <= K'. For f = x^n the errors are exactly prod (t - x_j) and its integral. Q, weights and S of a Collocation inherit these bounds; with p = Collocation.order the weights miss the integral of f by at most (b - a + sum |w|) K (b - a)^p / p!, on a step [t0, t0 + h] by (1 + sum |w|) K h^(p+1) / p!, and of a continuous f by (b - a + sum |w|) times the distance to polynomials of degree below p. Interpolation of any function is as good as the best polynomial up to 1 + the absolute row sum.", "quantifier": "every number of points, all increasing points, all constructor options, all evaluation times and intervals inside the interval, all functions with enough derivatives (or continuous), all node and quadrature types, all steps", "why_tests_cant": "tests measure the error for a few functions and step sizes", "anchors": ["qmat/lagrange.py: LagrangeApproximation.getInterpolationMatrix, getIntegrationMatrix, getDerivativeMatrix", "qmat/qcoeff/collocation.py: Collocation.Q, Collocation.weights, Collocation.S, Collocation.order"]}
{"id": "C92", "title": "Integration in floating point arithmetic", "statement": "In rounded arithmetic (relative error u per operation, any order of sums and products), with accurate cosines, complex quotients and Fourier transform (errors v, kappa, rho): computeFejerRule(n) does not raise as long as 4 kappa/n + 4 (1+kappa) rho/sqrt(n) <= 1e-15, its nodes have absolute errors of at most v + pi gamma_3 and its weights of at most 4 kappa/n + 4 (1+kappa) rho/sqrt(n); every entry of getIntegrationMatrix([(a, b)]) with the default rule and weights has an error of at most |b-a|/2 ((1+G) L ((2+m eta) gamma_{m+3} + m eta) + 2 (G L + D delta)), with L a bound of the Lebesgue function, D of the derivative of the Lagrange polynomial, delta of the errors of evaluation times and G = gamma_{3n+2} (1+L)/(1 - gamma_{3n+2} L); its row sum differs from b - a by at most n times that. A transform with a relative error of 1e-15 can make computeFejerRule raise ValueError.", "quantifier": "every number of points, all distinct points, all intervals, all roundings with u small enough, all orders of summation and multiplication, all transforms within the bounds", "why_tests_cant": "results depend on the order of operations chosen by numpy, on the implementation of the transform and on the points", "anchors": ["qmat/lagrange.py: computeFejerRule, LagrangeApproximation.getIntegrationMatrix"]}
{"id": "C93", "title": "Amplification of perturbations by interpolation and quadrature on the nodes", "statement": "For nodes from NodesGenerator(nodeType, quadType) and times in [-1, 1], every quadrature type and every weight computation: the absolute values of each row of getInterpolationMatrix add up to at most n for LEGENDRE, sqrt(2n-1) for CHEBY-1, sqrt(n(n+1)(2n+1)/6) for CHEBY-2 and sqrt(n(4n^2-1)/3) for CHEBY-3 and CHEBY-4; for LEGENDRE LOBATTO the squares of each row add up to at most 1, so all entries lie in [-1, 1] and interpolation never exceeds the Euclidean norm of the values. Calling the interpolation with values changed by at most eps changes the result by at most eps times the same bound. In Collocation, if node snapping does not move the nodes, rows of Q, S and weights have absolute sums of at most the same bound times the length integrated over. For EQUID with n >= 2 there are times in [-1, 1] with a row sum of at least 2^(n-1)/(4(n-1)^2).", "quantifier": "every number of nodes, node type, quadrature type, weight computation option, time in [-1, 1], values and perturbations", "why_tests_cant": "bounds must hold for every number of nodes and at every evaluation time", "anchors": ["qmat/nodes.py: NodesGenerator.getNodes, NodesGenerator.getOrthogPolyCoefficients", "qmat/lagrange.py: LagrangeApproximation.getInterpolationMatrix, LagrangeApproximation.__call__", "qmat/qcoeff/collocation.py: Collocation"]}
{"id": "C94", "title": "Collocation methods in rounded arithmetic", "statement": "In Collocation(M, nodeType, quadType, tLeft, tRight) with every operation of the scaling of the nodes, of the closeness tests at the ends, of the Lagrange weights and of the integration rounded, and reductions in any order: if the reference nodes have errors of at most e, the nodes have errors of at most delta (about (tRight-tLeft) e/2 plus five roundings), the first (last) node is exactly tLeft (tRight) whenever the quadrature type includes it, no other node is moved to an end, and all entries of Q, weights and S differ from those of the exact method by at most an explicit bound. In double precision on [0, 1], with at most 100 nodes whose reference nodes have errors of at most e <= 1e-9: nodes have errors of at most e/2 + 1e-15 and entries of Q, weights and S of at most M^2 B^2 (12 e + 1e-13), where B is the bound of C93 (M for LEGENDRE, sqrt(2M-1) for CHEBY-1, ...).", "quantifier": "every rounding, order of reductions, eigenvalue errors, number of nodes, interval that is not too short for the closeness tests; all node types except EQUID, all quadrature types", "why_tests_cant": "errors depend on every rounding of every operation and on the perturbed nodes entering the Lagrange weights; tests compare a few sizes on one machine", "anchors": ["qmat/qcoeff/collocation.py: Collocation.__init__, Collocation.S", "qmat/nodes.py: NodesGenerator.getNodes", "qmat/lagrange.py: LagrangeApproximation.getIntegrationMatrix, LagrangeApproximation.__init__"]}
{"id": "C95", "title": "Nodes in rounded arithmetic", "statement": "NodesGenerator(nodeType, quadType).getNodes(n) with every operation of the recurrence coefficients, of the evaluation of orthogonal polynomials, of the modified last coefficients (RADAU and LOBATTO) and of the square roots rounded, with eigenvalues of errors of at most theta times the largest entry, and with solutions of the system of two equations of the LOBATTO type of residuals of at most sigma times the entries: no error is raised, all nodes differ from the exact ones by at most 2 theta plus 3u (GAUSS), (8n+3)u (RADAU) or 265 n u + 98 kappa sigma (LOBATTO, with kappa = 2n for CHEBY-3 and CHEBY-4 and kappa = 1 otherwise), and nodes at the ends are exactly -1 and 1 where the quadrature type includes them. Equidistant nodes have errors of at most 6u. With these nodes, Collocation in double precision on [0, 1] with at most 100 nodes of any type except EQUID has errors of at most e/2 + 1e-15 in the nodes and M^2 B^2 (12 e + 1e-13) in Q, weights and S, with B as in C93 and e the bound above, which is at most 2e-10 when theta and sigma are at most 1e-14 (5e-12 except for CHEBY-3 and CHEBY-4 with LOBATTO).", "quantifier": "every rounding with relative error u with n^2 u at most 1/1000 that keeps integers up to 4 n^2, all node types and quadrature types, every number of nodes, every eigenvalue routine and solver with the stated errors", "why_tests_cant": "the coefficients of the last row divide by values of orthogonal polynomials that become small with n, and eigenvalues depend on all entries; tests compare a few sizes on one machine", "anchors": ["qmat/nodes.py: NodesGenerator.getNodes, NodesGenerator.getOrthogPolyCoefficients, NodesGenerator.evalOrthogPoly, NodesGenerator.getTridiagCoefficients", "qmat/qcoeff/collocation.py: Collocation.__init__"]}
{"id": "C96", "title": "SDC sweeps in rounded arithmetic", "statement": "solveDahlquistSDC(lam, u0, tEnd, nSteps, nSweeps, Q, QDelta, weights) with every operation on real and imaginary parts rounded, the sums of all products in any order, and np.linalg.solve backward stable with relative residual sigma. With z = lam tEnd / nSteps, V a bound of the inverses of I - z QDelta, p and beta bounds of the row sums of I - z QDelta and z (Q - QDelta), rho a factor by which sweeps contract errors in some norm (at most C times the maximum norm), e the relative size of rounding errors of a sweep (at most 2 sigma + 4 (M+3) u in double precision) and kappa = C V e (p + beta) < 1: no error is raised, and every value differs from that of the exact computation by at most ((|s| + tau)^i - |s|^i) |u0|, where s is the factor of an exact step and tau is kappa/(1-kappa) times a geometric sum of (rho + kappa)/(1 - kappa) times the size of the node values (more for a step update with weights). The same holds relative to the collocation method, with ((rho + kappa)/(1 - kappa))^nSweeps times the initial error in addition. If rho + 2 kappa < 1 the accumulated rounding errors are at most kappa / (1 - rho - 2 kappa), whatever the number of sweeps.", "quantifier": "every rounding, every order of summation, every solver with the stated residuals, all lam, matrices, weights, numbers of steps and of sweeps that satisfy the bounds (shown for small lam dt, for diagonal QDelta with lam in the left half plane, and from bounds of powers of the iteration)", "why_tests_cant": "rounding errors depend on the order of sums of the BLAS in use and accumulate over sweeps and steps; tests run a few problems on one machine", "anchors": ["qmat/utils/sdc.py: solveDahlquistSDC"]}
{"id": "C97", "title": "solveDahlquist in rounded arithmetic", "statement": "solveDahlquist(lam, u0, tEnd, nSteps, useEmbeddedWeights) of a method whose coefficients Q, weights were computed with errors (rows wrong by at most delta in sum), with every operation on real and imaginary parts rounded, sums of products in any order, and np.linalg.solve backward stable with relative residual sigma. With z = lam tEnd / nSteps, V a bound of the inverse of I - z Q (1/(1 - |z| q) for small z, a sum of powers of |z| q for explicit methods and any z), q a bound of the row sums, e the relative size of rounding errors and kappa = V (e (1 + |z| (q + delta)) + |z| delta) < 1: no error is raised, and every value differs from that of the exact computation with the exact method by at most ((|s| + tau)^i - |s|^i) |u0|, s being the factor of an exact step and tau = e + |z| V/(1 - kappa) (q kappa + e (q + delta) + delta). Combined with C95: for a Collocation object with up to 100 nodes on [0,1], built and used in double precision with |z| B <= 1/2 (B the bound of C93), tau <= 12 sigma + 24 (M+3) u + 5 |z| delta with delta = M^3 B^2 (12 e' + 1e-13), e' the error of the nodes; for the LEGENDRE types other than RADAU-LEFT and decaying problems the error of step i is at most ((1 + tau)^i - 1) |u0|. Rounded tables (relative errors eps of the entries) have delta = eps q.", "quantifier": "every rounding, every order of summation, every solver with the stated residuals, all lam, u0, tEnd, numbers of steps, methods and computed coefficients within the bounds", "why_tests_cant": "rounding errors depend on the BLAS in use, on the errors of the coefficients and on the number of steps; tests run a few problems on one machine", "anchors": ["qmat/qcoeff/__init__.py: QGenerator.solveDahlquist", "qmat/qcoeff/collocation.py: Collocation"]}
{"id": "C98", "title": "Time-stepping coefficients for nodes given as integers", "statement": "A time-stepping QDelta generator built from a list of integers keeps its step sizes in an integer array. If tLeft is an integer (also the default 0) the object is the same as for the nodes given as floats. For any tLeft, the coefficients of BE, FE, TRAP and the dTau of FE, TRAP and SOE are those of float nodes for another left bound, which lies between tLeft and the first node and less than 1 from tLeft. The matrices of FE, BEPAR, TRAPAR, SOE and dTau of TRAPAR never differ from those for floats; those of BE and TRAP and dTau of FE, SOE and TRAP differ if and only if the first node minus tLeft is not an integer. FALSE: with integer nodes the rows of BE sum up to nodes - tLeft (nodes 1, 2, 3 and tLeft = 1/2: the first step has length 0 and the matrix is singular).", "quantifier": "all lists of integer nodes and all tLeft", "why_tests_cant": "the difference appears only for integer input and fractional tLeft; a test fixes both", "anchors": ["qmat/qdelta/timestepping.py: TimeStepping.__init__, BE, FE, TRAP, BEPAR, TRAPAR, SOE"]}
{"id": "C99", "title": "Generators and the arrays they were built from", "statement": "An object built from an array (nodes or Q, also those of a qGen) keeps a reference to it. In every history of getQDelta calls and of writes by the caller to this array: no call changes the array; as long as getQDelta(k) has not succeeded, it computes from what the array contains at the time of the call; once it has returned a matrix, it returns the same for ever (for every k, if the coefficients do not depend on k). BE, FE and TRAP objects (matrix and dTau) never see what is written after construction; BEPAR, TRAPAR, SOE give the coefficients of an object built from the nodes present at the first call. FALSE: the coefficients are those of the array at construction (BEPAR, all algebraic and diagonal classes), and QDelta and dTau belong to the same nodes (TRAPAR, after a write).", "quantifier": "all histories of calls and writes, all contents and all classes that keep an array", "why_tests_cant": "needs an invariant over all interleavings of calls and writes; tests use an object once, right after building it", "anchors": ["qmat/qdelta/__init__.py: QDeltaGenerator.__init__, QDeltaGenerator.getQDelta", "qmat/qdelta/timestepping.py: TimeStepping.__init__", "qmat/qdelta/diag.py: MIN_SR_NS.__init__"]}
{"id": "C100", "title": "Node-based QDelta coefficients in floating point", "statement": "The QDelta matrices of BE, FE, TRAP, BEPAR, TRAPAR, MIN_SR_NS, Jumper, FlexJumper and DNODES*, computed with rounding after every operation: for increasing floating point nodes that are not left of tLeft every entry has a relative error of at most (1+u)^3 - 1 (TRAPAR: with tLeft = 0), and if the computed nodes differ from the exact ones by e then every entry is additionally wrong by at most (1+u)^3 2e. For nodes between 0 and L the exact coefficients are nonnegative, lower triangular, with row sums of at most L, and the errors of a row sum up to at most (1+u)^3 (L + 2 M e) - L. Rounded arithmetic raises exactly when exact arithmetic does, with the same error. The node-to-node form is wrong by at most gamma_M(|D_ij| + |D_(i-1)j|), whatever the order of summation; dTau of FE, TRAP, TRAPAR have relative errors of at most (1+u)^2 - 1. MIN-SR-FLEX(k) for k <= M is wrong by at most u|D_ii| + (1+u) e/k on the diagonal and exactly 0 elsewhere, is whatever MIN-SR-S gives for k > M, and raises as in exact arithmetic.", "quantifier": "all these classes and their names, all node vectors, all k, all roundings with unit roundoff u", "why_tests_cant": "the number of operations for one entry could grow with M: the loops of BE, FE and TRAP add to each entry many times; that all but one of these additions are exact needs induction over the loop", "anchors": ["qmat/qdelta/timestepping.py: TimeStepping, BE, FE, TRAP, BEPAR, TRAPAR", "qmat/qdelta/diag.py: MIN_SR_NS, Jumper, FlexJumper, DNODES", "qmat/qdelta/__init__.py: QDeltaGenerator.getSDelta"]}
{"id": "C101", "title": "SDC with coefficients computed in floating point", "statement": "solveDahlquistSDC in rounded arithmetic, fed with coefficients that are themselves computed (rows of Q and of every QDelta, and the weights, wrong by at most delta): the call does not raise, and its values differ from the exact run with the exact coefficients by at most ((|s|+tau)^i - |s|^i)|u0| after i steps, s the exact factor of a step and tau an explicit multiple of the rounding errors and of |lambda dt| delta; and from the exact collocation method by the same with what the sweeps leave of the initial error added to tau. Everything in double precision, for Collocation nodes of all orthogonal types with up to 100 nodes and |lambda dt|(B+1) <= 1/4 (B the bound of the Lebesgue constant), with sweeps by any of the node-based QDelta classes, also a different one in each sweep: tau = 16 sigma + 32(M+3)u + 16 |lambda dt| delta, plus (1/3)^(K+2) for the collocation method after K sweeps with the weights.", "quantifier": "all orthogonal node types and quadrature types, all M <= 100, all node-based QDelta classes in any order, all numbers of sweeps and steps, all lambda, u0, tEnd with small steps, every order of summation", "why_tests_cant": "the errors of nodes, weights, QDelta, solves and updates propagate through nested loops of unbounded length; a test measures the total error of one run", "anchors": ["qmat/utils/sdc.py: solveDahlquistSDC", "qmat/qcoeff/collocation.py: Collocation.__init__", "qmat/qdelta/timestepping.py: BE, FE, TRAP, BEPAR, TRAPAR", "qmat/qdelta/diag.py: MIN_SR_NS, Jumper, FlexJumper, DNODES"]}
{"id": "C102", "title": "Explicit bounds of the error against the exact solution", "statement": "For any Collocation on [0,1] with up to 158 nodes, any node and quadrature type, and |lambda dt| <= 1/2: solveDahlquist does not raise and the factor of a step differs from exp(lambda dt) by at most L = 6 |lambda dt|^(p+1) / (M! (p-M)!), p the order the object reports. The value after i steps differs from u0 exp(lambda i dt) by at most ((a+L)^i - a^i)|u0|, a = exp(Re lambda dt); errorDahlquist is at most ((A+L)^n - A^n)|u0| for A >= max(1, a), and for equations that do not grow at most x exp(x)|u0| with x = 6 |lambda tEnd|^(p+1) / (M! (p-M)!) / n^p. For any method of order p on linear equations whose rows of Q and weights sum to at most q in absolute value, with |lambda dt| q <= 1/2, the same with L = 2(|lambda dt| q)^(p+1) + 2|lambda dt|^(p+1)/(p+1)!. Every registered Runge-Kutta table has q = 32 (18 with exact coefficients) and its declared order as p; rounded coefficients add p |lambda dt| times their accuracy to L. With all coefficients computed and used in double precision the bound becomes ((a+L+tau)^i - a^i)|u0|, tau the rounding error of C97; for SDC with node-based QDelta coefficients and K sweeps, tau of C101 and (1/3)^(K+2) are added to L. The same for K <= M sweeps of MIN-SR-FLEX.", "quantifier": "all node and quadrature types, all M <= 158 (100 in double precision), all registered Runge-Kutta tables, all lambda, u0, tEnd and n with small steps, all numbers of sweeps", "why_tests_cant": "the order tests fit a slope through a few runs; they bound no error", "anchors": ["qmat/qcoeff/collocation.py: Collocation.order, Collocation.__init__", "qmat/qcoeff/__init__.py: QGenerator.solveDahlquist, QGenerator.errorDahlquist", "qmat/utils/sdc.py: solveDahlquistSDC"]}
{"id": "C103", "title": "lduFactorization and the LDU coefficients in rounded arithmetic", "statement": "In arithmetic with relative error u in every operation and sums in any order, lduFactorization always has a result, L is unit lower triangular, U unit upper triangular and D diagonal. If no pivot that is divided by is zero, the computed L, D, U are exactly what lduFactorization returns in exact arithmetic for a matrix A' = L D U whose entries differ from those of A by at most (n+3)u/(1-(n+3)u) (|L||D||U|); in double precision the factor is at most 1.2e-16 (n+3). The QDelta of the LDU class is thus exactly the QDelta of a matrix near Q.", "quantifier": "all square matrices of size up to 10^6, all values and all orders of summation", "why_tests_cant": "a test reconstructs the product for a few matrices with a tolerance", "anchors": ["qmat/utils/num.py: lduFactorization", "qmat/qdelta/algebraic.py: LDU.computeQDelta"]}
{"id": "C104", "title": "Node values of Legendre collocation in the left half-plane, and what the residual says about the error", "statement": "For a Collocation with up to 158 LEGENDRE nodes on [0,1] and every z with Re z <= 0, however large: a solution of v - z Q v = g is at most (1 + 2 M |z|) times as large as g in the maximum norm (1 + 2 M^2 |z| for LOBATTO). So in solveDahlquistSDC with any QDelta and any number of sweeps, if Re(lambda) tEnd <= 0, the distance of the node values of any step and sweep to the collocation solution lies between the monitored residual divided by 1 + M |lambda dt| and the residual times that factor; for any Q the same holds with a bound of the inverse of I - z Q and of the row sums of Q. And solveDahlquist built and used in double precision has errors of at most ((1 + tau)^i - 1)|u0| in step i (not RADAU-LEFT, which is not A-stable) also for stiff equations, tau = 4 eps Y^2, Y = (1 + 2 M |z|)(1 + (M+1)|z|), as long as 2 eps Y <= 1, eps the rounding errors of C97.", "quantifier": "all quadrature types, all M <= 158 (100 in double precision), all lambda with Re(lambda) tEnd <= 0, all QDelta, sweeps and steps", "why_tests_cant": "tests monitor residuals of a few runs; the relation to the error depends on the inverse for every z in an unbounded set", "anchors": ["qmat/qcoeff/collocation.py: Collocation.__init__", "qmat/utils/sdc.py: solveDahlquistSDC", "qmat/qcoeff/__init__.py: QGenerator.solveDahlquist"]}
{"id": "C105", "title": "solveDahlquist with Legendre collocation computes Pade approximations of the exponential function", "statement": "With LEGENDRE nodes on [0,1] and z = lambda tEnd/n, solveDahlquist returns u0 times the powers of the (a,b) Pade approximation of exp at z, N(z)/D(z) with N(z) = sum_j (a+b-j)! binom(a,j) z^j and D(z) = sum_j (a+b-j)! binom(b,j) (-z)^j, where (a,b) is (M,M) for GAUSS, (M-1,M) for RADAU-RIGHT, (M,M-1) for RADAU-LEFT and (M-1,M-1) for LOBATTO, and raises LinAlgError exactly when D(z) = 0; D has no zero with Re z <= 0. In particular a GAUSS or LOBATTO step with z is undone by the step with -z, and a RADAU-RIGHT step by a RADAU-LEFT step with -z.", "quantifier": "all quadrature types, all M <= 158 (or any M as long as the nodes returned by NodesGenerator are the ones of the collocation), all complex lambda, u0, all tEnd, all n >= 1", "why_tests_cant": "tests compare a few runs with the exact solution; the closed form holds for every z, including the poles", "anchors": ["qmat/qcoeff/collocation.py: Collocation.__init__", "qmat/qcoeff/__init__.py: QGenerator.solveDahlquist", "qmat/nodes.py: NodesGenerator.getNodes"]}
{"id": "C106", "title": "Parallel implicit Euler sweeps contract for every stiffness, with an explicit rate", "statement": "With QDelta of BEPAR (IEpar) on LEGENDRE nodes of any quadrature type on [0,1] and z = lambda dt, Re z <= 0, every eigenvalue of the iteration matrix of the sweeps has modulus at most g = |z|/sqrt(1+|z|^2) < 1, whatever the number of nodes. After K sweeps the node values differ from the collocation solution by at most g^(K+1)/(1-g) times the initial value in the norm of the weights, and solveDahlquistSDC differs from solveDahlquist after i steps by at most ((|R|+t)^i-|R|^i)|u0|, with t = |z| g^(K+1)/(1-g) for weights and M g^(K+1)/(1-g) for the last node.", "quantifier": "all quadrature types, all M (values of solveDahlquistSDC: M <= 158), all complex lambda with Re <= 0, all dt, all numbers of sweeps and steps", "why_tests_cant": "a test runs a few sweeps for a few lambda; the bound is uniform in the number of nodes and covers the whole half-plane", "anchors": ["qmat/qdelta/timestepping.py: BEPAR", "qmat/utils/sdc.py: solveDahlquistSDC", "qmat/qcoeff/collocation.py: Collocation.__init__"]}
{"id": "C107", "title": "Which sweeps on two nodes contract in the whole left half-plane", "statement": "For two collocation nodes 0 < x < y <= 1 of any type on [0,1] and every z with Re z <= 0: sweeps with BEPAR, IEpar, TRAPAR, MIN-SR-NS and LU contract; those with BE, IE do if 4x <= 3y and those with GS, QPar, LDU if 3xy <= x^2+y^2 (all hold for LEGENDRE RADAU-RIGHT, with nodes 1/3 and 1, and GAUSS). Otherwise BE diverges for strongly decaying equations, and TRAP, CN diverge on any two positive nodes as soon as 2 + s(y-x) < (s x)^2, s = -z.", "quantifier": "all pairs of positive nodes of any node and quadrature type, all z in the closed left half-plane", "why_tests_cant": "the claim is on a half-plane of equations and a continuum of nodes; tests use a few values", "anchors": ["qmat/qdelta/timestepping.py: BE, TRAP, BEPAR, TRAPAR", "qmat/qdelta/algebraic.py: LU, QPar, GS", "qmat/qdelta/diag.py: MIN_SR_NS", "qmat/qcoeff/collocation.py: Collocation.__init__"]}
{"id": "C108", "title": "The order measured with numericalOrder is the order of the method", "statement": "Errors returned by errorDahlquist (errorDahlquistSDC) for n steps have a leading term C n^-p, with p the exact order and C = |u0| |error constant| |lambda tEnd|^(p+1) max_{t in [0,1]} t exp(Re(lambda) tEnd t) > 0, and numericalOrder applied to the numbers of steps s k_1, ..., s k_m and these errors tends to (p, 0) as s grows. p is the declared order for the Runge-Kutta classes with exact coefficients, Collocation.order for LEGENDRE nodes, the order of the quadrature for all collocation methods, and the value of getOrderSDC up to the listed exceptions for SDC on up to four nodes. For given numbers of steps and errors between c n^-p and K n^-p, the measured order differs from p by at most sqrt(m/2) log10(K/c)/|log10(n_i/n_j)|.", "quantifier": "all problems lambda, u0, tEnd other than zero, all patterns of at least two different numbers of steps, all registered classes with exact coefficients, all collocation methods, all numbers of sweeps", "why_tests_cant": "a convergence test looks at a few numbers of steps for one problem; the limit is over all of them", "anchors": ["qmat/utils/num.py: numericalOrder", "qmat/qcoeff/__init__.py: QGenerator.errorDahlquist", "qmat/utils/sdc.py: errorDahlquistSDC, getOrderSDC", "qmat/qcoeff/collocation.py: Collocation.order"]}
{"id": "C109", "title": "What is registered after an import, an interrupted import and a reload", "statement": "The first import of qmat.qdelta (or qmat.qcoeff) that succeeds gives a registry with exactly the names and aliases of the classes of its submodules, in whatever order the file system lists them. An import during which nothing is raised from outside succeeds in every state of the session. After an import that was interrupted at any point the submodules that were completed stay in sys.modules; the next import succeeds without a message and their classes are missing from the registry (finding). Reloading the package empties the registry (finding); reloading a submodule raises and changes nothing as long as its first class is registered, and brings its classes back if they are missing.", "quantifier": "all sequences of imports, reloads of the package and of its submodules, all points where an exception may come from outside, all orders of the submodules", "why_tests_cant": "a test process imports the package once, without an interruption", "anchors": ["qmat/utils/__init__.py: importAll, storeClass, storeAlias", "qmat/qdelta/__init__.py: QDELTA_GENERATORS, register", "qmat/qcoeff/__init__.py: Q_GENERATORS, register", "qmat/qdelta/algebraic.py", "qmat/qdelta/diag.py", "qmat/qdelta/timestepping.py"]}
{"id": "C110", "title": "Sparse interpolation and extrapolation of smooth functions converge with the order asked for", "statement": "On input points with spacing at most h, getSparseInterpolationMatrix with order o misses the value of a function with o derivatives by at most max|f^(o)|/o! times the product of the distances to the o closest points, hence by max|f^(o)|/o! (o h)^o; likewise with a period, for periodic functions, at every real output point. Rows copied from an earlier output point add a term Lip(f) (1e-8 + 1e-5 R) that does not decrease with that power. On two input points closer than 1e-8 the row of the second point is a copy of that of the first, so that the value there is the one at the other point (finding). getExtrapolationMatrix of degree d misses by at most (1 + sum|row|) max|f^(d+1)| (b-a)^(d+1)/(d+1)!, with the default degree by max|f^(M)|/M! prod|t - x_j|; hCoeffs of a Collocation likewise with t = 1.", "quantifier": "all numbers of points, all increasing input points, all output points, orders, periods, all smooth functions", "why_tests_cant": "a test looks at a few functions on a few grids and cannot bound an error for all smooth functions", "anchors": ["qmat/lagrange.py: getSparseInterpolationMatrix", "qmat/utils/num.py: getExtrapolationMatrix", "qmat/qcoeff/collocation.py: hCoeffs"]}
{"id": "C111", "title": "Generator objects and registries used by several threads", "statement": "Threads share one QDeltaGenerator object and call getQDelta, genCoeffs, dTau; the schedule interleaves single attribute and dictionary operations arbitrarily, and threads may be interrupted anywhere. If all calls return new arrays (the default), or nobody writes to the arrays, every call that ends gives what it gives on an object of its own and raises only what it would raise there. A call for m sweeps ends after at most 9 m steps of its own, whatever the others do. With copy=False two simultaneous calls may return two different arrays for the same sweep (finding). Once one such call was not disturbed, all later calls with copy=False return the same array, whatever the schedule. What is in a registry before stays there; threads that register classes under different names and aliases do not disturb each other; a thread that uses a name or alias that was there before gets AssertionError; two threads that register the same name may both succeed, and one class is lost (finding). getClasses while another thread registers gives the classes at the end of the call or raises RuntimeError (finding: it can).", "quantifier": "all generator classes and arguments, all numbers of threads, all schedules and interruptions, all registries", "why_tests_cant": "a test runs few of the interleavings and cannot choose them", "anchors": ["qmat/qdelta/__init__.py: QDeltaGenerator.getQDelta, genCoeffs, dTau", "qmat/utils/__init__.py: storeClass, storeAlias, getClasses"]}
{"id": "C112", "title": "Steps can be undone: going back in time with symmetric and mirrored nodes", "statement": "Collocation on mirrored nodes (RADAU-LEFT and RADAU-RIGHT of the same node type, CHEBY-3 and CHEBY-4, any symmetric type with itself) has mirrored coefficients, so that a step on any equation u' = f(t, u) is undone exactly by a step of the same size back in time. solveDahlquist from the last value with -tEnd returns the values in reverse order. With symmetric nodes (GAUSS, LOBATTO; LEGENDRE, EQUID, CHEBY-1, CHEBY-2) the modulus of an oscillation is kept in every step, for every step size, unless LinAlgError is raised, and the order is even. The same for MidPoint, TRAP and GAUSS_LG; FE and BE undo each other. No other registered Runge-Kutta table: one small step of solveDahlquist and one back never return to the start, whatever lam and u0.", "quantifier": "all numbers of nodes, node types, right-hand sides in all vector spaces, all step sizes, lam, u0, tEnd, nSteps", "why_tests_cant": "a test tries some equations and step sizes up to a tolerance", "anchors": ["qmat/qcoeff/collocation.py: Collocation", "qmat/qcoeff/__init__.py: solveDahlquist, errorDahlquist", "qmat/qcoeff/butcher.py: MidPoint, TRAP, GAUSS_LG, FE, BE"]}
{"id": "C113", "title": "Other units and origins of time", "statement": "Changing the unit and the origin of time (t -> s + r t, r > 0) leaves the interpolation matrix of LagrangeApproximation as it is, multiplies the integration matrix by r and divides the first and second derivation matrices by r and r^2. Collocation on [a, b] has the nodes of [0, 1] mapped to [a, b], and (b - a) times its weights, Q and S; PIC, Exact, QPar, GS and LDU from qGen=coll are multiplied by b - a. BE, FE and TRAP with nodes and tLeft mapped are multiplied by the unit, together with dTau; from qGen=coll on [0, b] all coefficients computed from the nodes are multiplied by b, with the same errors for the ones of Jumper. Not so from qGen=coll on [a, b] with a != 0, where tLeft is not used, nor for tabulated coefficients and MIN-SR-S and MIN-SR-FLEX, that ignore the interval.", "quantifier": "all point sets, units, origins, options, numbers of nodes, node types and intervals", "why_tests_cant": "a test tries [0, 1] and perhaps one other interval", "anchors": ["qmat/lagrange.py: LagrangeApproximation", "qmat/qcoeff/collocation.py: Collocation", "qmat/qdelta/__init__.py: QDeltaGenerator.extractParams, genQDeltaCoeffs", "qmat/qdelta/timestepping.py: TimeStepping, BE, FE, TRAP, BEPAR, TRAPAR", "qmat/qdelta/algebraic.py: LDU, GS, QPar", "qmat/qdelta/diag.py: MIN_SR_NS, DNODES, Jumper"]}
{"id": "C114", "title": "The embedded weights estimate the error", "statement": "For every registered Runge-Kutta class with embedded weights, other than ARK548L2SAESDIRK, the embedded order is below the order and is attained exactly. In a step from the exact solution of any smooth equation the difference of the two results is the error of the embedded result, up to the error of the other result, which has a higher order in the step size. One step of solveDahlquist with and without useEmbeddedWeights: the difference is not smaller than its order says, and for exact coefficients its quotient with the error of the embedded value tends to 1 and it is not zero, for all lam, u0 and small tEnd.", "quantifier": "all registered classes with embedded weights, all smooth autonomous equations in all Banach spaces, all lam, u0, and small step sizes", "why_tests_cant": "a test looks at the errors for a few step sizes of one equation", "anchors": ["qmat/qcoeff/butcher.py: RK.weightsEmbedded, orderEmbedded, CashKarp, HEUN2, EDIRK43, ESDIRK53", "qmat/qcoeff/__init__.py: solveDahlquist"]}
{"id": "C115", "title": "Matrices of different point sets and collocation methods fit together", "statement": "For Lagrange approximations on any two sets of increasing points, with any options, the second one with at least as many points: interpolation through the finer set is the direct interpolation, to the finer set and back is the identity, to the coarser set and back is a projection that keeps the polynomials of the coarse set; integrals and first and second derivatives can be taken before or after interpolation. Integration matrix times derivation matrix gives differences of interpolated values; integrals over adjacent intervals add up and change sign with the direction. Two collocation methods on the same interval with M < M' nodes of any types: R Q' P = Q and weights' P = weights, with the interpolation matrices P and R between the nodes (not so for M = M'). The differential form: u = Q f if and only if the polynomial through 0 at tLeft and u at the nodes has the derivatives f at the nodes.", "quantifier": "all point sets, options, times, intervals, numbers of nodes, node types", "why_tests_cant": "a test tries a few pairs of point sets", "anchors": ["qmat/lagrange.py: LagrangeApproximation.getInterpolationMatrix, getIntegrationMatrix, getDerivativeMatrix", "qmat/qcoeff/collocation.py: Collocation"]}
{"id": "C116", "title": "Legendre collocation is accurate for steps of any length, and more nodes make it as accurate as required", "statement": "For LEGENDRE nodes of every quadrature type (moved by no rounding threshold, e.g. at most 158 nodes, or LOBATTO with any number), order p = a + b, and every equation u' = lambda u that does not grow: the error of one step of length dt is at most a! b! / ((a+b)! (a+b+1)!) |lambda dt|^(p+1), without any condition on dt. Except for RADAU-LEFT, errorDahlquist with n steps returns at most n times that bound times |u0|, which is K / n^p from n = 1 on. For fixed steps and LOBATTO nodes the error tends to zero when nodes are added. For a decaying real equation the sign of the error of one step is (-1)^a, so that methods with numerators of different parity (one more node, or GAUSS and RADAU-RIGHT with the same number) enclose the exact value. Parallel (BEPAR) SDC sweeps add a term that decreases geometrically with the number of sweeps, binary64 arithmetic adds an explicit term, both for steps of any length.", "quantifier": "all numbers of nodes, quadrature types, complex lambda, initial values, end times, numbers of steps", "why_tests_cant": "tests measure the order for a few small steps; the bound holds for all steps, stiff or not", "anchors": ["qmat/qcoeff/__init__.py: QGenerator.solveDahlquist, QGenerator.errorDahlquist", "qmat/qcoeff/collocation.py: Collocation", "qmat/nodes.py: NodesGenerator.getNodes"]}
{"id": "C117", "title": "Legendre collocation on stiff nonlinear equations: solvability, residuals and convergence with constants free of the stiffness", "statement": "For dissipative equations u' = f(t,u), that is (f(t,x) - f(t,y), x - y) <= 0, in any inner product space, and the coefficients of LEGENDRE collocation (nodes moved by no rounding threshold): a step of any size has at most one result, for every quadrature type; if the space is complete and f(t,.) Lipschitz continuous with any constant, it has exactly one. With GAUSS and RADAU-RIGHT nodes, stage values that satisfy the stage equations up to residuals of size d change the result by at most C d. With M such nodes, steps of variable size at most H miss a solution whose derivative of order M+1 is bounded by K by at most the initial error plus C K (t_n - t_0) H^M. C depends on the coefficients only: not on the Lipschitz constant, the space, the equation or the step sizes.", "quantifier": "all numbers of nodes, dissipative equations, inner product spaces, smooth solutions, step size sequences, residuals", "why_tests_cant": "tests use a few linear or mildly stiff problems; uniformity in the stiffness ranges over all equations", "anchors": ["qmat/qcoeff/collocation.py: Collocation", "qmat/qcoeff/__init__.py: QGenerator", "qmat/nodes.py: NodesGenerator.getNodes"]}
{"id": "C118", "title": "Collocation on stiff equations with a smooth solution: the limit of a step, and which quadrature types keep the accuracy", "statement": "For u' = lam (u - phi(t)) + phi'(t), started on the solution phi, and every node type and quadrature type on [0, 1]: when |lam h| is large a step exists, is unique, and its result is the polynomial of degree at most M through phi at the start and at the nodes (with the slope at the start when that is a node), evaluated at the end of the step, up to a term of order 1/|lam h|.  So with RADAU-RIGHT and LOBATTO nodes the error of the step is at most K S h^(M+1)/(|lam h| - K), S a bound of the derivative of order M+1 of phi.  FALSE that the declared order of Legendre GAUSS and RADAU-LEFT holds uniformly in lam: for phi = t^(M+1) the error is at least g h^(M+1) for all step sizes, and no constant bounds it by h^(order+1).", "quantifier": "all node types, quadrature types, numbers of nodes, smooth solutions, step sizes and stiffness parameters", "why_tests_cant": "tests use fixed, non-stiff parameters; order reduction is a statement about all lam and h", "anchors": ["qmat/qcoeff/collocation.py: Collocation", "qmat/qcoeff/collocation.py: Collocation.order", "qmat/nodes.py: NodesGenerator.getNodes"]}
{"id": "C119", "title": "Parallel implicit Euler sweeps converge on every dissipative nonlinear equation", "statement": "For Legendre nodes of any number and quadrature type, a dissipative equation u' = f(t, u) in any inner product space and steps of any size, sweeps with BEPAR (alias IEpar) compared with the collocation solution: the mean square error of the slopes, with the weights, never grows, with no Lipschitz constant needed; the errors of the node values and of the quadrature update are at most h times it; with a Lipschitz constant L each sweep multiplies it by at most h L / sqrt(1 + h^2 L^2) < 1.  Started from copies of the initial value, K sweeps leave an error of at most C h (h L / sqrt(1 + h^2 L^2))^K d, d a bound of the slopes at the initial value, with C depending only on the coefficients.  The sweeps exist and are unique when f is Lipschitz continuous and the space complete.  With GAUSS and RADAU-RIGHT nodes, N steps of size h with K sweeps each miss a solution with a derivative of order M + 1 bounded by D by at most C n h (D h^M + (h L / sqrt(1 + h^2 L^2))^K S) after n steps, S a bound of the slopes at the computed values.", "quantifier": "all numbers of nodes, quadrature types, dissipative equations, inner product spaces, step sizes, Lipschitz constants and numbers of sweeps", "why_tests_cant": "a test runs a few sweeps on one equation; convergence for all nonlinear equations and steps is not observable from runs", "anchors": ["qmat/qdelta/timestepping.py: BEPAR", "qmat/qcoeff/collocation.py: Collocation", "qmat/nodes.py: NodesGenerator.getNodes"]}
{"id": "C120", "title": "Legendre collocation on equations with a one-sided Lipschitz constant", "statement": "If (f(t,x) - f(t,y), x - y) <= mu |x - y|^2 in an inner product space, there are constants C depending only on the coefficients such that for C h mu <= 1: a step with Legendre nodes of any quadrature type has at most one result, and exactly one if f is Lipschitz continuous and the space complete, however large the Lipschitz constant is; with GAUSS and RADAU-RIGHT nodes initial values are moved apart by at most the factor 1 + C h mu, residuals of size d change the result by at most C d and the stages by at most C (|u - v| + d); and steps of any sizes at most H miss a solution whose derivative of order M+1 is bounded by K by at most exp(C mu (t_n - t_0)) (initial error + C (K (t_n - t_0) H^M + n d)).", "quantifier": "all numbers of nodes, inner product spaces, equations with a one-sided Lipschitz constant, solutions, step sequences, residuals", "why_tests_cant": "the constants must not depend on the stiffness; a test sees one equation and a few step sizes", "anchors": ["qmat/qcoeff/collocation.py: Collocation", "qmat/nodes.py: NodesGenerator.getNodes"]}
{"id": "C121", "title": "A Timer used by several threads or interrupted anywhere", "statement": "Threads share one Timer and call start and stop; clock readings and attribute accesses of different threads interleave arbitrarily and calls may be ended by an exception anywhere. With the default scale every reported time, and tWall, is a clock reading of a stop minus one of a start. While no other stop is under way, a stop after a start ends after six steps, reports its own reading minus that of a start, over the scale, whatever start calls and interruptions of other threads come in between. After any history, an undisturbed start and stop report the time between them over the scale. Findings: two stops at once may both report the time divided twice by the scale; a start during a stop may make the reported time negative though the clock never goes back.", "quantifier": "all numbers of threads, schedules, interruptions, clock readings, scales", "why_tests_cant": "a test sees a few schedules; interleavings inside a statement are not controllable from a test", "anchors": ["qmat/utils/__init__.py: Timer"]}
{"id": "C122", "title": "Order of spectral deferred correction on equations u' = f(t, u)", "statement": "K sweeps with the coefficients Q, weights of a Collocation on [0, 1] and any QDelta matrices, one per sweep, from the copied initial value, on an equation u' = f(t, u) with a Lipschitz constant in u: small steps can be done in exactly one way, each sweep multiplies the distance to the collocation by at most C h L with C given by the coefficients alone, and the global error at all steps up to a given time is at most C h^min(order, K+1) with the quadrature and C h^min(order, K) with the last node (RADAU-RIGHT, LOBATTO), whatever the matrices.", "quantifier": "all collocations with M <= 158 nodes, matrices, K, Lipschitz f (any Banach space) smooth along the solution, step sizes, times", "why_tests_cant": "tests measure the order on one equation with a few steps", "anchors": ["qmat/qcoeff/collocation.py: Collocation", "qmat/utils/sdc.py: solveDahlquistSDC, getOrder", "qmat/qdelta/algebraic.py: genQDeltaCoeffs"]}
