{"id": "C01", "title": "Order of assembly does not matter", "statement": "A piecewise density built by adding non-overlapping pieces (finite pieces, infinite tails, atoms at distinct places) always ends up with exactly those pieces, in increasing order of position, and the result does not depend on the order in which they were added; its list of break points is increasing.", "quantifier": "every finite family of pairwise non-overlapping segments and every order of adding them", "why_tests_cant": "a test fixes one family and one order; the claim is about all permutations of all families", "anchors": ["pacal/segments.py:PiecewiseFunction.addSegment", "pacal/segments.py:Segment.__lt__", "pacal/segments.py:PiecewiseFunction.getBreaks"]}
{"id": "C02", "title": "Atoms at the same place merge and total mass is kept", "statement": "Adding several atoms to a distribution never loses or invents probability: the total mass of the atoms equals the sum of the masses added, and atoms closer together than the uniqueness tolerance are merged into one.", "quantifier": "every sequence of atoms, in any order, with any positions and masses", "why_tests_cant": "needs all histories of insertions, including arbitrary interleavings with non-atomic pieces", "anchors": ["pacal/segments.py:PiecewiseFunction.addSegment", "pacal/segments.py:DiracSegment"]}
{"id": "C03", "title": "Evaluating a piecewise function picks the right piece", "statement": "Evaluating a piecewise function at a point returns the value of the piece that contains the point and 0 outside of all pieces, and gives the same answer for a scalar as for an array containing that scalar.", "quantifier": "every piecewise function and every point", "why_tests_cant": "off-by-one errors of the binary search appear only at particular break/gap layouts; the claim ranges over all layouts and points", "anchors": ["pacal/segments.py:PiecewiseFunction.__call__", "pacal/segments.py:PiecewiseFunction.findSegment"]}
{"id": "C04", "title": "Splitting at extra points changes nothing", "statement": "Splitting a piecewise function at arbitrary additional points gives a function with the same values everywhere, the same atoms, and the same total and partial integrals.", "quantifier": "every piecewise function and every finite increasing set of split points", "why_tests_cant": "all combinations of split points relative to all breaks", "anchors": ["pacal/segments.py:PiecewiseFunction.splitByPoints"]}
{"id": "C05", "title": "Restriction to an interval keeps exactly what is inside", "statement": "Restricting a piecewise function to an interval keeps exactly the atoms inside and the pieces inside, so that the mass of the restriction is the mass of the interval when the ends are break points.", "quantifier": "every piecewise function and interval", "why_tests_cant": "boundary atoms and shared break points are needed in all combinations", "anchors": ["pacal/segments.py:PiecewiseFunction.restrictToInterval"]}
{"id": "C06", "title": "Arithmetic of piecewise functions is pointwise", "statement": "The sum, difference, product and quotient of two piecewise functions (and of a function and a number) evaluates at every point to the sum, difference, product, quotient of the values, with 0 where a function is undefined; atoms are combined by the same operation.", "quantifier": "every pair of piecewise functions, every point, every constant", "why_tests_cant": "interleaving of two break point sets has unboundedly many shapes", "anchors": ["pacal/segments.py:PiecewiseFunction._operation__", "pacal/segments.py:PiecewiseFunction._roperation__", "pacal/segments.py:PiecewiseFunction.op_diracs"]}
{"id": "C07", "title": "The CDF is P(X <= x)", "statement": "For a distribution with continuous pieces and atoms, cdf(x) equals the exact probability P(X <= x): the mass of the atoms at or left of x plus the integral of the density up to x; it is nondecreasing, right-continuous at atoms, 0 far left and the total mass far right.", "quantifier": "every piecewise density and every real x, given exact integration on single pieces", "why_tests_cant": "needs all mixtures of atoms and pieces, all gaps, all x", "anchors": ["pacal/segments.py:PiecewiseFunction.cumint", "pacal/segments.py:CumulativePiecewiseFunction.__call__", "pacal/distr.py:Distr.cdf"]}
{"id": "C08", "title": "Quantiles invert the CDF", "statement": "quantile(p) is a point q with cdf(q-) <= p <= cdf(q); at points where the CDF is continuous and strictly increasing cdf(quantile(p)) = p, and quantile(p) of an atom crossing level p is the atom.", "quantifier": "every CDF with atoms and every probability level", "why_tests_cant": "jump levels, flat parts and multiple pieces in all arrangements", "anchors": ["pacal/segments.py:PiecewiseFunction.inverse_scalar", "pacal/segments.py:PiecewiseFunction.invfun", "pacal/distr.py:Distr.quantile"]}
{"id": "C09", "title": "Confidence intervals have the stated coverage", "statement": "ci(p) returns an ordered pair enclosing probability at least 1-p, interval(p) encloses p, and the two are consistent with each other and with quantile.", "quantifier": "every distribution whose quantile inverts its CDF, every level p in (0,1)", "why_tests_cant": "a universally quantified arithmetic relation between three API functions", "anchors": ["pacal/distr.py:Distr.ci", "pacal/distr.py:Distr.interval", "pacal/distr.py:Distr.iqrange", "pacal/distr.py:Distr.median"]}
{"id": "C10", "title": "Arithmetic of discrete distributions is exact", "statement": "For discrete X and Y, X+Y, X-Y, X*Y, X/Y have exactly the law of the operation applied to independent X and Y: the probability of a value z is the sum of P(X=x)P(Y=y) over all x op y = z; total mass is the product of the total masses.", "quantifier": "all finite discrete distributions and any binary operation", "why_tests_cant": "coincident sums occur in unboundedly many patterns", "anchors": ["pacal/indeparith.py:convdiracs", "pacal/distr.py:SumDistr", "pacal/distr.py:MulDistr"]}
{"id": "C11", "title": "Atoms of min and max are exact", "statement": "The atoms of min(X,Y) and max(X,Y) have exactly the probabilities P(min=z) and P(max=z) for independent X, Y which may have both atoms and continuous parts.", "quantifier": "all pairs of mixed distributions", "why_tests_cant": "ties and relative positions of atoms of both arguments in all arrangements", "anchors": ["pacal/indeparith.py:_probDiracsInMin", "pacal/indeparith.py:_probDiracsInMax", "pacal/indeparith.py:convmin", "pacal/indeparith.py:convmax"]}
{"id": "C12", "title": "Density of a sum is the convolution", "statement": "The density computed for X+Y (X-Y) at a point z away from break points equals the exact convolution integral of the two laws, including atom-times-density terms.", "quantifier": "all pairs of piecewise densities with atoms and all z, given exact integration on each pair of pieces", "why_tests_cant": "the integration limits depend on the relative position of two intervals and z: all cases needed", "anchors": ["pacal/indeparith.py:conv", "pacal/indeparith.py:Convxrunner.conv_at_point", "pacal/indeparith.py:_findSegListAdd"]}
{"id": "C13", "title": "Density of a product is exact", "statement": "The density computed for X*Y at z equals the integral of f(t)g(z/t)/|t| over the supports, for all sign combinations of the factors.", "quantifier": "all pairs of piecewise densities whose pieces do not straddle 0, all z not at break points", "why_tests_cant": "quadrant and clipping logic for all sign and position combinations", "anchors": ["pacal/indeparith.py:convprod", "pacal/indeparith.py:Convxrunner.convprod_at_point", "pacal/indeparith.py:_findSegList"]}
{"id": "C14", "title": "Density of a quotient is exact", "statement": "The density computed for X/Y at z equals the integral of f(zt)g(t)|t| over the supports, and when Y has an atom at c the contribution is P(Y=c)|c|f(cz).", "quantifier": "all pairs of piecewise densities and atoms, all z", "why_tests_cant": "quadrant and clipping logic for all sign and position combinations", "anchors": ["pacal/indeparith.py:convdiv", "pacal/indeparith.py:Convxrunner.convdiv_at_point", "pacal/indeparith.py:_findSegListDiv", "pacal/indeparith.py:fun_div"]}
{"id": "C15", "title": "Density of min and max", "statement": "The density computed for min(X,Y) is f(1-G)+g(1-F) and for max(X,Y) is fG+gF, so that the resulting law satisfies P(min>z)=P(X>z)P(Y>z) and P(max<=z)=P(X<=z)P(Y<=z).", "quantifier": "all pairs of distributions and all z", "why_tests_cant": "identity between functions on the whole line", "anchors": ["pacal/indeparith.py:convmin", "pacal/indeparith.py:convmax", "pacal/indeparith.py:Convxrunner.convminx_at_point", "pacal/indeparith.py:Convxrunner.convmax_at_point"]}
{"id": "C16", "title": "The pieces chosen for an integration are complete", "statement": "Between two consecutive break points of the result, the list of pairs of pieces used for every point is exactly the list of pairs whose rectangle meets the curve x op y = z, for every z in between, and not only for the midpoint at which it was computed.", "quantifier": "all piecewise pairs, all z strictly between consecutive result break points", "why_tests_cant": "universal over z in an open interval while the code looks at one midpoint", "anchors": ["pacal/indeparith.py:conv", "pacal/indeparith.py:_findSegListAdd", "pacal/indeparith.py:_findSegList", "pacal/indeparith.py:_findSegListDiv"]}
{"id": "C17", "title": "Merging nearby break points is safe", "statement": "Merging break points closer than the tolerance keeps the points sorted and strictly separated, keeps the first point of each cluster, drops no break without keeping one within tolerance, and keeps every singularity flag.", "quantifier": "every list of break points and tolerance", "why_tests_cant": "clusters and chains of near-equal points of any length", "anchors": ["pacal/indeparith.py:_unique_breakpoints", "pacal/utils.py:epsunique"]}
{"id": "C18", "title": "Shifting and scaling gives the law of aX+b", "statement": "The distribution of a*X+b for a nonzero number a has exactly the probabilities of aX+b: interval masses, atoms and infinite tails included, for positive and negative a.", "quantifier": "every distribution, every a != 0, every b, every interval", "why_tests_cant": "orientation reversal for negative a over every kind of piece", "anchors": ["pacal/segments.py:Segment.shiftAndScale", "pacal/segments.py:PiecewiseFunction.copyShiftedAndScaled", "pacal/distr.py:ShiftedScaledDistr"]}
{"id": "C19", "title": "abs gives the law of |X|", "statement": "The distribution of abs(X) has exactly the probabilities of |X|, for pieces left of, right of, or containing 0, tails and atoms.", "quantifier": "every distribution and interval", "why_tests_cant": "all positions of break points relative to 0", "anchors": ["pacal/segments.py:Segment.absComposition", "pacal/segments.py:PiecewiseFunction.copyAbsComposition", "pacal/distr.py:AbsDistr"]}
{"id": "C20", "title": "Squaring gives the law of X^2", "statement": "The distribution of X**2 has exactly the probabilities of X^2, for pieces of either sign, tails and atoms.", "quantifier": "every distribution and interval", "why_tests_cant": "all positions of break points relative to 0", "anchors": ["pacal/segments.py:Segment.squareComposition", "pacal/segments.py:PiecewiseFunction.copySquareComposition", "pacal/distr.py:SquareDistr"]}
{"id": "C21", "title": "Reciprocal gives the law of 1/X", "statement": "The distribution of 1/X has exactly the probabilities of 1/X, including tails mapped to 0 and pieces at 0 mapped to tails.", "quantifier": "every distribution without an atom at 0, every interval", "why_tests_cant": "finite/infinite ends swap roles in all combinations", "anchors": ["pacal/segments.py:Segment.probInverse", "pacal/segments.py:PiecewiseFunction.copyProbInverse", "pacal/distr.py:InvDistr"]}
{"id": "C22", "title": "Monotone functions of a variable have the right law", "statement": "For a strictly monotone differentiable f with inverse g, the density produced for f(X) is pdf(g(y))|g'(y)| on the image of each piece, atoms move to f(atom) with their mass, and total mass is preserved.", "quantifier": "every monotone transformation pair and every piecewise distribution", "why_tests_cant": "increasing/decreasing and finite/infinite pieces in all combinations", "anchors": ["pacal/segments.py:Segment.probComposition", "pacal/segments.py:PiecewiseFunction.copyComposition", "pacal/distr.py:FuncDistr"]}
{"id": "C23", "title": "Built-in functions, inverses and derivatives fit together", "statement": "For exp, log, atan, tanh, sigmoid, tan, sin, cos the inverse branch used by the library is a true inverse on the stated range, and the derivative used for the density is the derivative of that inverse.", "quantifier": "every real argument in the domain", "why_tests_cant": "identities over the whole real domain", "anchors": ["pacal/distr.py:ExpDistr", "pacal/distr.py:LogDistr", "pacal/distr.py:AtanDistr", "pacal/distr.py:TanhDistr", "pacal/distr.py:SigmoidDistr", "pacal/distr.py:TanDistr", "pacal/distr.py:SinDistr", "pacal/distr.py:CosDistr"]}
{"id": "C24", "title": "Conditioning renormalises correctly", "statement": "X | Gt(a), X | Lt(b), X | Between(a,b) have the conditional law P(X in A and X in the condition)/P(condition), have total mass 1 and no mass outside the condition.", "quantifier": "every distribution with positive probability of the condition, all thresholds", "why_tests_cant": "atoms on the thresholds and thresholds at or between break points in all arrangements", "anchors": ["pacal/distr.py:CondGtDistr", "pacal/distr.py:CondLtDistr", "pacal/distr.py:CondBetweenDistr"]}
{"id": "C25", "title": "Discrete distributions represent the given table", "statement": "DiscreteDistr(xi, pi) assigns to each point the total probability listed for it, its CDF is the step function of the table and its sampler returns only listed points, each on a set of uniform draws of length equal to its probability.", "quantifier": "every table of points and probabilities (unsorted, with duplicates) and every uniform draw", "why_tests_cant": "duplicates, ordering and boundary draws in all combinations", "anchors": ["pacal/distr.py:DiscreteDistr"]}
{"id": "C26", "title": "sign(X) has the right law", "statement": "sign(X) has atoms -1, 0, 1 with probabilities P(X<0), P(X=0), P(X>0), summing to 1.", "quantifier": "every distribution", "why_tests_cant": "atom at zero and pieces around zero in all arrangements", "anchors": ["pacal/distr.py:SignDistr", "pacal/distr.py:sign"]}
{"id": "C27", "title": "Operator shortcuts agree with the general operation", "statement": "The shortcuts taken by +,-,*,/,** with special numbers (0, 1, -1, 2) denote the same random variable as the general operation on outcomes, and the invalid cases are rejected.", "quantifier": "every random variable, every number operand, every outcome", "why_tests_cant": "special numbers interact with every operator and side", "anchors": ["pacal/rv.py:RV.__mul__", "pacal/rv.py:RV.__pow__", "pacal/rv.py:RV.__rpow__", "pacal/distr.py:Distr.__truediv__", "pacal/distr.py:Distr.__pow__"]}
{"id": "C28", "title": "Dependence warnings are exact", "statement": "Combining random variables triggers the dependence warning exactly when two operands share an ancestor (or are the same), for every expression graph.", "quantifier": "every DAG of expressions built by any sequence of operations", "why_tests_cant": "sharing patterns in arbitrarily large DAGs", "anchors": ["pacal/rv.py:RV.getAncestorIDs", "pacal/distr.py:Distr.__init__"]}
{"id": "C29", "title": "Joint sampling respects shared variables", "statement": "Drawing samples of an expression without independence assumption draws each underlying variable exactly once, however often and deeply it is shared, so algebraic identities such as X-X=0 hold samplewise.", "quantifier": "every expression DAG, every random source", "why_tests_cant": "unbounded sharing depth; identities must hold for every draw", "anchors": ["pacal/distr.py:OpDistr.rand", "pacal/distr.py:Distr.rand"]}
{"id": "C30", "title": "Stated ranges contain every outcome", "statement": "The range reported for an expression contains the value of the expression for every outcome of its inputs within their ranges.", "quantifier": "every expression and every outcome", "why_tests_cant": "all sign combinations of interval endpoints", "anchors": ["pacal/rv.py:SumRV.range", "pacal/rv.py:SubRV.range", "pacal/rv.py:MulRV.range", "pacal/rv.py:DivRV.range", "pacal/rv.py:ShiftedScaledRV.range"]}
{"id": "C31", "title": "Free and dependent ancestors are told apart", "statement": "The lists of free and dependent ancestors of a variable are disjoint, contain only ancestors, every free one has no parents, every dependent one has parents, and every ancestor of an expression is in one of them.", "quantifier": "every expression DAG", "why_tests_cant": "arbitrary DAG shapes", "anchors": ["pacal/rv.py:RV.getParentsFree", "pacal/rv.py:RV.getParentsDep", "pacal/rv.py:RV.getParentsAll"]}
{"id": "C32", "title": "iid operations are n-fold operations", "statement": "iid_sum, iid_prod, iid_max, iid_min over n copies compute exactly the n-fold operation for every n >= 1, the 'all' variants return the result for each k=1..n, and averages divide the k-fold result by k.", "quantifier": "every n >= 1 and every associative operation", "why_tests_cant": "binary powering must be right for every n", "anchors": ["pacal/stats/iid_ops.py:_int_exp", "pacal/stats/iid_ops.py:_int_exp_all", "pacal/stats/iid_ops.py:iid_sum", "pacal/stats/iid_ops.py:iid_average", "pacal/stats/iid_ops.py:iid_average_geom"]}
{"id": "C33", "title": "Temporary settings are restored", "statement": "After an iid operation finishes, the global dependence-warning setting has the value it had before, whatever the operation did.", "quantifier": "every operation outcome including failure", "why_tests_cant": "failure at every possible point", "anchors": ["pacal/stats/iid_ops.py:iid_op"]}
{"id": "C34", "title": "Order statistics form a partition", "statement": "The densities of the k-th order statistics of n iid copies satisfy sum over k of f_k = n f, and f_k is the derivative of P(at least k of n are <= x); the median of an odd sample is the middle order statistic.", "quantifier": "every n, k with 1<=k<=n, every density/CDF value", "why_tests_cant": "identities for all n and k", "anchors": ["pacal/stats/iid_ops.py:iid_order_stat", "pacal/stats/iid_ops.py:iid_median"]}
{"id": "C35", "title": "Binomial and multinomial coefficients are exact", "statement": "binomial_coeff(n,k) is the exact binomial coefficient and multinomial_coeff(n,ks) the exact multinomial coefficient for all valid arguments.", "quantifier": "all n, k, ks", "why_tests_cant": "universally quantified integers", "anchors": ["pacal/utils.py:binomial_coeff", "pacal/utils.py:multinomial_coeff"]}
{"id": "C36", "title": "Convergence monitor semantics", "statement": "The convergence monitor reports convergence exactly when its documented tests hold, never changes its mind about recorded errors, and its best result is a recorded one: the last one after convergence, otherwise one whose relative error is within the documented factor of the smallest.", "quantifier": "every sequence of errors and values", "why_tests_cant": "all histories", "anchors": ["pacal/utils.py:convergence_monitor"]}
{"id": "C37", "title": "Adaptive loops terminate and return a real estimate", "statement": "Adaptive integration and interpolation stop after finitely many refinements bounded by the node limit, and return the result of one of the refinements performed.", "quantifier": "every integrand, tolerance and node limit", "why_tests_cant": "no bound on the function or limits", "anchors": ["pacal/integration.py:integrate_fejer2", "pacal/interpolation.py:AdaptiveInterpolator.adaptive_interp"]}
{"id": "C38", "title": "Root finders keep a bracket", "statement": "The bisection and inverse finders only return points inside the bracket, keep a sign change bracketed and shrink it to the requested tolerance.", "quantifier": "every function with a sign change on the bracket", "why_tests_cant": "all functions", "anchors": ["pacal/utils.py:bisect", "pacal/utils.py:findinv", "pacal/utils.py:findinv_minf", "pacal/utils.py:findinv_pinf"]}
{"id": "C39", "title": "Chebyshev grids are nested and sorted", "statement": "Refined Chebyshev grids contain the coarser grid, the incremental nodes are exactly the missing ones, grids are strictly increasing, start and end at the interval ends and stay inside the interval.", "quantifier": "every n and interval a<b", "why_tests_cant": "all n", "anchors": ["pacal/utils.py:cheb_nodes", "pacal/utils.py:incremental_cheb_nodes", "pacal/utils.py:cheb_nodes1", "pacal/utils.py:incremental_cheb_nodes1", "pacal/utils.py:combine_interpolation_nodes_fast"]}
{"id": "C40", "title": "Refinement never loses or misplaces samples", "statement": "At every stage of adaptive interpolation the stored nodes are the Chebyshev grid of the current size in increasing order and every stored value is the function's value at its node.", "quantifier": "every function, every number of refinements", "why_tests_cant": "all histories of refinement", "anchors": ["pacal/interpolation.py:AdaptiveInterpolator.adaptive_interp", "pacal/interpolation.py:ChebyshevInterpolator.add_nodes"]}
{"id": "C41", "title": "Barycentric evaluation is polynomial interpolation", "statement": "Interpolation with the barycentric formula returns the stored value at every node and equals the unique interpolating polynomial everywhere else, so polynomials of low degree are reproduced exactly.", "quantifier": "every set of distinct nodes, all values, all points", "why_tests_cant": "identity for all node sets and all points", "anchors": ["pacal/bary_interp.pyx:bary_interp", "pacal/interpolation.py:BarycentricInterpolator", "pacal/interpolation.py:Interpolator.interp_at"]}
{"id": "C42", "title": "Variable transforms are invertible changes of variable", "statement": "Each transform between an infinite interval and a finite one is a strictly monotone bijection with the stated inverse, and its derivative factor is the absolute value of the derivative of the inverse; integrating through a transform gives the integral over the original interval.", "quantifier": "every point and every parameter", "why_tests_cant": "identities on whole intervals for all parameters", "anchors": ["pacal/vartransforms.py:VarTransformReciprocal_PInf", "pacal/vartransforms.py:VarTransformReciprocal_MInf", "pacal/vartransforms.py:VarTransformReciprocal_PMInf", "pacal/vartransforms.py:VarTransformAlgebraic_PMInf", "pacal/vartransforms.py:VarTransformAlgebraic_PInf", "pacal/vartransforms.py:VarTransformAlgebraic_MInf"]}
{"id": "C43", "title": "Sparse grids: index sets and coefficients", "statement": "The sparse grid uses every admissible level combination exactly once, the combination coefficients sum to one (constants are reproduced), and refined grids contain the coarser ones with the stored values attached to the right nodes.", "quantifier": "every dimension and depth", "why_tests_cant": "all d and q", "anchors": ["pacal/depvars/sparse_grids.py:gen_partitions", "pacal/depvars/sparse_grids.py:gen_Q", "pacal/depvars/sparse_grids.py:AdaptiveSparseGridInterpolator.get_nodes", "pacal/depvars/sparse_grids.py:AdaptiveSparseGridInterpolator.adaptive_interp"]}
{"id": "C44", "title": "Dense grid evaluation is the full tensor sum", "statement": "Evaluating on a dense grid sums value times product of axis factors over all grid points, pairing each value with its own coordinates.", "quantifier": "every dimension, axis sizes and values", "why_tests_cant": "all shapes", "anchors": ["pacal/bary_interp.pyx:c_dense_grid_interp", "pacal/depvars/sparse_grids.py:AdaptiveSparseGridInterpolator.full_grid_interp_new"]}
{"id": "C45", "title": "Parallel evaluation changes nothing", "statement": "Evaluating points in parallel returns the same values in the same order as evaluating them one by one, for every scheduling of the workers.", "quantifier": "every list of points, every chunking, every completion order", "why_tests_cant": "all schedules", "anchors": ["pacal/utils.py:get_parmap", "pacal/utils.py:par_map"]}
{"id": "C46", "title": "Standard densities are probability densities", "statement": "For all valid parameters the density of every standard continuous distribution is nonnegative, integrates to 1 and is the density of the distribution it is named after; pdf(x) returns that density at every x, and invalid parameters are rejected.", "quantifier": "all valid parameters", "why_tests_cant": "continuum of parameters; exact integrals", "anchors": ["pacal/standard_distr.py:UniformDistr", "pacal/standard_distr.py:TrapezoidalDistr", "pacal/standard_distr.py:NormalDistr", "pacal/standard_distr.py:ExponentialDistr", "pacal/standard_distr.py:CauchyDistr", "pacal/standard_distr.py:ParetoDistr", "pacal/standard_distr.py:LaplaceDistr", "pacal/standard_distr.py:GammaDistr", "pacal/standard_distr.py:BetaDistr"]}
{"id": "C47", "title": "Standard discrete distributions have the textbook probabilities", "statement": "Binomial, Bernoulli and truncated Poisson assign the textbook probabilities to every point; truncation leaves out less mass than the stated tolerance and the generic truncated distribution is renormalised to total mass one.", "quantifier": "all parameters", "why_tests_cant": "all n, p, lambda", "anchors": ["pacal/standard_distr.py:BinomialDistr", "pacal/standard_distr.py:BernoulliDistr", "pacal/standard_distr.py:PoissonDistr", "pacal/standard_distr.py:TruncDiscreteFunDistr"]}
{"id": "C48", "title": "Mixtures", "statement": "A mixture has density and atoms equal to the weighted sums of those of its components, its range contains the ranges of the components, and its sampler draws component k with probability equal to its weight.", "quantifier": "all mixtures", "why_tests_cant": "all weights and component families", "anchors": ["pacal/standard_distr.py:MixDistr"]}
{"id": "C49", "title": "Exchanging and eliminating variables in a model is sound", "statement": "In a model with free variables and equations, exchanging a free variable with a dependent one, substituting and eliminating dependent variables, and conditioning keep the set of joint assignments described by the model, and every variable remains either free or dependent, never both. Inference of wanted variables given values of others ends, with a model of exactly the wanted variables, whenever the equations can be solved uniquely.", "quantifier": "every model and every sequence of operations", "why_tests_cant": "all histories of model operations", "anchors": ["pacal/depvars/models.py:Model.varschange", "pacal/depvars/models.py:Model.eliminate", "pacal/depvars/models.py:Model.condition", "pacal/depvars/models.py:Model.inference"]}
{"id": "C50", "title": "Products of factors evaluate consistently", "statement": "The joint density of a product of factors is the product of the factor densities each at its own variables, simplifying constant factors does not change it, and eliminating a variable only touches the factors containing it.", "quantifier": "every family of factors and every point", "why_tests_cant": "all sharing patterns of variables among factors", "anchors": ["pacal/depvars/nddistr.py:NDProductDistr", "pacal/depvars/nddistr.py:NDDistrWithVarSubst"]}
{"id": "C51", "title": "Copulas are copulas", "statement": "The copulas provided are grounded, have uniform margins, lie between the Frechet bounds, and the density formula is the mixed derivative of the copula.", "quantifier": "all arguments in the unit square and all parameters", "why_tests_cant": "inequalities on the whole square", "anchors": ["pacal/depvars/copulas.py:PiCopula", "pacal/depvars/copulas.py:MCopula", "pacal/depvars/copulas.py:WCopula", "pacal/depvars/copulas.py:ClaytonCopula", "pacal/depvars/copulas.py:GumbelCopula2d", "pacal/depvars/copulas.py:FrankCopula2d"]}
{"id": "C52", "title": "Multivariate normal margins and conditionals", "statement": "Eliminating variables from a multivariate normal keeps exactly the remaining means and covariances, in any elimination order, and the conditional mean and covariance are those of the conditional normal law.", "quantifier": "every dimension, mean, covariance and set of eliminated variables", "why_tests_cant": "all index sets and dimensions", "anchors": ["pacal/depvars/nddistr.py:NDNormalDistr"]}
{"id": "C53", "title": "Joint densities vanish outside their box", "statement": "A joint density returns 0 whenever any coordinate is outside its range, for scalars and arrays alike.", "quantifier": "every point", "why_tests_cant": "all coordinates patterns", "anchors": ["pacal/depvars/nddistr.py:NDFun.__call__"]}
{"id": "C54", "title": "lgamma argument reduction", "statement": "The log-gamma routine reduces its argument correctly: the value is log|Gamma(x)| whenever the core approximation on [2,3) and for large arguments is, and it is infinite exactly at the poles.", "quantifier": "every real argument below the asymptotic range", "why_tests_cant": "all real x, unbounded number of recurrence steps", "anchors": ["pacal/gamma.py:lgamma"]}
{"id": "C55", "title": "Moments are expectations", "statement": "mean, var, moment and mean of a function computed from a piecewise density are the exact expectations including atoms; mean is linear and var(aX+b) = a^2 var(X).", "quantifier": "every piecewise distribution, given exact integration on pieces", "why_tests_cant": "all mixtures of atoms and pieces", "anchors": ["pacal/segments.py:PiecewiseDistribution.mean", "pacal/segments.py:PiecewiseDistribution.meanf", "pacal/segments.py:PiecewiseDistribution.var", "pacal/distr.py:Distr.moment"]}
{"id": "C56", "title": "Nonnegativity guard", "statement": "log and non-integer powers are accepted exactly for distributions that put no mass on negative numbers (and zero where needed); others are rejected with an error.", "quantifier": "every distribution", "why_tests_cant": "all arrangements of pieces relative to zero", "anchors": ["pacal/segments.py:PiecewiseFunction.isNonneg", "pacal/distr.py:LogDistr", "pacal/distr.py:Distr.__pow__"]}
{"id": "C57", "title": "Integration front ends integrate over the requested interval", "statement": "Given a quadrature that is exact on finite intervals, the routines for infinite and half-infinite intervals, for intervals with a pole at an end, for very wide intervals and the dispatcher choosing among them all return the exact integral over the interval they were asked for, and 0 for empty or reversed intervals.", "quantifier": "every integrable function, every interval and every parameter of the routines", "why_tests_cant": "all functions and all intervals, including infinite ones", "anchors": ["pacal/integration.py:integrate_fejer2_pinf", "pacal/integration.py:integrate_fejer2_minf", "pacal/integration.py:integrate_fejer2_pminf", "pacal/integration.py:integrate_fejer2_Xn_transformP", "pacal/integration.py:integrate_fejer2_Xn_transformN", "pacal/integration.py:integrate_wide_interval", "pacal/integration.py:integrate_wide_interval2", "pacal/integration.py:integrate_with_pminf_guess", "pacal/segments.py:_segint"]}
{"id": "C58", "title": "Integrating a distribution over an interval", "statement": "Integrating a piecewise density from a to b gives the probability of the open interval (a, b); from a point to itself it gives the atom there; over the whole line it gives the total mass.", "quantifier": "every piecewise distribution and every pair of ends, finite or infinite, given exact integration on pieces", "why_tests_cant": "all arrangements of pieces, atoms and limits", "anchors": ["pacal/segments.py:PiecewiseFunction.integrate", "pacal/segments.py:Segment.integrate", "pacal/segments.py:ConstSegment.integrate", "pacal/segments.py:MInfSegment.integrate", "pacal/segments.py:PInfSegment.integrate", "pacal/segments.py:DiracSegment.integrate"]}
{"id": "C59", "title": "The survival function is P(X > x)", "statement": "ccdf(x) and ccdf_value(x) return P(X > x) for every x, whether the value is found by integrating the right tail or as one minus the CDF.", "quantifier": "every piecewise distribution and every real x, given exact integration on pieces", "why_tests_cant": "all arrangements of pieces, atoms and tails", "anchors": ["pacal/distr.py:Distr.ccdf", "pacal/distr.py:Distr.ccdf_value", "pacal/distr.py:Distr.get_piecewise_ccdf"]}
{"id": "C60", "title": "Sampling by inversion has the right distribution", "statement": "Random numbers generated by inverting the CDF at uniform random levels have exactly the distribution of the variable.", "quantifier": "every piecewise distribution and every sequence of uniform draws, given exact integration and root finding", "why_tests_cant": "a statement about the distribution of the output, for all distributions", "anchors": ["pacal/segments.py:CumulativePiecewiseFunction.rand", "pacal/segments.py:PiecewiseFunction.inverse", "pacal/distr.py:Distr.rand_invcdf"]}
{"id": "C61", "title": "Sparse grid interpolation reproduces nodes and polynomials", "statement": "The multidimensional interpolator returns the interpolated function's value at every one of its nodes, and equals the function everywhere if it is a polynomial whose degrees fit the depth reached (degree up to 10 in every variable at any depth).", "quantifier": "every function, dimension, box, depth limit and stopping rule", "why_tests_cant": "all dimensions, all depths, all real points", "anchors": ["pacal/depvars/sparse_grids.py:AdaptiveSparseGridInterpolator.interp_at", "pacal/depvars/sparse_grids.py:AdaptiveSparseGridInterpolator.full_grid_interp_new", "pacal/depvars/sparse_grids.py:AdaptiveSparseGridInterpolator.get_nodes"]}
{"id": "C62", "title": "A density given by a function and break points", "statement": "PiecewiseFunction(fun, breakPoints, lpoles, rpoles), and FunDistr, store one piece of the function between any two consecutive break points, with exactly the poles asked for; the distribution has density fun between the first and the last break point and no mass elsewhere.", "quantifier": "every function, every increasing list of break points with possibly infinite ends, every choice of poles", "why_tests_cant": "all lists and flags", "anchors": ["pacal/segments.py:PiecewiseFunction.__init__", "pacal/standard_distr.py:FunDistr"]}
{"id": "C63", "title": "The range of a standard distribution carries all its mass", "statement": "range() of a standard distribution returns an interval outside which the distribution has no mass.", "quantifier": "every standard distribution, all valid parameters", "why_tests_cant": "continuum of parameters; a statement about exact integrals", "anchors": ["pacal/standard_distr.py:NormalDistr.range", "pacal/standard_distr.py:GumbelDistr.range", "pacal/standard_distr.py:FrechetDistr.range"]}
{"id": "C64", "title": "The quadrature rules are exact for polynomials and converge", "statement": "The Clenshaw-Curtis and Fejer coefficients are nonnegative and integrate polynomials up to the degree belonging to the number of nodes exactly; hence the rules converge for every continuous function, the adaptive integrators return exact integrals of polynomials with error zero, and otherwise a value as close to the integral as twice the interval length times the distance of the function to polynomials of the starting degree.", "quantifier": "every number of nodes, interval, polynomial, continuous function, tolerance and node limit, every history of calls (cached coefficients)", "why_tests_cant": "all degrees, node counts and functions; a statement about exact integrals and limits", "anchors": ["pacal/integration.py:clenshaw_coefficients", "pacal/integration.py:fejer2_coefficients", "pacal/integration.py:integrate_clenshaw", "pacal/integration.py:integrate_fejer2", "pacal/integration.py:integrate_fejer2_vector"]}
{"id": "C65", "title": "Derivatives, roots and trimmed forms of interpolated functions", "statement": "For a function that its interpolator represents exactly, diff() represents its derivative, roots() lists its zeros inside the interval, and trim(abstol) changes it by no more than the dropped coefficients.", "quantifier": "every number of nodes, interval, polynomial, tolerance; every grid (with and without end points, first and second kind)", "why_tests_cant": "all degrees and node counts; a statement about exact derivatives and zeros", "anchors": ["pacal/interpolation.py:BarycentricInterpolator.diff", "pacal/interpolation.py:BarycentricInterpolator.roots", "pacal/interpolation.py:ChebyshevInterpolator.trim", "pacal/utils.py:chebt2", "pacal/utils.py:ichebt2", "pacal/utils.py:chebroots"]}
{"id": "C66", "title": "The distribution of a function of two dependent variables", "statement": "TwoVarsModel(joint, expression).eval() is the law of the expression of two variables with the given joint density; the limits of each integration enclose exactly the part of the level curve that lies in the box of the two pieces.", "quantifier": "every joint density on finite or infinite pieces, every linear combination, products of positive variables, and every monotone operation that sympy solves", "why_tests_cant": "all densities, pieces and coefficients; a statement about exact laws", "anchors": ["pacal/depvars/models.py:TwoVarsModel.eval", "pacal/depvars/models.py:TwoVarsModel.convmodel", "pacal/depvars/models.py:TwoVarsModel.getUL", "pacal/depvars/models.py:_findSegList"]}
{"id": "C67", "title": "Direct samplers follow the distribution's own law", "statement": "The random numbers of every standard distribution, obtained by transforming draws of numpy's generators, have exactly the distribution described by its density; sampling X given X > L by rejection returns exactly n values, with probability 1, which are independent and follow the conditional distribution.", "quantifier": "every standard distribution with every parameter, every sequence of draws", "why_tests_cant": "a statement about the distribution of the output, for all parameters and an unbounded number of rejections", "anchors": ["pacal/standard_distr.py:NormalDistr.rand_raw", "pacal/standard_distr.py:CauchyDistr.rand_raw", "pacal/standard_distr.py:LevyDistr.rand_raw", "pacal/standard_distr.py:SemicircleDistr.rand_raw", "pacal/standard_distr.py:FrechetDistr.rand_raw", "pacal/standard_distr.py:LogLogisticDistr.rand_raw", "pacal/standard_distr.py:ParetoDistr.rand_raw", "pacal/standard_distr.py:WeibullDistr.rand_raw", "pacal/distr.py:CondGtDistr.rand_raw"]}
{"id": "C68", "title": "Expressions of any depth are evaluated to the law of the expression", "statement": "The distribution object computed for an arithmetic expression of independent random variables with standard distributions or given as tables of probabilities (sums, differences, products, quotients, minima, maxima, powers, exponentials, logarithms, absolute values, reciprocals, arc tangents, affine functions) has the law of that expression and total mass 1; continuous expressions are evaluated to densities without atoms; two expressions with the same law get results with the same law.", "quantifier": "every expression of every depth, all valid parameters of the distributions at the leaves", "why_tests_cant": "all expression trees and a continuum of parameters; a statement about exact laws", "anchors": ["pacal/distr.py:Distr.__add__", "pacal/distr.py:Distr.__sub__", "pacal/distr.py:Distr.__mul__", "pacal/distr.py:Distr.__truediv__", "pacal/distr.py:Distr.__pow__", "pacal/distr.py:min", "pacal/distr.py:max", "pacal/distr.py:exp", "pacal/distr.py:log", "pacal/segments.py:PiecewiseDistribution"]}
{"id": "C69", "title": "Textbook identities hold between computed objects", "statement": "If an expression of independent random variables has a standard distribution by a textbook identity (the sum of two normal variables is normal, the square of a standard normal variable is chi square, the quotient of two normal variables is Cauchy, the smallest of two exponential variables is exponential, minus the logarithm of a uniform variable is exponential, ...), then evaluating the expression gives an object with the same law as constructing that standard distribution directly.", "quantifier": "every row of a table of 56 identities, all valid parameters", "why_tests_cant": "a continuum of parameters; equality of exact laws, which tests compare only up to a tolerance at sample points", "anchors": ["pacal/distr.py:Distr.__add__", "pacal/distr.py:Distr.__sub__", "pacal/distr.py:Distr.__truediv__", "pacal/distr.py:Distr.__pow__", "pacal/distr.py:min", "pacal/distr.py:max", "pacal/distr.py:exp", "pacal/distr.py:log", "pacal/distr.py:atan", "pacal/standard_distr.py:NormalDistr", "pacal/standard_distr.py:ChiSquareDistr", "pacal/standard_distr.py:FDistr"]}
{"id": "C70", "title": "Rewriting an expression does not change its law", "statement": "Rewriting an expression of independent random variables by rules of algebra (commutativity and associativity, X-Y = X+(-Y), X/Y = X*(1/Y), exp(X)*exp(Y) = exp(X+Y), |X|*|Y| = |X*Y|, affine maps pulled through sums, minima and maxima, ...) and by textbook identities, at any place and any number of times, does not change the law of the computed object.", "quantifier": "every pair of expressions connected by any number of rewriting steps at any depth", "why_tests_cant": "unboundedly many expressions and rewriting sequences", "anchors": ["pacal/distr.py:Distr.__add__", "pacal/distr.py:Distr.__sub__", "pacal/distr.py:Distr.__mul__", "pacal/distr.py:Distr.__truediv__", "pacal/distr.py:Distr.__neg__", "pacal/distr.py:Distr.__abs__", "pacal/distr.py:Distr.__pow__", "pacal/distr.py:min", "pacal/distr.py:max", "pacal/distr.py:exp", "pacal/distr.py:log", "pacal/distr.py:atan"]}
{"id": "C71", "title": "Noncentral distributions have the textbook laws", "statement": "The objects NoncentralChiSquareDistr, NoncentralFDistr, NoncentralBetaDistr and NoncentralTDistr have the textbook noncentral laws (Poisson mixtures of central laws; the densities given in textbooks); with noncentrality 0 they are the central distributions; the sum of squares of independent normal variables of variance 1 has the law of NoncentralChiSquareDistr(n, sum of the squared means); sums of noncentral chi-square variables add their parameters; the square of a noncentral t variable is a noncentral F variable.", "quantifier": "all degrees of freedom and noncentrality parameters, any number of summands", "why_tests_cant": "a continuum of parameters; equality of exact laws given by infinite series and integrals", "anchors": ["pacal/stats/noncentral_distr.py:NoncentralTDistr", "pacal/stats/noncentral_distr.py:NoncentralChiSquareDistr", "pacal/stats/noncentral_distr.py:NoncentralBetaDistr", "pacal/stats/noncentral_distr.py:NoncentralFDistr"]}
{"id": "C72", "title": "Interpolators of tails and poles reproduce the density", "statement": "The interpolators which represent the unbounded pieces of a density and the pieces with a pole (LogTransformInterpolator, VarTransformInterpolator, PInfInterpolator, MInfInterpolator, PoleInterpolatorP, PoleInterpolatorN) can be built for every positive function; at every node reported by getNodes the stored value is the value of the function, and evaluating the interpolator there returns it; the nodes lie in the interval represented; the two parts of a tail agree where they meet; the tail is cut only where a decreasing density has fallen below 1e-120, and the interpolant is 0 beyond; power tails are represented exactly.", "quantifier": "all functions, intervals, convergence settings and node limits of at least 3", "why_tests_cant": "functions are arbitrary and the number of nodes is determined adaptively, so no finite set of tests covers the node sets or the seam between the parts", "anchors": ["pacal/interpolation.py:_find_zero", "pacal/interpolation.py:LogTransformInterpolator", "pacal/interpolation.py:VarTransformInterpolator", "pacal/interpolation.py:PInfInterpolator", "pacal/interpolation.py:MInfInterpolator", "pacal/interpolation.py:PoleInterpolatorP", "pacal/interpolation.py:PoleInterpolatorN"]}
{"id": "C73", "title": "The mode and the extrema of a density are found", "statement": "mode() returns a point where the density is largest, and maximum(), minimum() and max_abs() of a piecewise function return the largest and smallest value together with a point where it is attained, on every bounded or unbounded piece; for a discrete distribution mode() is a most probable value.", "quantifier": "every list of pieces, every function on them", "why_tests_cant": "arbitrary functions on unbounded intervals; the search for a bracket is unbounded", "anchors": ["pacal/segments.py:PiecewiseFunction.maximum", "pacal/segments.py:PiecewiseFunction.minimum", "pacal/segments.py:PiecewiseFunction.max_abs", "pacal/segments.py:PiecewiseDistribution.mode", "pacal/segments.py:Segment.maximum", "pacal/segments.py:PInfSegment.findRightpoint", "pacal/segments.py:MInfSegment.findLeftpoint", "pacal/distr.py:Distr.mode"]}
{"id": "C74", "title": "The median absolute deviation is the median distance from the median", "statement": "medianad() returns a median of |X - m|, where m is a median of X.", "quantifier": "every continuous distribution given by contiguous pieces", "why_tests_cant": "a statement about exact laws for arbitrary densities", "anchors": ["pacal/segments.py:PiecewiseDistribution.medianad", "pacal/distr.py:Distr.medianad"]}
{"id": "C75", "title": "Entropy and distances of distributions are exact", "statement": "entropy() is -E log f(X) (for discrete distributions the Shannon entropy), X.L2_distance(Y) the L2 distance of the two distributions, and X.KL_distance(Y) their Kullback-Leibler divergence: it is never negative and 0 only for equal distributions.", "quantifier": "all distributions with densities and atoms", "why_tests_cant": "arbitrary densities; a statement about exact integrals", "anchors": ["pacal/segments.py:PiecewiseDistribution.entropy", "pacal/segments.py:PiecewiseDistribution.L2_distance", "pacal/segments.py:PiecewiseDistribution.KL_distance", "pacal/segments.py:PiecewiseFunction._function__", "pacal/distr.py:Distr.entropy", "pacal/distr.py:Distr.L2_distance", "pacal/distr.py:Distr.KL_distance"]}
{"id": "C76", "title": "The joint law of two order statistics is exact", "statement": "For n independent observations of a continuous variable X and ranks 1 <= i < j <= n, IJthOrderStatsNDDistr(X, n, i, j) is the joint density of the i-th and the j-th smallest observation: probabilities of arbitrary events about the pair are its integrals, and its marginals are the distributions iid_order_stat gives for i and j; other ranks are rejected.", "quantifier": "every density, every sample size n, all ranks i < j and every event in the plane", "why_tests_cant": "an identity of measures for all n, i, j and all laws", "anchors": ["pacal/depvars/nddistr.py:IJthOrderStatsNDDistr", "pacal/stats/iid_ops.py:iid_order_stat", "pacal/utils.py:multinomial_coeff"]}
{"id": "C77", "title": "Tail exponents are estimated correctly", "statement": "tailexp() returns, for the left and the right tail of a distribution, the exponent of the power of x the density behaves like far out (exactly for power tails such as Pareto, up to a stated error for densities between two multiples of a power), infinity for tails lighter than every power, and None where there is no tail.", "quantifier": "every distribution with a tail, every exponent", "why_tests_cant": "arbitrary densities; a bound on the error of an estimate", "anchors": ["pacal/distr.py:Distr.tailexp", "pacal/segments.py:PiecewiseDistribution.tailexp", "pacal/segments.py:MInfSegment.tailexp", "pacal/segments.py:PInfSegment.tailexp", "pacal/utils.py:estimateTailExponent"]}
{"id": "C78", "title": "Poles are told from regular points", "statement": "The test that decides whether a density gets the special treatment for singularities answers yes at a point where it, or one of its first derivatives, grows like a power of the distance, and no where it is regular; the exponent is estimated exactly for powers and up to a stated error otherwise.", "quantifier": "every function behaving like a power near the tested point, every exponent, both sides", "why_tests_cant": "all exponents and all functions squeezed between powers", "anchors": ["pacal/utils.py:estimateDegreeOfPole", "pacal/utils.py:testPole"]}
{"id": "C79", "title": "Measures of dependence have their textbook values", "statement": "For a joint distribution and two of its variables X_i and X_j, cov(i, j) is their covariance, corrcoef(i, j) Pearson's coefficient of correlation (1 for i = j), rho_s(i, j) Spearman's rho (the correlation of the ranks), and tau(i, j) and ctau(i, j) are Kendall's tau (the probability of concordance less that of discordance of two independent copies); without arguments each returns the matrix of all values, and wrong indices are rejected.", "quantifier": "every number of variables, all pairs i, j, every joint law with a density, every copula", "why_tests_cant": "identities of integrals and probabilities for arbitrary laws; wrong only for pairs other than the first two", "anchors": ["pacal/depvars/copulas.py:Copula.cov", "pacal/depvars/copulas.py:Copula.corrcoef", "pacal/depvars/copulas.py:Copula.tau", "pacal/depvars/copulas.py:Copula.rho_s", "pacal/depvars/copulas.py:Copula.ctau", "pacal/depvars/nddistr.py:NDDistr.cov"]}
{"id": "C80", "title": "Kendall's tau of an Archimedean copula is exact", "statement": "tau_c() of the Clayton, Gumbel and Frank copulas is Kendall's tau of any two continuous variables joined by the copula: it agrees with ctau(i, j), and is theta/(theta+2) for Clayton and 1-1/theta for Gumbel; the functions ccdf and cpdf are the distribution function and the density of a law on the unit square.", "quantifier": "all parameters of the three families, every pair of continuous variables with the copula, on any probability space", "why_tests_cant": "an identity of integrals over all parameters and laws", "anchors": ["pacal/depvars/copulas.py:ArchimedeanCopula.tau_c", "pacal/depvars/copulas.py:ArchimedeanCopula.ccdf", "pacal/depvars/copulas.py:ArchimedeanCopula.cpdf", "pacal/depvars/copulas.py:Copula.ctau", "pacal/depvars/copulas.py:ClaytonCopula", "pacal/depvars/copulas.py:GumbelCopula", "pacal/depvars/copulas.py:FrankCopula"]}
{"id": "C81", "title": "Conditional distribution functions of an Archimedean copula", "statement": "conditionCDF([i], x) of the Clayton, Gumbel and Frank copulas, evaluated at numbers for the other variables, is the conditional probability that these variables are at most the numbers, given that variable i is x: integrating it over any set of values of variable i gives the probability of the joint event, and it is between 0 and 1. condfun([i]) is the same function of all variables. Conditioning on several variables gives the conditional distribution function too. The pairs drawn by rand2d_invcdf have the joint distribution.", "quantifier": "any number of continuous variables with the copula, on any probability space, every conditioning variable and every point", "why_tests_cant": "conditional probabilities given an event of probability 0 cannot be observed", "anchors": ["pacal/depvars/copulas.py:ArchimedeanSymbolicCopula.ccond", "pacal/depvars/copulas.py:ArchimedeanSymbolicCopula.conditionCDF", "pacal/depvars/copulas.py:ArchimedeanSymbolicCopula.condfun", "pacal/depvars/copulas.py:ArchimedeanSymbolicCopula.rand2d_invcdf", "pacal/depvars/nddistr.py:NDFun.__call__"]}
{"id": "C82", "title": "Regression functions of a joint distribution", "statement": "For two variables with a joint density on finite ranges, regfun(v) at the value of the other variable is the conditional expectation of v given that variable, so no function of the other variable predicts v with a smaller mean square error. regfun(v, 1), regfun(v, 3) and regfun(v, 4) are conditional quantiles of order 0.5, 0.025 and 0.975: the conditional distribution function there is the order.", "quantifier": "every joint density of two variables on finite ranges, every probability space with variables that have it, every square integrable predictor, both variables", "why_tests_cant": "optimality over all measurable predictors cannot be tested", "anchors": ["pacal/depvars/nddistr.py:NDDistr.regfun", "pacal/depvars/nddistr.py:NDDistr.condition"]}
{"id": "C83", "title": "Functions with additive noise", "statement": "NDNoisyFun(f, X, noise) is the conditional density of f(X) + noise given the variables X, when the noise is independent of them: for every law of X, integrating it over a set of values and then over a set of points with the law of X gives the probability of the joint event. Eliminating the variable of the value gives the constant 1, which is the integral of the density over it. Fixing variables with condition gives a function of the other variables with the same values and the right number of dimensions.", "quantifier": "every function, every noise density, every law of the variables on any probability space, every point and every list of fixed variables", "why_tests_cant": "all functions and all laws of their arguments", "anchors": ["pacal/depvars/nddistr.py:NDNoisyFun"]}
{"id": "C84", "title": "The inverse distribution function as a piecewise function", "statement": "The function returned by get_piecewise_invcdf() is the quantile function: at every probability u strictly between 0 and 1 its value is a quantile of the distribution, the same that quantile(u) returns.", "quantifier": "every distribution with any finite number of continuous pieces and atoms, bounded or not, and every probability strictly between 0 and 1", "why_tests_cant": "all distributions and all probabilities; the break points are found by merging values of the distribution function", "anchors": ["pacal/segments.py:CumulativePiecewiseFunction.invfun", "pacal/distr.py:Distr.get_piecewise_invcdf"]}
{"id": "C85", "title": "Histograms on the scale of a density", "statement": "hist(n, xmin, xmax, bins, max_samp) draws bars of equal width side by side from the smallest to the largest value drawn in the range; the area of each bar is the proportion of all draws that fall into it (every value in exactly one bar), so that without a range the total area is 1. Sampling stops: never more than max_samp + n values are drawn, and exactly n of them lie in the range unless max_samp is reached. Without any value an exception is raised.", "quantifier": "every sequence of random draws, every number of samples and bins, every range and limit", "why_tests_cant": "all sequences of draws; termination of the loop that rejects values outside of the range", "anchors": ["pacal/distr.py:Distr.hist"]}
{"id": "C86", "title": "Integrating variables out of a joint density", "statement": "If f is a joint density of random variables, f.eliminate(vars) never fails for variables of f, the result has exactly the remaining variables in their order, and it is the joint density of the remaining variables; eliminating all of them gives the constant 1, eliminating in steps agrees with eliminating at once, and the order in which the variables are listed does not matter. A variable that f does not have is refused.", "quantifier": "every probability space, every family of random variables with a joint density, every number of variables and every choice of variables to eliminate", "why_tests_cant": "all joint densities of any number of variables; equality of laws", "anchors": ["pacal/depvars/nddistr.py:NDFun.eliminate", "pacal/depvars/nddistr.py:InterpRunner"]}
{"id": "C87", "title": "Conditional densities", "statement": "ConditionalDistr(f, vars) of a joint density f is a conditional density of the other variables given vars: it is the quotient of f and the density of the condition; multiplied by that density it is a joint density of all variables; for any condition of positive density it integrates to 1. Eliminating other variables from it gives the conditional density of the rest, eliminating all of them the factor 1, eliminating a variable of the condition is refused. Conditioning on values of the whole condition, or conditioning the joint density f itself on values, gives the values of that quotient; conditioning on a part of the condition leaves a conditional density. The order in which variables are listed does not matter.", "quantifier": "every probability space, every joint density of any number of variables, every choice of variables and of values in the ranges", "why_tests_cant": "all joint densities and conditions; almost sure equality of densities", "anchors": ["pacal/depvars/nddistr.py:ConditionalDistr", "pacal/depvars/nddistr.py:NDDistr.condition", "pacal/depvars/nddistr.py:_cond_f"]}
{"id": "C88", "title": "Extrema from the derivative", "statement": "max_() and min_() of a piecewise function return its largest and smallest value together with a point where the function takes it, and fail only when there is no such value.", "quantifier": "every piecewise function: any number of pieces of any kind, with or without gaps, atoms and unbounded pieces; every root finder that finds all critical points", "why_tests_cant": "The candidates are collected in two parallel arrays built from different lists (pieces and break points), so whether the reported point belongs to the reported value depends on the number of gaps and atoms; tests use one contiguous function.", "anchors": ["pacal/segments.py:PiecewiseFunction.diff", "pacal/segments.py:PiecewiseFunction.roots", "pacal/segments.py:PiecewiseFunction.characteristicPoints", "pacal/segments.py:PiecewiseFunction.max_", "pacal/segments.py:PiecewiseFunction.min_"]}
{"id": "C89", "title": "Maximum likelihood estimation", "statement": "LoglikelihoodEstimator(distr, xi) starts from the default values of the parameters of the class, evaluates the likelihood with each value passed under the name of its parameter, and find_params() returns parameter values, by name, for which no other values examined by the minimiser make the data more likely. The order of the data does not matter. This holds for continuous and discrete distributions and for data of any numeric type.", "quantifier": "every distribution class, every list of parameters and defaults, every data set, every set of parameter values on which the minimiser finds a minimum", "why_tests_cant": "The likelihood is a product over arbitrarily many observations of arbitrary densities; that maximising the modified sum of logarithms maximises it is a statement about all densities and data.", "anchors": ["pacal/stats/distr_est.py:LoglikelihoodEstimator", "pacal/stats/distr_est.py:make_kwargs", "pacal/stats/distr_est.py:logli", "pacal/stats/distr_est.py:find_params"]}
{"id": "C90", "title": "Stable logarithms and the generator of the two-dimensional Frank copula", "statement": "logexp_p1(x, a) is log(|a| exp(x) + 1), logexp_m1(x) is -log|exp(-x) - 1| and log_1m_exp(x, a) is log|1 - |a| exp(x)|, to full double accuracy whatever branch is taken, for numbers and arrays, and with the meaning their documentation gives. FrankCopula2d.fi and fi_inv are the Frank generator and its inverse to the same accuracy, for every parameter other than 0.", "quantifier": "every real x, every factor a other than 0, every parameter theta other than 0, every t > 0 and s >= 0, numbers and arrays of every length", "why_tests_cant": "The branches switch at thresholds where floating point functions lose accuracy; the size of the jump at the thresholds and beyond them must be bounded for a continuum of arguments.", "anchors": ["pacal/depvars/copulas.py:logexp_p1", "pacal/depvars/copulas.py:logexp_m1", "pacal/depvars/copulas.py:log_1m_exp", "pacal/depvars/copulas.py:FrankCopula2d.fi", "pacal/depvars/copulas.py:FrankCopula2d.fi_inv"]}
{"id": "C91", "title": "Errors of intermediate results add up and are not amplified", "statement": "The distribution computed for an arithmetic expression of independent variables differs from the true one by no more than the errors committed at its nodes (interpolation, quadrature, rounding) allow: each operation adds the error of its own result to those of its arguments, and none of +, -, *, /, min, max and the functions of one argument amplifies them. With an error of at most d in every intermediate density, the probability of every event, the values of the CDF and the total mass are exact up to 2 d per node.", "quantifier": "every expression of independent variables, of every depth and size; every way in which intermediate densities are replaced by approximations with known accuracy; all events", "why_tests_cant": "The expressions are unbounded in depth and the errors of intermediate results are arbitrary functions; a test sees the errors of one expression and one interpolation.", "anchors": ["pacal/indeparith.py:conv", "pacal/indeparith.py:convprod", "pacal/indeparith.py:convdiv", "pacal/indeparith.py:convmin", "pacal/indeparith.py:convmax", "pacal/segments.py:Segment.toInterpolatedSegment", "pacal/distr.py:Distr.get_piecewise_pdf"]}
{"id": "C92", "title": "Errors of the numerical integrals add up over the pairs of pieces", "statement": "For a sum, difference, product, quotient, minimum or maximum of two independent variables: if every integral over a pair of continuous pieces of the arguments is computed up to an error e, then the density of the result is correct up to e times the number of pairs of pieces at almost every point; the break points, the order of the pieces and the probabilities of single values are correct whatever the quadrature does; and the probability of an interval is correct up to that error times its length.", "quantifier": "every pair of piecewise distributions with any number of pieces, poles, infinite ends (and atoms), every quadrature and every error bound", "why_tests_cant": "Tests compare a few results with closed forms; how the errors of single quadratures combine over an unbounded number of pieces, and that they cannot shift break points or atoms, holds only by proof.", "anchors": ["pacal/indeparith.py:conv", "pacal/indeparith.py:conv_at_point", "pacal/indeparith.py:convprod", "pacal/indeparith.py:convprod_at_point", "pacal/indeparith.py:convdiv", "pacal/indeparith.py:convdiv_at_point", "pacal/indeparith.py:convmin", "pacal/indeparith.py:convmax", "pacal/segments.py:_segint"]}
{"id": "C93", "title": "The moment generating function is E exp(tX)", "statement": "d.mgf()(t) is the expectation of exp(tX) whenever that expectation exists; on an array of points it is the array of these values; at 0 it is the total probability; for a sum of independent variables it is the product of the two functions, and for a*X + b it is exp(bt) times the function of X at at.", "quantifier": "every piecewise distribution (any number of pieces, atoms, infinite ends) and every t for which the expectation exists", "why_tests_cant": "A test evaluates a few distributions at a few t and would have to pick one outside the range of X to notice that a function of t was given the break points of a function of x.", "anchors": ["pacal/distr.py:_mgf_fun", "pacal/distr.py:Distr.mgf", "pacal/segments.py:PiecewiseFunction.__call__", "pacal/segments.py:PiecewiseFunction.findSegment"]}
{"id": "C94", "title": "Interpolated copies keep pieces, atoms and, up to the interpolation error, values", "statement": "The interpolated copy of a piecewise function or distribution function has the same break points, poles and atoms as the original; its values differ from the original by no more than the interpolants from the functions they interpolate; probabilities on a bounded range differ by no more than this error times the length of the range; and the interpolated distribution function is P(X <= x) up to the error, exactly 0 left of a bounded range and exactly the total probability right of it; the complementary distribution function is P(X > x) likewise.", "quantifier": "every piecewise distribution with any number of pieces, poles, infinite ends and atoms, every interpolation method and every error bound", "why_tests_cant": "Tests compare an interpolated distribution function with the direct one at sample points of a few distributions; that re-inserting the pieces loses none of them, that atoms survive, and that the tails are exact whatever the interpolator does, concerns all arrangements of pieces.", "anchors": ["pacal/segments.py:PiecewiseFunction.toInterpolated", "pacal/segments.py:CumulativePiecewiseFunction.toInterpolated", "pacal/segments.py:Segment.toInterpolatedSegment", "pacal/distr.py:Distr.get_piecewise_cdf_interp"]}
{"id": "C95", "title": "The error of an expression is bounded by the errors of its integrals and interpolants", "statement": "For an expression of independent random variables, if at every operation the integrals are computed with known errors and the computed density is stored as an interpolant with a known error, then every probability of the result is exact up to a bound that depends only on the areas of these errors and on the form of the expression; if the errors of one operation have area at most d, the probability of every event is off by at most 2d for each node of the expression.", "quantifier": "every expression built from the standard distributions, discrete distributions, functions of one argument and the operations +, -, *, /, min, max; every quadrature and interpolation method with any errors; every event", "why_tests_cant": "A test compares one result with a reference for one quadrature on one expression; that nothing else than the integrals and the interpolants contributes errors (no lost pieces, no wrong limits of integration, no lost atoms), and that errors of arguments are not amplified, concerns all expressions.", "anchors": ["pacal/indeparith.py:conv", "pacal/indeparith.py:convprod", "pacal/indeparith.py:convdiv", "pacal/indeparith.py:convmin", "pacal/indeparith.py:convmax", "pacal/segments.py:Segment.toInterpolatedSegment", "pacal/distr.py:SumDistr"]}
{"id": "C96", "title": "Building or extending one piecewise function never changes another", "statement": "A piecewise function or distribution is determined by the pieces that were added to it: whatever other functions and distributions are created, extended, copied, combined or dropped in between, and in whatever order, its pieces and the probabilities of its atoms are those that result from the actions on it alone, and a new one starts empty.", "quantifier": "all histories of creating pieces and piecewise functions, adding pieces, taking over atoms, copying, computing functions from others, building distributions from lists of pieces, and dropping functions", "why_tests_cant": "The pieces and the lists holding them are mutable objects that may be shared; whether a change made through one function is visible in another depends on the whole history, and a test process that builds one distribution never sees it.", "anchors": ["pacal/segments.py:PiecewiseFunction.__init__", "pacal/segments.py:PiecewiseFunction.addSegment", "pacal/segments.py:PiecewiseFunction.add_diracs", "pacal/segments.py:PiecewiseFunction.toInterpolated", "pacal/segments.py:DiracSegment.toInterpolatedSegment", "pacal/standard_distr.py:PDistr"]}
{"id": "C97", "title": "Answers of a distribution do not depend on what was asked before", "statement": "Whatever questions were asked before, to this distribution or to others it is computed from or that are computed from it, and whether they were answered or raised an exception, every question about a distribution (density, distribution function, its complement, quantiles, moments, samples given the uniform draws) has the answer that it would have if it were the first one; in particular an exception is raised again when the question is asked again.", "quantifier": "all finite collections of distributions built from each other, all histories of questions to them including failing ones, and all questions that read any number of representations adaptively", "why_tests_cant": "The density, the distribution function and their complements and interpolated versions are computed on first use and kept in five attributes of each object; the answer of a question depends on which of them are filled, so on the whole history, including calls that failed half way.", "anchors": ["pacal/distr.py:Distr.get_piecewise_pdf", "pacal/distr.py:Distr.get_piecewise_cdf", "pacal/distr.py:Distr.get_piecewise_cdf_interp", "pacal/distr.py:Distr.get_piecewise_ccdf", "pacal/distr.py:Distr.get_piecewise_ccdf_interp", "pacal/distr.py:DiscreteDistr.init_piecewise_pdf", "pacal/standard_distr.py:PDistr.init_piecewise_pdf", "pacal/standard_distr.py:FunDistr.init_piecewise_pdf"]}
{"id": "C98", "title": "The name of an expression denotes the expression", "statement": "The name of an expression, as returned by getName() and shown in tables, plots and models, denotes that expression when it is read by the usual rules of precedence: for all values of the variables the name has the value of the expression.  So two expressions with the same name have the same values.", "quantifier": "all expressions built from variables and numbers by the arithmetic operations, powers -1 and 2, absolute value, sign, minimum, maximum and the built-in functions, at any depth; all values of the variables", "why_tests_cant": "Parentheses are omitted depending on the class of the operands and on how the object was built; which combinations are ambiguous depends on the whole tree.", "anchors": ["pacal/rv.py:_wrapped_name", "pacal/rv.py:ShiftedScaledRV.getName", "pacal/rv.py:FuncRV.getName", "pacal/rv.py:InvRV.getName", "pacal/rv.py:AbsRV.getName", "pacal/rv.py:SumRV.getName", "pacal/rv.py:SubRV.getName", "pacal/rv.py:MulRV.getName", "pacal/rv.py:DivRV.getName", "pacal/rv.py:MinRV.getName", "pacal/rv.py:MaxRV.getName", "pacal/distr.py:SquareDistr.getName", "pacal/distr.py:SignDistr.getName", "pacal/distr.py:SigmoidDistr"]}
{"id": "C99", "title": "The equations of a variable determine it", "statement": "getEquations() of a variable lists, once each, the equations of the variable and of all variables it is computed from, and no others: values of the names solve the listed equations exactly if every computed variable has the value of its expression.", "quantifier": "all expression graphs with one or two operands per operation, any sharing and any depth; all values of the variables", "why_tests_cant": "Equations are collected by a recursive walk that skips expressions already listed, so what is listed depends on the whole graph and on coincidences between expressions in different places.", "anchors": ["pacal/rv.py:RV.getEquations", "pacal/rv.py:RV.getSym", "pacal/rv.py:RV.getSymname"]}
{"id": "C100", "title": "pdf(x) of a function of a variable is its density", "statement": "For a distribution built from others by shifting, scaling, exp, log, atan, tanh, the logistic function, tan, reciprocals, absolute values and squares, nested in any way, the values returned by pdf(x) are a density of that distribution: they integrate to its probabilities and agree with the piecewise density up to a set of length 0. For an array the result is the array of the values at its entries.", "quantifier": "all nestings of the operations, all distributions at the bottom that answer with their density (nan or 0 for nan), all numbers x, Python or numpy, all arrays of one dimension", "why_tests_cant": "pdf(x) does not look at the piecewise density; each class transforms the point and asks the distribution below it, with its own rules for points outside the range, for numbers that are not finite and for arrays, and the rules meet each other in nestings.", "anchors": ["pacal/distr.py:FuncDistr.pdf", "pacal/distr.py:ShiftedScaledDistr.pdf", "pacal/distr.py:InvDistr.pdf", "pacal/distr.py:AbsDistr.pdf", "pacal/distr.py:SquareDistr.pdf", "pacal/distr.py:DiscreteDistr.pdf"]}
{"id": "C101", "title": "Methods survive the way to another process", "statement": "A bound method of an object that is sent to a worker process (pickled and unpickled) is there the same function bound to the object, so that parallel evaluation calls what sequential evaluation calls.", "quantifier": "all objects, with any chain of base classes and any attributes, all methods obtained from them by name", "why_tests_cant": "Methods are looked up again by name on the other side; whether the same function is found depends on all classes of the object, on private names and on the attributes of the object.", "anchors": ["pacal/__init__.py:_pickle_method", "pacal/__init__.py:_unpickle_method"]}
{"id": "C102", "title": "Densities on arrays are elementwise", "statement": "pdf(x) of a standard distribution, called with an array of numbers, returns the array of the values that pdf returns for each of the numbers.", "quantifier": "all standard distributions with a density method of their own, all parameters, all arrays of floats or integers of any length", "why_tests_cant": "The branches for arrays repeat the formulas with masks; whether an entry falls into the wrong mask, or an assignment fails, depends on every combination of entries.", "anchors": ["pacal/standard_distr.py:ChiSquareDistr.pdf", "pacal/standard_distr.py:GammaDistr.pdf", "pacal/standard_distr.py:BetaDistr.pdf", "pacal/standard_distr.py:SemicircleDistr.pdf", "pacal/standard_distr.py:LogLogisticDistr.pdf", "pacal/standard_distr.py:MollifierDistr.pdf"]}
{"id": "C103", "title": "log_pdf is the logarithm of the density", "statement": "log_pdf(x) of a standard distribution is the logarithm of pdf(x), with -inf where the density is 0 and inf where it is infinite.", "quantifier": "all standard distributions with a density method of their own, all parameters, all numbers x where the density is a nonnegative number or infinite", "why_tests_cant": "Three distributions compute the logarithm by a formula of their own, and the density from it; whether both agree depends on every point, in particular on the ends of the range.", "anchors": ["pacal/distr.py:Distr.log_pdf", "pacal/standard_distr.py:ChiSquareDistr.log_pdf", "pacal/standard_distr.py:GammaDistr.log_pdf", "pacal/standard_distr.py:LogLogisticDistr.log_pdf"]}
{"id": "C104", "title": "Arithmetic on random variables without a distribution", "statement": "An operation (+, -, *, /, **, min, max, unary minus, abs, exp, log, sqrt, sign, atan, tanh, sin, cos, tan, sigmoid) on random variables without a distribution and numbers gives a variable whose symbolic expression has, for all values of the variables, the value of that operation, and whose ancestors are the variables the operands are made of; applied to numbers the functions are the usual ones.", "quantifier": "all operations, all random variables however they were built, all numbers, all values of the underlying variables", "why_tests_cant": "The shortcuts for special numbers (0, 1, -1, 2), the rewriting of powers by exp and log and the naming of subexpressions must preserve the value for every expression and every assignment of values.", "anchors": ["pacal/rv.py:RV.__add__", "pacal/rv.py:RV.__pow__", "pacal/rv.py:RV.__rpow__", "pacal/rv.py:RV.__rtruediv__", "pacal/rv.py:LogRV", "pacal/rv.py:PowRV", "pacal/rv.py:AbsRV", "pacal/rv.py:SignRV", "pacal/rv.py:min", "pacal/distr.py:sigmoid", "pacal/distr.py:sqrt"]}
{"id": "C105", "title": "Points at which a density is sampled", "statement": "The points at which a piecewise density is sampled for plots and for the comparison with a theoretical density are, for every piece, as many as asked for, in increasing order, inside the piece and the bounds asked for, and reach from one end to the other; for unbounded pieces the search for the end of the sample stops. Atoms get no points.", "quantifier": "all piecewise functions, all pieces (finite, unbounded, atoms), all bounds and numbers of points, all densities", "why_tests_cant": "The spacing switches between linear and logarithmic depending on the sign and ratio of the ends; that points stay ordered and inside must hold for every pair of ends.", "anchors": ["pacal/segments.py:Segment.getSegmentSpace", "pacal/segments.py:PiecewiseFunction.getPiecewiseSpace", "pacal/segments.py:MInfSegment.findLeftpoint", "pacal/segments.py:PInfSegment.findRightpoint", "pacal/distr.py:demo_distr"]}
{"id": "C106", "title": "Reported interpolation errors", "statement": "The estimated interpolation error reported for a distribution is at least every error that was found when its interpolators were tested, and is one of them (0 if nothing is interpolated); the report by segment has one entry for every segment, in order, with the ends of the segment and the largest error found for it.", "quantifier": "all densities, with any number of segments of any kind (interpolated, with poles, unbounded, atoms, given functions)", "why_tests_cant": "A report that leaves out one interpolator looks right as long as that interpolator is accurate.", "anchors": ["pacal/distr.py:Distr.interp_error", "pacal/distr.py:Distr.interp_error_by_segment", "pacal/segments.py:PiecewiseFunction.getInterpErrors", "pacal/interpolation.py:PInfInterpolator"]}
{"id": "C107", "title": "Samples of expressions are expressions of samples", "statement": "The samples drawn from an expression (functions exp, log, atan, tanh, sigmoid, tan, sin, cos, abs, reciprocals, squares, shifts, and +, -, *, /, min, max of two distributions, nested in any way) are the values of that expression at the samples drawn from its variables, entry by entry, and so follow the law of the computed density.", "quantifier": "all expressions, all numbers of samples, all samples of the variables at which the expression is defined", "why_tests_cant": "Samples are computed by other code than densities, with masks for branches; whether a sample falls through all masks depends on its value.", "anchors": ["pacal/distr.py:FuncDistr.rand_op", "pacal/distr.py:ShiftedScaledDistr.rand_op", "pacal/distr.py:FuncNoninjectiveDistr.rand_op", "pacal/distr.py:SquareDistr.rand_op", "pacal/distr.py:SigmoidDistr.f", "pacal/distr.py:SumDistr.rand_op"]}
{"id": "C108", "title": "Pieces of a distribution can be compared and sorted", "statement": "The comparisons of two pieces of a distribution are consistent: < is a strict partial order that puts the pieces of a distribution in their order from left to right, so that sorting any arrangement of them gives back the distribution; > is its converse; <= and >= mean < or > or ==, and == is an equivalence that distinguishes different pieces.", "quantifier": "all pieces (finite and infinite ends, atoms) and all distributions with any number of pieces, in every arrangement", "why_tests_cant": "Insertion and search of pieces rest on the order; a test shows it for a few pieces, while a comparison that is not transitive or merges pieces shows only in particular arrangements.", "anchors": ["pacal/segments.py:Segment.__lt__", "pacal/segments.py:Segment.__gt__", "pacal/segments.py:Segment.__le__", "pacal/segments.py:Segment.__ge__", "pacal/segments.py:Segment.__eq__"]}
