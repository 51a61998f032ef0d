# Formal model of jszymon/pacal

## Approach

The code is Python over numpy floats. The model is written in Lean 4 over an arbitrary linearly
ordered field `K` wherever the code only compares and does field arithmetic (so that it can be run on
rationals to exhibit witnesses), and over the reals where integrals, derivatives or transcendental
functions are involved. Each function is modelled branch by branch; asserts and exceptions are values
(`Option`/`Except`). Numerical quadrature, interpolation error and root finding inside a single smooth
piece are *parameters* of the model; where a theorem needs them exact, that is an explicit hypothesis
or the parameter is instantiated with the exact Mathlib integral.

Layout: `lean/Verif/<Topic>/Model.lean` holds the model with citations to `/repo`, `Spec.lean` the
small independent specification, `Lemmas.lean` helpers, `Props.lean` the property theorems with a
concrete non-vacuity example beside each.

## Per-property plan

* **C01 Order of assembly does not matter.** Model segment classes, the four comparison methods and `addSegment` (bisect_left, the assert, insort) over an ordered field. Induction over the insertion history: invariant = strictly sorted, permutation of the input; uniqueness of sorted permutations gives order independence.
* **C02 Atoms at the same place merge and total mass is kept.** Same model, Dirac branch with `unique_eps`. Induction over the history: atom mass sum is an invariant; separation of atoms is an invariant.
* **C03 Evaluating a piecewise function picks the right piece.** Model `findSegment` and both branches of `__call__`. Theorem for functions whose pieces abut; negation with a witness for functions with a gap (the code evaluates the right neighbour).
* **C04 Splitting at extra points changes nothing.** Model `splitByPoints`; induction over the points: values, atoms and integrals unchanged.
* **C05 Restriction to an interval keeps exactly what is inside.** Model `restrictToInterval`; membership characterisation and integral additivity.
* **C06 Arithmetic of piecewise functions is pointwise.** Model `_operation__`, `_makeCommonSegmentList`, `op_diracs`, `_roperation__`; pointwise theorem off the breaks. Known disagreement: an atom present only in the second operand of `-` is added with +; proved as a witness.
* **C07 The CDF is P(X <= x).** Model `cumint` and the evaluation of the result with piece integration as a parameter. Spec: measure-theoretic law of the piecewise density (sum of withDensity restrictions and Dirac measures), theorem cdf x = law(Iic x).
* **C08 Quantiles invert the CDF.** Model `inverse_scalar` with the monotone inverse of each piece as a parameter; theorem on nondecreasing CDFs.
* **C09 Confidence intervals have the stated coverage.** Model ci/interval/iqrange/median literally; arithmetic theorems from the spec of quantile.
* **C10 Arithmetic of discrete distributions is exact.** Model `convdiracs` (dictionary fold, addSegment); refinement to the pushforward of the product of finite weighted families.
* **C11 Atoms of min and max are exact.** Model `_probDiracsInMin/Max`; theorem against the law of min/max of independent variables.
* **C12 Density of a sum is the convolution.** Model `conv_at_point` with exact quadrature; theorem = full convolution integral over the line (Mathlib integrals).
* **C13 Density of a product is exact.** Model `convprod_at_point` per sign quadrant; theorem = integral over the line with indicator of the pieces.
* **C14 Density of a quotient is exact.** Model `convdiv_at_point`; same. Witness for the segment/atom branch, which ignores z.
* **C15 Density of min and max.** Model min/max density formulas; derivative of the product formula for survival functions/CDFs.
* **C16 The pieces chosen for an integration are complete.** Model `_findSegListAdd`, `_findSegList`, `_findSegListDiv`; prove selection is constant between breaks and equals geometric intersection.
* **C17 Merging nearby break points is safe.** Model `_unique_breakpoints` and `epsunique` as recursions; induction. Chains can be merged by `epsunique` (relative to the immediate predecessor): witness.
* **C18 Shifting and scaling gives the law of aX+b.** Model `shiftAndScale` for each class; change-of-variables for intervals at exact integration, atoms by computation.
* **C19 abs gives the law of |X|.** Model `absComposition`/`copyAbsComposition`; interval mass theorem.
* **C20 Squaring gives the law of X^2.** Model `squareComposition`/`copySquareComposition`; change of variables x=sqrt(y).
* **C21 Reciprocal gives the law of 1/X.** Model `probInverse`; change of variables x=1/y.
* **C22 Monotone functions of a variable have the right law.** Model `probComposition`/`copyComposition`; change of variables for monotone pairs.
* **C23 Built-in functions, inverses and derivatives fit together.** Model f/f_inv/f_inv_deriv on the reals; Mathlib analysis. Witness for sin's second branch.
* **C24 Conditioning renormalises correctly.** Model Cond*Distr on piecewise functions; total mass and conditional law.
* **C25 Discrete distributions represent the given table.** Model DiscreteDistr (sort, cumsum, searchsorted); witness for the out-of-range draw.
* **C26 sign(X) has the right law.** Model SignDistr; law theorem.
* **C27 Operator shortcuts agree with the general operation.** Model the operator dispatch as an expression constructor with a denotation; case analysis.
* **C28 Dependence warnings are exact.** Model the expression DAG and the ancestor search with its shared mutable set; correctness = reachability; warning iff.
* **C29 Joint sampling respects shared variables.** Model `rand` with the cache keyed by id; equals evaluation under a single assignment of leaf draws.
* **C30 Stated ranges contain every outcome.** Model ranges over expressions; soundness by induction. SubRV is wrong: witness; repaired variant not claimed.
* **C31 Free and dependent ancestors are told apart.** Model getParentsFree/Dep/All on expression trees/DAGs.
* **C32 iid operations are n-fold operations.** Model `_int_exp`, `_int_exp_all` and the averages; binary powering by induction on the bit list. Witness for geometric averages.
* **C33 Temporary settings are restored.** Model `iid_op` with the flag as state and the operation as a state transformer that may fail; witness for the failing path.
* **C34 Order statistics form a partition.** Model the order statistic formula; binomial identity, derivative identity.
* **C35 Binomial and multinomial coefficients are exact.** Model the loops over rationals; equals Nat.choose/multinomial. Witness for k>n.
* **C36 Convergence monitor semantics.** Model convergence_monitor as a history structure.
* **C37 Adaptive loops terminate and return a real estimate.** Model the loops as fuel-free well-founded recursion on the node count.
* **C38 Root finders keep a bracket.** Model the bisection loops with fuel; invariants.
* **C39 Chebyshev grids are nested and sorted.** Real cosine grids.
* **C40 Refinement never loses or misplaces samples.** Loop invariant over refinements using the interleaving model.
* **C41 Barycentric evaluation is polynomial interpolation.** Model `bary_interp` over a field; equality with Lagrange interpolation from Mathlib.
* **C42 Variable transforms are invertible changes of variable.** Real functions; inverse, monotonicity and derivative theorems.
* **C43 Sparse grids: index sets and coefficients.** Model gen_partitions/gen_Q/coefficients; combinatorial identities.
* **C44 Dense grid evaluation is the full tensor sum.** Model the odometer loop; equality with the tensor sum.
* **C45 Parallel evaluation changes nothing.** Model chunked pool.map with arbitrary completion order.
* **C46 Standard densities are probability densities.** Model of all nineteen constructors and densities (floats with infinities and NaN at end points); each shown to build a well-formed piecewise density whose law is Mathlib's distribution, or the textbook density of `Verif/Standard/Spec.lean` with its integral computed.
* **C47 Standard discrete distributions have the textbook probabilities.** Model recurrences; closed forms by induction.
* **C48 Mixtures.** Model mixture fold; witness for the sampler.
* **C49 Exchanging and eliminating variables in a model is sound.** Model Model as finite maps with equations over abstract expressions with a solver oracle; invariants and solution sets; termination of inference by a decreasing number of unwanted and non-constant variables.
* **C50 Products of factors evaluate consistently.** Model factors and optimisation; pdf equality.
* **C51 Copulas are copulas.** Real analysis for W, M, Pi, Clayton, Gumbel, Frank. Witnesses for M on scalars and W in dimension >2.
* **C52 Multivariate normal margins and conditionals.** Matrix model; index-set algebra and Schur complement.
* **C53 Joint densities vanish outside their box.** Model both branches; witness for the scalar branch.
* **C54 lgamma argument reduction.** Model the argument reduction loops and the reflection with the two core approximations as parameters; Gamma functional equation and reflection formula. The routine's own coefficients are then compared with log Gamma: Stirling's formula with explicit remainder bounds for large arguments, a common polynomial about 5/2 for the middle range.
* **C55 Moments are expectations.** Model mean/meanf/var over exact integration; linearity.
* **C56 Nonnegativity guard.** Model `isNonneg` and the guards (`Verif/Distr/Nonneg`); characterisation by pieces (`Verif/Segments/PropsAssemble`) and by probabilities (`Verif/Distr/PropsNonneg`); counterexamples for cosines, zero pieces and variables without a distribution.
* **C57 Integration front ends integrate over the requested interval.** Model the integration front ends with the base quadrature as a parameter; change of variables gives exactness from exactness of the base rule.
* **C58 Integrating a distribution over an interval.** Model `integrate` of every piece class with the quadrature of C57; theorem against the measure of the open interval.
* **C59 The survival function is P(X > x).** Model `ccdf_value` and `1 - cdf` on top of the CDF of C07; theorem against the measure of (x, inf).
* **C60 Sampling by inversion has the right distribution.** On top of C08: the quantile function as a map on (0,1); its push-forward of Lebesgue measure is the law, by comparing distribution functions.
* **C61 Sparse grid interpolation reproduces nodes and polynomials.** Value of the interpolator as a combination of tensor products of one-dimensional barycentric rules (C41); reproduction by the combination identity of C43; nodes by writing the function as a sum of indicators of grid points.
* **C62 A density given by a function and break points.** Model of the constructor with its flag tests; induction over the break points for the pieces and for the law.
* **C63 The range of a standard distribution carries all its mass.** Case analysis over the distributions of C46: the density vanishes outside of range().
* **C64 The quadrature rules are exact for polynomials and converge.** `Verif/Rule`: the coefficient lists with numpy's inverse Fourier transform as its documented formula, the cache as a dictionary, the loops of all three integrators. Discrete orthogonality of cosines shows that the rule with Fourier coefficients u maps T_2s to u_s + w_0; the integral of T_2s is 2/(1-4s^2); the Chebyshev polynomials span the polynomials. Signs of the Fourier coefficients give positive weights, hence the error bound and, with Weierstrass, convergence.
* **C65 Derivatives, roots and trimmed forms of interpolated functions.** `Verif/Calc`: the Chebyshev transforms with numpy's Fourier transforms as their documented formulas, the recurrence for the coefficients of the derivative, the companion matrix (eigenvalues are a parameter), the selection of roots, the loop of trim. Discrete orthogonality gives the coefficients (with the last one doubled); the derivative formula T_n' = n U_(n-1) and its expansion give the computed derivative; eigenvectors of the companion matrix are the values of the Chebyshev polynomials at a root.
* **C66 The distribution of a function of two dependent variables.** `Verif/TwoVars`: sympy is a parameter (`Sym`: the expression, its first solution, the derivative, the intersections with the sides of a box); getUL, the loop over pairs with its leftover variable, the selection of pairs and the break points are modelled branch by branch. Order lemmas give the limits; the change of variables on each fibre and Tonelli's theorem give the density of a box, disjointness of the boxes their sum. The assumptions on sympy are proved for `α x + β y` and for products of positive variables with the expressions written out by hand.
* **C67 Direct samplers follow the distribution's own law.** `Verif/Sampler`: the laws of numpy's generators are a parameter with the documented laws as assumption (`Documented`). Changes of variables for monotone transformations; a two sided one for Levy; the density of quotients and products (C10) for Cauchy and the semicircle. The rejection loop is a recursion over the batches; its law is the limit of the probabilities after N draws, which satisfy a recursion by independence.
* **C68 Expressions of any depth are evaluated to the law of the expression.** `Verif/Identity`: expression trees with standard distributions or tables of probabilities at the leaves; `Expr.run` composes the models of C12-C16, C18-C23 and C46. Induction over the tree: every node meets the conditions of the law theorem of its operation (`ExprOK`). With exact comparisons the conditions at the inner nodes are proved from the form of the expression alone (`Defined`, `Nonneg`, `Gapless`): the set covered by the computed pieces is followed through every operation, so no gaps, atoms or pieces of the wrong sign appear.
* **C69 Textbook identities hold between computed objects.** `Identity/SpecTable`: the identities as an inductive relation between expressions and standard distributions. Each row is proved as an equality of measures (characteristic functions of products, change of variables, densities of sums and quotients by Fubini, Beta and Gamma integrals), then carried to the computed objects by C68 and C46.
* **C70 Rewriting an expression does not change its law.** `Identity/SpecAlg`: rewriting rules and their closure under transitivity, symmetry and replacement inside an expression. Induction over the derivation gives equal laws, C68 carries this to the computed objects.
* **C71 Noncentral distributions have the textbook laws.** `Verif/Noncentral`: the constructors as expressions of C68; the laws as Poisson mixtures (chi-square, beta) and as densities (F: a series, t: an integral). The square of a shifted normal variable is expanded into the series of the hyperbolic cosine; mixtures commute with functions and binary operations of independent variables; additivity by the binomial theorem for Poisson weights.
* **C72 Interpolators of tails and poles reproduce the density.** `Verif/Asymp`: the constructors, `interp_at` and `getNodes` of the transformed interpolators on top of the adaptive Chebyshev interpolators (C37, C40, C41) and the variable transforms (C42). The stored points are the samples of the transformed function on some grid of the family; evaluation at a node is an exact hit; the changes of variable cancel. The bisection of `_find_zero` is bounded by halving the ratio of the ends.
* **C73 The mode and the extrema of a density are found.** `Verif/Summary`: `maximum`, `minimum`, `findRightpoint`, `findLeftpoint`, `max_abs`, `mode` branch by branch, with `scipy.optimize.fminbound` as a parameter assumed to find the minimum of a function with one valley on a bounded interval. The specification lists the values attained on the closed pieces, with limits at infinite ends.
* **C74 The median absolute deviation is the median distance from the median.** `Verif/Summary`: `medianad` composed of the modelled median (C08), shift (C18), splitting (C04) and absolute value (C19); the laws of the parts are composed, and the pieces of the result are shown to be contiguous again.
* **C75 Entropy and distances of distributions are exact.** `Verif/Summary`: `_function__`, `entropy`, `L2_distance` and `KL_distance` on top of the pointwise operations (C06) and integration (C58). The laws are compared with densities plus atoms; the Kullback-Leibler divergence is Mathlib's `InformationTheory.klDiv`.
* **C76 The joint law of two order statistics is exact.** `Verif/Order`: the density formula with the modelled multinomial coefficient (C35). An independent sample almost surely has no ties, so the positions of the two order statistics and the sets of positions below and between them are determined; the arrangements are counted, and each has the same probability by independence and Fubini. The same argument with one rank gives the law behind C34.
* **C77 Tail exponents are estimated correctly.** `Verif/Tail`: `estimateTailExponent` and `tailexp` with exact logarithms. The estimate is the slope between the last two sample points on a log-log scale; squeezing the density between multiples of a power bounds the slope.
* **C78 Poles are told from regular points.** `Verif/Tail`: `estimateDegreeOfPole` and `testPole`, values that are not finite being `none`. Same argument as C77; the decision is then a comparison of exponents.
* **C79 Measures of dependence have their textbook values.** `Verif/Depend`: `cov`, `corrcoef`, `tau`, `rho_s`, `ctau` on an object with marginals and pair distributions; iterated quadrature is the iterated integral. Covariances by Fubini; Spearman's formula by integrating the event of a quadrant over the unit square; Kendall's by symmetry of two independent copies and absence of ties; ranks of continuous variables are shown to be uniform.
* **C80 Kendall's tau of an Archimedean copula is exact.** `Verif/Depend/PropsArch`: `tauC` from the generator and its derivative. Change of variables s = fi(u), t = fi(v) turns the square into a quadrant; integrating the derivatives of the inverse generator along half-lines gives the distribution function from the density, and the two formulas of Kendall's tau as complementary parts of 1/2. Laws in the plane are identified by their distribution functions.
* **C81 Conditional distribution functions of an Archimedean copula.** `Verif/Copula/ModelCond` (symbolic derivative as the derivative of the formula, both masks of `NDFun.__call__`), `SpecCond` (joint law by Sklar's theorem, conditional probability by its defining integral), `PropsCond`. The partial derivative is the density of the joint event with respect to the law of variable i: the identity holds for half-lines by the fundamental theorem, after transforming variable i to its rank, and half-lines generate the Borel sets.
* **C82 Regression functions of a joint distribution.** `Verif/Regress/Model` (condition and regfun, with quantile and mode as parameters), `Spec` (what it means for a joint density to describe two variables; exact quantiles), `Props`. Disintegration of the law along the density; the normalising constant is positive almost surely; conditional expectation by its defining integrals, optimality by orthogonality.
* **C83 Functions with additive noise.** `Verif/Noisy/Model` (the range of the value, density, masks, `condition` with `partial_f`), `Spec` (independent noise on a probability space), `Props`. Product measure, Fubini and translation of the Lebesgue measure; the masks hide nothing when the range of f is right.
* **C84 The inverse distribution function as a piecewise function.** `Verif/Quantile/ModelInv` (break values, merging with `epsunique`, the pieces), `LemInv` (first and last break point), `PropsInv`. The values at the ends of pieces are one-sided values of the distribution function; merging keeps 0 and, under the hypothesis, 1.
* **C85 Histograms on the scale of a density.** `Verif/Hist/Model` (the rejection loop with the results of `rand` as parameters, the bars; `numpy.histogram` by its documentation), `Spec` (areas, tiling), `Props`. Invariant of the loop (sample = draws in the range, in order); telescoping of counts.
* **C86 Integrating variables out of a joint density.** `Verif/NDim/ModelElim` (the recursion over dimension numbers, taken from the end of the list), `SpecElim` (joint density: law of the vector has this density), `PropsElim`. Fubini on Fin (n+1) -> R for one dimension, induction over the reversed list of variables.
* **C87 Conditional densities.** `Verif/NDim/ModelCond` (arguments by position, as in the code), `SpecCond` (conditional density), `PropsCond`. Elimination is the iterated integral over the real line (`C86_values_partial`), homogeneity of the integral, the density of the condition is positive almost surely.
* **C88 Extrema from the derivative.** Model the two loops, the two arrays and the selection of the first best entry; differentiation and root finding on one piece are parameters, with an instance made from the interpolator calculus of C65. Prove that for bounded contiguous pieces the candidates contain the extreme values (compactness and the vanishing derivative) and that the arrays are aligned; refute the rest with witnesses.
* **C89 Maximum likelihood estimation.** `Verif/Estim/Model` (signature, dictionary of arguments, sum of logarithms, array evaluation of the density with the type of the data), `Spec` (likelihood as a product), `Props`. The minimiser is a parameter assumed to return a minimum on some set.
* **C90 Stable logarithms and the generator of the two-dimensional Frank copula.** `Verif/Copula/ModelLog` (the three functions elementwise with their thresholds, numbers and arrays, generator and inverse with their branches), `SpecLog` (relative accuracy), `LemLog` (bounds of log(1 + u) - u and log(1 + u) - log(u)), `PropsLog`.
* **C91 Errors of intermediate results add up and are not amplified.** `Verif/Identity/ModelErr` (evaluation of an expression with every intermediate density replaced), `SpecErr` (distance of laws, accuracy of the replacement, error bound of an expression, number of nodes), `LemErr` (total variation under maps and products of measures; pieces that stay in place), `PropsErr`, and with exact comparisons `LemErrExact`, `PropsErrExact`; an approximation that is not the identity in `LemErrEx`.
* **C92 Errors of the numerical integrals add up over the pairs of pieces.** The models of C12-C15 with an arbitrary quadrature.  `Verif/Conv/SpecQuad` (pieces in the same place with close values, number of continuous pieces, a result up to an error), `LemQuad` (insertion of pieces does not look at their values), `LemQuadRun` (the loop over the pairs), `LemQuadOp`, `LemQuadMM` (comparison with exact integrals), `PropsQuad`; a quadrature with a relative error in `LemQuadEx`.  Atoms: `LemQuadAtoms`, `LemQuadZero`, `PropsQuadAtoms`.
* **C93 The moment generating function is E exp(tX).** `Verif/Summary/ModelMgf` (the function, its pieces and a call), `SpecMgf` (the range of the pieces; Mathlib's `mgf`), `LemMgf` (which piece a call finds), `PropsMgf`.
* **C94 Interpolated copies keep pieces, atoms and, up to the interpolation error, values.** `Verif/Law/ModelInterp` (the copies, for arbitrary interpolators), `SpecInterp` (pieces in the same place, error of interpolation, length), `LemInterp`, `PropsInterp`.
* **C95 The error of an expression is bounded by the errors of its integrals and interpolants.** Combines C91 and C92.  `Verif/Identity/SpecTotal` (errors of the integrals and of storing at every node, the area of their sum), `LemTotal` (one node), `PropsTotal`, `LemTotalExact` (expressions given by their form), `LemTotalEx` (a quadrature that is off by 0.1%), `PropsTotalExact`.
* **C96 Building or extending one piecewise function never changes another.** `Verif/Alias/Model` (heap of lists and pieces, actions), `Spec` (functions as values), `LemHeap` (`addSegment` on the heap refines the one on values and touches only its list and its atoms), `LemLoop`, `LemRun` (simulation), `LemCareful` (in careful histories nothing is shared), `Props`.
* **C97 Answers of a distribution do not depend on what was asked before.** `Verif/Cache/Model` (five optional attributes per object, getters, densities computed at once or built in steps, questions as adaptive readers), `Spec` (the representations by definition, without anything kept), `Lem` (invariant: what is kept is right; what is kept stays), `LemEx` (the representations by definition exist; discrete distributions), `Props`.
* **C98 The name of an expression denotes the expression.** `Verif/Names/Model` (names as lists of tokens, class by class), `Spec` (values of expressions; a grammar of arithmetic with precedences and values; which expressions are clear), `Lem` (names of clear expressions are read as their values), `Parse` (a parser that finds every reading, so readings are unique), `Props`.
* **C99 The equations of a variable determine it.** `Verif/Equations/Model` (the recursive walk with its two lists), `Spec` (the variables used; consistent values), `Lem`, `Props`.  sympy expressions are an arbitrary type with equality.
* **C100 pdf(x) of a function of a variable is its density.** `Verif/Direct/Model` (scalar and array versions of the methods, numbers with the distinction between Python and numpy, broadcasting and masked assignment), `Spec` (distribution of a nesting, density), `Lem`, `LemDens` (change of variables), `LemArr`, `Props`.
* **C101 Methods survive the way to another process.** `Verif/Pickle/Model` (classes as dictionaries, method resolution order, the two functions), `Spec` (Python's rules for private names and attribute access), `Props`.
* **C102 Densities on arrays are elementwise.** `Verif/Standard/Arrays` (masked assignments, the array branches of all densities), `ArraysSpec` (Elementwise), `PropsArrays`.
* **C103 log_pdf is the logarithm of the density.** `Verif/Standard/Arrays` (log_pdf with infinities and NaN), `ArraysSpec` (IsLog), `PropsArrays`.
* **C104 Arithmetic on random variables without a distribution.** `Verif/Symbolic/Model` (operators and constructors of rv.py), `Spec` (values of expressions, leaves), `Lem*`, `Props`.
* **C105 Points at which a density is sampled.** `Verif/Plot/Model` (getSegmentSpace, getPiecewiseSpace over real arithmetic with numpy's linspace and logspace), `Spec` (what a sample is), `Lem`, `Props`.
* **C106 Reported interpolation errors.** `Verif/Report/Model` (getInterpErrors, interp_error over the errors stored in the interpolators), `Props` (with the list of all errors found as specification).
* **C107 Samples of expressions are expressions of samples.** `Verif/Sample/Model` (all methods `rand_op` on arrays, with masked assignments as in `Verif/Law/Arrays`), `Spec` (value of an expression), `Lem`, `Props`.  Induction on expressions; the law of samples of cosines from C22.  `PropsLaw`: the law of the samples of two independent arguments from C12 – C15.  `LemTree`, `SpecTree`, `PropsTree`: the law of the samples of whole expressions, by independence of functions of disjoint families, and C68.
* **C108 Pieces of a distribution can be compared and sorted.** `Verif/Segments/Compare` (`__le__`, `__ge__`, `__eq__`, `index`), `PropsCompare`.  The order as componentwise order of the ends; sorted permutations of a list are equal.

## Disagreements between code and properties

Each line is a theorem of the model proving, with a concrete witness, that the code as written violates the
claim (or a related expectation). The list is generated from the theorem comments; the lines cited are in `/repo`.

* `Pacal.Alias.C96_violated_pdistr_shared` (`lean/Verif/Alias/Props.lean`): `PDistr(segs)` calls `PiecewiseDistribution()` (standard_distr.py:59), whose default argument `segments = []` is one list for all calls (segments.py:998): after any history, two distributions built from lists of pieces have the same pieces.
* `Pacal.Alias.C96_violated_pdistr` (`lean/Verif/Alias/Props.lean`): Two uniform distributions built as `PDistr([ConstSegment(0, 1, 1)])` and `PDistr([ConstSegment(2, 3, 1)])`: the first one changes when the second one is built, and both have both pieces (so the total probability is 2).
* `Pacal.Alias.C96_violated_pdistr_overlap` (`lean/Verif/Alias/Props.lean`): `PDistr([Segment(0, 1, lambda x: 2 * x)])` after `PDistr([ConstSegment(0, 1, 1)])`: the piece cannot be added to the shared list (AssertionError, segments.py:1098), and the second distribution has the density of the first one (1 instead of 1/2 at 1/4).
* `Pacal.Alias.C96_violated_pdistr_forgotten` (`lean/Verif/Alias/Props.lean`): The pieces stay in the shared list after the distribution is not used any more.
* `Pacal.Alias.C96_violated_interpolated` (`lean/Verif/Alias/Props.lean`): An interpolated copy shares the atoms of its original (`DiracSegment.toInterpolatedSegment` returns `self`, segments.py:710-711): an atom added to the copy changes the original.
* `Pacal.Alias.C96_violated_same_atom` (`lean/Verif/Alias/Props.lean`): An atom added to two functions is shared by them: a third atom added to one of them at the same place changes both (segments.py:1091).
* `Pacal.Alias.C96_finding_fromList` (`lean/Verif/Alias/Props.lean`): `PiecewiseFunction(segments)` with a nonempty list of pieces always ends with an IndexError (segments.py:1058).
* `Pacal.C72_violated_pole_shift` (`lean/Verif/Asymp/Props.lean`): **Violated: the interpolant with a pole at the left end does not reproduce the function at its nodes.** It is shifted by twice the offset: for `f(x) = 1 / (x - 1e-50) - 1` on `(0, 1/2]`, which it represents exactly up to this shift, the last node reported is `1/2 + 2e-50`, but the value there is not that of `f`.
* `Pacal.C72_violated_pole_outside` (`lean/Verif/Asymp/Props.lean`): **Violated: interpolants with a pole sample the function outside the interval.** The last node of an interpolant on `[-1, 0]` with the pole at `-1` is `2 * eps`; the first node of one on `[0, 1]` with the pole at `1` is `-2 * eps`. This holds for every function.
* `Pacal.C72_violated_poleN_zero` (`lean/Verif/Asymp/Props.lean`): **Violated: with a pole at the right end the sign is lost.** If the function is 0 in the middle of the interval, the interpolant is 0 everywhere (the other interpolator replaces a zero sign by 1).
* `Pacal.C72_violated_poleN_sign` (`lean/Verif/Asymp/Props.lean`): **Violated: the nodes reported with a pole at the right end have the wrong sign** for negative functions: for `f = -1` they all have value 1.
* `Pacal.C72_violated_log_negative` (`lean/Verif/Asymp/Props.lean`): **Violated for negative functions**: the logarithmic interpolator represents the absolute value; for `f = -1` on `[0, 1]` it is 1.
* `Pacal.Cache.C97_violated_once` (`lean/Verif/Cache/Props.lean`): C97 is violated when building a density breaks off: the exception is raised only once. If the first function was assigned and a later step raises `e`, then the first request raises `e` and every later one returns, as if nothing had happened, the function built so far.
* `Pacal.Cache.C97_violated_discrete` (`lean/Verif/Cache/Props.lean`): C97 is violated by a discrete distribution with a repeated point, `DiscreteDistr([0, 0, 1], [0.2, 0.3, 0.5])`: the first request for its density raises `AssertionError` and every later one returns two atoms with nothing between them.
* `Pacal.Cache.C97_violated_empty` (`lean/Verif/Cache/Props.lean`): C97 is violated by `PDistr()` without segments: the first request raises `TypeError` and every later one returns the empty density.
* `Pacal.Cache.C97_violated_given` (`lean/Verif/Cache/Props.lean`): C97 is violated by `FunDistr` when the interpolation raises: the first request raises and every later one returns the function that is not interpolated.
* `Pacal.Cache.C97_finding_changed` (`lean/Verif/Cache/Props.lean`): What is kept is handed out itself, not a copy, and nothing is computed anew after it was changed: if a program asks for the distribution function of `i` and then changes in place the density that was returned to it, then the density is the changed one and the distribution function is still the one of the old density.
* `Pacal.Calc.C65_violated_diff` (`lean/Verif/Calc/Props.lean`): `diff()` of `x ** 4` on `[-1, 1]`, interpolated with 5 nodes (which represent it exactly), is `4 * x ** 3 + x` instead of `4 * x ** 3`: `chebt2` doubles the last coefficient of the expansion
* `Pacal.Calc.C65_violated_diff_two_nodes` (`lean/Verif/Calc/Props.lean`): with two nodes `diff()` returns the zero function, whatever the slope is; so `diff().diff()` of `x ** 2`, which is interpolated with three nodes, is 0 instead of 2
* `Pacal.Calc.C65_violated_roots` (`lean/Verif/Calc/Props.lean`): the roots reported for `x ** 2` on `[-1, 1]`, interpolated exactly with three nodes, are `-1/2` and `1/2`, and not `0`
* `Pacal.Calc.C65_violated_trim` (`lean/Verif/Calc/Props.lean`): trimming changes functions beyond the tolerance: a positive constant becomes zero, `x - x ** 2` becomes `x / 2 - 1 / 2`, and trimming `-x ** 2` is an `IndexError`
* `Pacal.Cond.C24_finding_lt` (`lean/Verif/Cond/Props.lean`): **C24 fails for `X | Lt(U)` if there is an atom above `U`**: `MinDistr` keeps that atom with mass 0, it is the last piece and is removed in place of the atom at `U`. The result has the law of `min(X, U)`, in particular `U` has the probability `P(X >= U)` instead of 0, although a conditional law given `X < U` exists.
* `Pacal.Cond.C24_violated_lt` (`lean/Verif/Cond/Props.lean`): **C24 violated, concrete case**: a variable that is 0 or 2 with probability ½ each, given `X < 1`, should be 0; the computed distribution gives 1 the probability ½
* `Pacal.Cond.C24_finding_between` (`lean/Verif/Cond/Props.lean`): **C24 fails for `X | Between(L, U)` if there is an atom below `L`** (and none above `U`): the atom of mass 0 that `MaxDistr` leaves there is removed in place of the atom at `L`. The result gives `L` the probability `P(X <= L) / P(X < U)`.
* `Pacal.Cond.C24_violated_between` (`lean/Verif/Cond/Props.lean`): **C24 violated, concrete case**: half atom at 0, half uniform on `[0, 1]`, given `1/2 < X < 1`: the computed distribution gives 1/2 a positive probability
* `Pacal.Conv.C14_violated_atom` (`lean/Verif/Conv/PropsDiv.lean`): **C14 violated by an atom in the denominator**: a variable `X` with density `2t/3` on `[1, 2]` divided by the constant 2 (as a random variable). The code evaluates the density of `X` at the atom instead of at `x` times the atom, so that the computed "density" is constant and its total mass is 4/3 instead of 1.
* `Pacal.Conv.C14_violated_zero_atom` (`lean/Verif/Conv/PropsDiv.lean`): **C14 violated by an atom at 0 in the numerator**: if `Y` has no atoms then the computed distribution of `X / Y` has no atom at 0, but the probability that `X / Y` is 0 is the probability that `X` is 0.
* `Pacal.Conv.C15_violated_merge` (`lean/Verif/Conv/PropsMinMax.lean`): **C11 and C15** fail for values which are closer than the tolerance: if `X` is 0 or 1 with probability 1/2 and `Y` is `eps / 2`, the minimum is 0 or `eps / 2` with probability 1/2 each; the code reports the value 0 with probability 1.
* `Pacal.Conv.C13_violated_zero` (`lean/Verif/Conv/PropsProd.lean`): **C13 violated by the constant 0**: the product of the constant 0 (as a random variable) and a variable without atoms is 0, but the code fails: no piece and no atom has been added to the result when the piece at 0 is looked up in it.
* `Pacal.Conv.C10_violated_merge` (`lean/Verif/Conv/PropsSum.lean`): **C10** fails for results which are closer than the tolerance: if `X` is 0 or `2 eps` with probability 1/2 and `Y` is 1/4, the product is 0 or `eps / 2` with probability 1/2 each; the code reports the value 0 with probability 1.
* `Pacal.Conv.C12_violated_gap` (`lean/Verif/Conv/PropsSum.lean`): **C12 violated by a gap in the support**: the start of a piece after a gap is not among the break points, so adding the constant 0 (as a random variable) to the mixture of the uniform distributions on `[0, 1]` and `[3, 4]` loses everything right of 1: `P(X + 0 > 2)` comes out as 0 instead of 1/2.
* `Pacal.Copula.C51_violated_minimum_scalar` (`lean/Verif/Copula/Props.lean`): C51 is violated by the minimum copula for scalars: its value is the last argument, so it is not grounded and exceeds the upper Fréchet bound
* `Pacal.Copula.C51_violated_lower` (`lean/Verif/Copula/Props.lean`): C51 is violated by the lower bound copula in three or more variables, because 1 is subtracted and not the number of variables less one: at `(1, ..., 1)` the value is greater than 1
* `Pacal.Copula.C51_finding_frank_three` (`lean/Verif/Copula/Props.lean`): `FrankCopula2d` accepts three variables, but then the value at `(1, 1, 1)` is not 1
* `Pacal.Copula.C51_violated_clayton` (`lean/Verif/Copula/Props.lean`): C51 is violated by the Clayton copula with a negative parameter: for `theta = -1`, announced as the lower bound copula, the values at (1/4, 1/4) and at (0, 1/2) are negative
* `Pacal.Copula.C51_finding_condition_order` (`lean/Verif/Copula/Props.lean`): the order in which the given variables are listed is ignored: `condition([1, 0], x, y)` gives `x` to the variable 0
* `Pacal.Copula.C51_finding_dual` (`lean/Verif/Copula/Props.lean`): `dualcdf` gives the arguments, and not the values of the marginal distribution functions, to the copula: for independent variables uniform on [0, 2] the value at (1, 1) is 0, although the probability that one of them is at most 1 is 3/4
* `Pacal.Copula.C51_finding_singular` (`lean/Verif/Copula/Props.lean`): the copulas of the bounds have no density, but report the density 0 for any marginals
* `Pacal.Copula.C81_violated_range` (`lean/Verif/Copula/PropsCond.lean`): **C81** (violated): `ccond` compares the values of the distribution functions with the ranges of the marginals. For two variables uniform on [2, 3], `conditionCDF` is 0 everywhere, also where the conditional distribution function is 1.
* `Pacal.Copula.C81_violated_beyond` (`lean/Verif/Copula/PropsCond.lean`): **C81** (violated): with one variable left, `conditionCDF` is 0 beyond the right end of its range, where the conditional distribution function is 1: two variables uniform on [0, 1], at 2.
* `Pacal.Copula.C81_violated_two` (`lean/Verif/Copula/PropsCond.lean`): **C81** (violated): with two conditions, `conditionCDF` is the mixed derivative of the copula, not divided by the density of the two conditions. For three variables uniform on [0, 1] with the copula of Clayton (`theta = 1`), the function is 32/27 at the right end of the range of the third variable, when the other two are 1/2.
* `Pacal.Copula.C90_violated_scalar` (`lean/Verif/Copula/PropsLog.lean`): `FrankCopula2d.fi_inv` of a number fails, for every parameter other than 0 and every number: the helpers assign to the elements of their argument.
* `Pacal.Copula.C90_violated_m1` (`lean/Verif/Copula/PropsLog.lean`): `logexp_m1(x, a)` is documented as `-log(a * exp(-x) - 1)`; with `a = 2` and `x = 0` that is 0 and the function returns `log(2)`, because it divides by `a`.
* `Pacal.Copula.C90_violated_log_1m` (`lean/Verif/Copula/PropsLog.lean`): `log_1m_exp(x, a)` is documented as `-log(1 - a * exp(-x))`; with `a = 1/2` and `x = 0` that is `log(2)` and the function returns `-log(2)`: the sign differs, and so does the sign of `x`, `x = 1` giving `log|1 - e/2|`.
* `Pacal.DepVars.C49_violated_start` (`lean/Verif/DepVars/Props.lean`): **C49, violation** (start): a variable of the joint distribution that is also given as a derived one becomes free and dependent at the same time, with itself as its equation (`Model(nd, [x])` where `x` has no parents: its symbol stands for itself)
* `Pacal.DepVars.C49_finding_unknown_wanted` (`lean/Verif/DepVars/Props.lean`): **C49, finding** (unknown variables): `inference` never returns if a wanted variable does not belong to the model
* `Pacal.DepVars.C49_finding_endless` (`lean/Verif/DepVars/Props.lean`): **C49, finding** (endless loop): for a model of one variable and another wanted variable no error is reported either, the loops go on for ever
* `Pacal.DepVars.C49_finding_contradiction` (`lean/Verif/DepVars/Props.lean`): **C49, finding** (contradiction): a condition on a dependent variable that other conditions have made constant is dropped without a check: with `1 = 0`, the conditions 0 has the value 1 and 1 has the value 2 give a model of the wanted variable 2 and no error, though no assignment meets the conditions
* `Pacal.DepVars.C49_finding_are_free` (`lean/Verif/DepVars/Props.lean`): **C49, finding** (`are_free`): the answer is about the first variable only, and there is no answer for no variables
* `Pacal.DepVars.C49_finding_domain` (`lean/Verif/DepVars/Props.lean`): **C49, finding** (domains): the equation of an eliminated variable also says where it is defined, and this is forgotten: with `1 = f(0)`, where `f` misses `[0, 1)`, exchanging the variables and eliminating 0 leaves the free variable 1 without any restriction, so that the value 1/2 is described although no assignment of the model has it; the model relies on the joint density being 0 there
* `Pacal.Depend.C79_violated_cov_range` (`lean/Verif/Depend/Props.lean`): The second marginal is taken to be number 1 whatever `j` is, and the covariance is computed on its range: here the first and the third variable have the covariance 1/36, and `cov(0, 2)` is 0.
* `Pacal.Depend.C79_violated_corrcoef_diagonal` (`lean/Verif/Depend/Props.lean`): `corrcoef(0, 0)`, which should be 1, is the ratio of the first and the second standard deviation.
* `Pacal.Depend.C79_violated_corrcoef_third` (`lean/Verif/Depend/Props.lean`): `corrcoef(0, 2)` divides by the standard deviation of the second variable instead of the third.
* `Pacal.Depend.C79_violated_minimum` (`lean/Verif/Depend/Props.lean`): For the upper bound of Fréchet, `rho_s` and `ctau` raise `IndexError`. With the formula of its density, which is 0, `ctau` would be -1, although the variables which it joins are equal and have Kendall's tau 1.
* `Pacal.Depend.C79_violated_nd_cov` (`lean/Verif/Depend/Props.lean`): `NDDistr.cov` subtracts no means, and its diagonal is 1: for `i ≠ j` it returns the mean of the product (where the range is right).
* `Pacal.Depend.C80_finding_default` (`lean/Verif/Depend/PropsArch.lean`): **C80** (finding): `ArchimedeanCopula` with the default generator `log` and marginals: the sum of the logarithms is negative, and `ccdf` replaces it by 0, so it returns 1 everywhere in the square. The density `cpdf` is that of independent variables.
* `Pacal.Direct.C100_violated_inverse_array` (`lean/Verif/Direct/Props.lean`): **C100 violated by arrays with a 0 for reciprocals**: `(1/X).pdf(array([0, 1]))` has one entry instead of two, because the name of the array of zeros is given to the array of the other entries.
* `Pacal.Direct.C100_violated_inverse_length` (`lean/Verif/Direct/Props.lean`): **C100 violated by all arrays with zeros for reciprocals**: the result has an entry for every number different from 0 and none for the zeros, so that it is shorter than the array.
* `Pacal.Direct.C100_violated_square_array` (`lean/Verif/Direct/Props.lean`): **C100 violated by arrays for squares**: `(X**2).pdf(x)` raises ValueError for every array with more than one entry.
* `Pacal.Direct.C100_violated_atan_inverse` (`lean/Verif/Direct/Props.lean`): **C100 violated by bounded functions of reciprocals**: `atan(1/X).pdf(x)` raises ZeroDivisionError for every `x` from 2 on, where the density is 0.
* `Pacal.Direct.C100_violated_tanh_exp` (`lean/Verif/Direct/Props.lean`): **C100 violated by bounded functions of exponentials**: `tanh(exp(X)).pdf(x)` raises ZeroDivisionError for every `x` from 1 on, where the density is 0 (the distribution `X` only has to answer for nan).
* `Pacal.Direct.C100_violated_discrete_scale` (`lean/Verif/Direct/Props.lean`): **C100 violated by multiples of discrete variables**: `pdf` of a discrete distribution gives probabilities; for twice the fair coin on 0 and 1 it gives 1/4 at 2 instead of 1/2.
* `Pacal.Direct.C100_violated_discrete_abs` (`lean/Verif/Direct/Props.lean`): **C100 violated by the absolute value of discrete variables**: `pdf(0)` of the absolute value of the fair coin on 0 and 1 is 1 instead of 1/2.
* `Pacal.C25_violated_duplicate` (`lean/Verif/Distr/PropsDiscrete.lean`): **C25** fails for a table with a repeated point: the density cannot be built (`addSegment` fails its assertion on the zero piece of length 0), although `pdf` and the sampler accept the table.
* `Pacal.C25_violated_merge` (`lean/Verif/Distr/PropsDiscrete.lean`): **C25** fails for points closer than the tolerance: they are merged into the first one.
* `Pacal.C25_finding_index_error` (`lean/Verif/Distr/PropsDiscrete.lean`): **C25**, finding: a draw above the total of the probabilities is an index error; the line meant to prevent it (`i[i > len] = len`) has no effect.
* `Pacal.C56_violated_cos` (`lean/Verif/Distr/PropsNonneg.lean`): **C56** is violated by cosines: `is_nonneg()` of `cos(X)` is true whatever its density. If `X` is uniform on [2, 3], `cos(X)` is negative with certainty, and `log(cos(X))`, `sqrt(cos(X))` and `cos(X) ** Y` are accepted.
* `Pacal.C56_violated_sin` (`lean/Verif/Distr/PropsNonneg.lean`): **C56** is violated by sines in the same way: nothing is asked about the density.
* `Pacal.C56_violated_zero_piece` (`lean/Verif/Distr/PropsNonneg.lean`): **C56** is violated by densities that are 0 on a piece left of 0: they are rejected although the variable is positive with certainty.
* `Pacal.C56_violated_rv` (`lean/Verif/Distr/PropsNonneg.lean`): **C56** is violated by random variables without a distribution: their logarithm is rejected with `AttributeError` (only that of an exponential is accepted), while the square root is accepted without any test.
* `Pacal.C56_finding_cube` (`lean/Verif/Distr/PropsNonneg.lean`): **C56**, about whole powers: the cube of a variable that takes negative values is rejected, although it is well defined.
* `Pacal.C26_violated_gap` (`lean/Verif/Distr/PropsSign.lean`): **C26** fails where the CDF does (C07): for the mixture of the constant -1 and `U(1, 2)` the code gives `sign(X) = -1` the probability 0 instead of 1/2.
* `Pacal.C59_violated_gap` (`lean/Verif/Distr/PropsSign.lean`): **C59** fails where the CDF does (C07): for the mixture of the constant -1 and `U(1, 2)` the code returns `P(X > 0) = 1` instead of 1/2.
* `Pacal.Equations.C99_violated_same` (`lean/Verif/Equations/Props.lean`): **C99** is violated when two variables have the same expression, for instance U = X+Y, V = X+Y and W = U*V: the equation of V is not listed, and the listed equations are solved by values for which V is not X+Y.
* `Pacal.Estim.C89_violated_required` (`lean/Verif/Estim/Props.lean`): A class with a parameter that has no default cannot be used without naming the parameters, although it has defaults: for `LogLogisticDistr.__init__(self, k, s=1.0, **kwargs)` the constructor of the estimator is an `IndexError`.
* `Pacal.Estim.C89_violated_offset` (`lean/Verif/Estim/Props.lean`): Parameters that make the data possible are not always preferred: for the observations 0 and 1 the value `t = 0`, under which 0 cannot occur, has a smaller `logli` than `t = 1`, under which both occur. The densities are increased by `10 ** (-300)`.
* `Pacal.Estim.C89_violated_discrete` (`lean/Verif/Estim/Props.lean`): Discrete distributions cannot be estimated: arrays are evaluated without the atoms, so `logli` has the same value `-n * log(1e-300)` for all parameters of a class of discrete distributions.
* `Pacal.Estim.C89_violated_integers` (`lean/Verif/Estim/Props.lean`): Data of an integer type make the densities integers: as long as all densities at the data are less than 1, `logli` has the same value for all parameters.
* `Pacal.C29_violated_default_flags` (`lean/Verif/Graph/Props.lean`): **C29, finding.** With the default flags `X - X` is sampled as the difference of two independent draws.
* `Pacal.C29_finding_sign` (`lean/Verif/Graph/Props.lean`): **C29, finding.** `sign(X)` is not sampled from the sample of `X`, even without the independence assumption: it is a separate draw (here `1·` the sign node `1` draws once more), so `sign(X)` and `X` are not jointly consistent.
* `Pacal.C31_violated_all` (`lean/Verif/Graph/Props.lean`): **C31, finding.** Contrary to its name, `getParentsAll` of `X + Y` does not contain `X` or `Y`.
* `Pacal.C27_violated_zero_pow` (`lean/Verif/Graph/PropsOperators.lean`): **C27, finding.** `0 ** X` is the number 0 for every `X`, also at outcomes 0 of `X`, where `0 ** 0` is 1 (and where `X ** 0` is 1 according to the library).
* `Pacal.C30_violated_sub` (`lean/Verif/Graph/PropsRange.lean`): **C30 violated by differences**: for X, Y in [0,1] the range of X - Y is [0,0].
* `Pacal.C30_violated_function` (`lean/Verif/Graph/PropsRange.lean`): **C30 violated by functions of a variable**: the range of `abs(X)` is [0,1] whatever X is.
* `Pacal.C30_violated_div` (`lean/Verif/Graph/PropsRange.lean`): **C30 violated by a divisor range with 0 inside**: for X in [1,2] and Y in [-1,1] the stated range of X / Y is [-2, ∞), which misses the outcome 1 / (-1/4) = -4.
* `Pacal.C30_violated_shift` (`lean/Verif/Graph/PropsRange.lean`): **C30 violated by a shifted leaf**: a leaf that states its range through the method `range()` only (a normal variable: attributes 0, 1, method (-∞, ∞)) gets the range [1, 2] when shifted by 1.
* `Pacal.Hist.C85_violated_constant` (`lean/Verif/Hist/Props.lean`): **C85 violated**: if all values are the same, as for a constant, the total area is `1 / bins` instead of 1: the heights are computed for bars of width 1, but drawn with the width `1 / bins`.
* `Pacal.Hist.C85_finding_conditional` (`lean/Verif/Hist/Props.lean`): **C85, finding**: with a range the total area is the proportion of all draws that lie in the range, although the documentation announces a conditional histogram, whose total area would be 1. Here two of three values drawn are in the range.
* `Pacal.C32_violated_geom_all` (`lean/Verif/Iid/Props.lean`): **C32 violated by `iid_average_geom(all=True)`.** With `n = 2` the first entry, which should be the distribution itself (first root of one copy), is its square root: the exponent `1/n` is used for every entry (stats/iid_ops.py:130). Here `mul` and `root` build symbolic terms.
* `Pacal.C33_violated` (`lean/Verif/Iid/Props.lean`): **C33 violated.** An operation that raises leaves the warnings switched off.
* `Pacal.C35_violated_k_gt_n` (`lean/Verif/Iid/Props.lean`): **C35, finding.** For `k > n` the result is 1 although the coefficient is 0.
* `Pacal.C03_violated_integers` (`lean/Verif/Law/PropsArrays.lean`): **C03** fails for arrays of integers: the results are stored as integers. The density 1/2 of the uniform distribution on `[0, 2]` is returned as 0 for the array with the integer 1, as 1/2 for the array with the float 1 and for the scalar 1.
* `Pacal.C07_violated_integers` (`lean/Verif/Law/PropsArrays.lean`): **C07** fails for arrays of integers: `cdf` returns 0 for all entries `x` with `P(X ≤ x) < 1`
* `Pacal.C07_violated_atom_first` (`lean/Verif/Law/PropsCdf.lean`): **C07** fails for an isolated atom left of the first piece (mixture of the constant 0 and `U(1, 2)`): the code returns 0 at 1/2 instead of 1/2.
* `Pacal.C07_violated_two_atoms` (`lean/Verif/Law/PropsCdf.lean`): **C07** fails for two atoms with nothing in between (mixture of the constants 0 and 1): the code returns 0 at 1/2 instead of 1/2.
* `Pacal.C07_violated_gap` (`lean/Verif/Law/PropsCdf.lean`): **C07** fails in a gap between two pieces (mixture of `U(0, 1)` and `U(2, 3)` at 3/2): the scalar CDF extends the constant piece to the left and returns 1/4, the array CDF returns 0; both should be 1/2.
* `Pacal.C58_violated_const` (`lean/Verif/Law/PropsLaw.lean`): **C58** fails for constant pieces outside the interval: for `U(0, 1)` the code gives `P(5 < X < 6) = -4`.
* `Pacal.C03_violated_piece_integers` (`lean/Verif/Law/PropsPieces.lean`): **C03** fails for single pieces and arrays of integers: where the density is less than 1 the result is 0. A piece with a constant density returns it unchanged.
* `Pacal.Moments.C55_violated_nan` (`lean/Verif/Moments/Props.lean`): **C55 violated when the mean is NaN**: the mean is NaN when the error estimates are large (for instance for the Cauchy distribution). Then `moment(k)` is 0 for every `k > 0`, instead of NaN: `meanf` replaces NaN by 0. Here a quadrature which reports an error of 1 and a distribution with variance 5/48.
* `Pacal.NDNormal.C52_violated_condition` (`lean/Verif/NDNormal/Props.lean`): C52 is violated for three or more variables: conditioning always raises, whenever some variables are given and some are left, because `Sigma[r, c]` with two lists takes single elements and not a submatrix. (`pinv` is the pseudo inverse of a row, a column of the same length.)
* `Pacal.NDNormal.C52_finding_default_vars` (`lean/Verif/NDNormal/Props.lean`): Without given variables, `NDNormalDistr(mu, Sigma)` makes marginals whose standard deviation is `Sigma[i, i]`: their variance is the variance `Sigma[i, i]` only if that is 0 or 1
* `Pacal.NDNormal.C52_finding_box` (`lean/Verif/NDNormal/Props.lean`): The joint density is cut off at a distance of 5 from the mean in every coordinate, whatever the variance: there it is 0, while the normal density is positive
* `Pacal.NDim.C50_finding_condition_two` (`lean/Verif/NDim/Props.lean`): Conditioning on two variables of the same factor always fails: `NDProductDistr.condition` passes the values as one list argument, which is compared with a range. Stated for a product of one factor of two variables.
* `Pacal.NDim.C50_finding_no_factors` (`lean/Verif/NDim/Props.lean`): A product of no factors cannot be made: `set.union()` of nothing raises
* `Pacal.NDim.C53_violated_scalar` (`lean/Verif/NDim/Props.lean`): C53 is violated for scalars in two variables: the mask is built with `or`, so the density on the unit square is still 1 at (1/2, 7), while the call with arrays gives 0 there
* `Pacal.NDim.C53_finding_int_array` (`lean/Verif/NDim/Props.lean`): Arrays of integers: the result array has the type of the first argument (`zeros_like`), so that densities are truncated. A density of 1/2 on [0, 2] is returned as 0 at the integer point 1.
* `Pacal.NDim.C87_violated_order` (`lean/Verif/NDim/PropsCond.lean`): A condition listed in another order than the variables of the joint density gives wrong values: with a density proportional to `1 + x₁` on the unit cube (and a mean over the ends of the range in place of the integral), conditioned on the variables 2 and 1 in this order, the value at (0, 0, 1) is 1/2 and not 1, because the marginal density is called with `x₂` in the place of `x₁`.
* `Pacal.NDim.C87_violated_part` (`lean/Verif/NDim/PropsCond.lean`): Conditioning a conditional density on a part of its condition gives an object that cannot be evaluated: it keeps the density of the old condition and calls it with too few arguments. Stated for three variables, a condition on 1 and 2, and a value for 2.
* `Pacal.NDim.C86_violated_order` (`lean/Verif/NDim/PropsElim.lean`): The variables are eliminated from the last to the first in the *given* order, and their numbers are not adjusted when a dimension has been removed: eliminating the variables 2 and 0 of a joint density of four variables, in this order, integrates out 0 and 3 and returns the density of 1 and 2 instead of that of 1 and 3.
* `Pacal.NDim.C86_violated_refused` (`lean/Verif/NDim/PropsElim.lean`): With three variables the same request fails: after the first variable has been removed the number 2 is out of range.
* `Pacal.NDim.C86_violated_product` (`lean/Verif/NDim/PropsElim.lean`): A product passes the remaining variables on in the given order, so it is affected too: with a single factor of five variables, asking for the elimination of 0, 3 and 1 leaves the variables 2 and 3 instead of 2 and 4.
* `Pacal.NDim.C86_finding_limits` (`lean/Verif/NDim/PropsElim.lean`): The documented integration limits have no effect.
* `Pacal.Names.C98_violated_difference` (`lean/Verif/Names/Props.lean`): C98 is violated by `X - (Y - Z)`: its name is `X-Y-Z`, which denotes `(X - Y) - Z`.
* `Pacal.Names.C98_violated_shift` (`lean/Verif/Names/Props.lean`): C98 is violated by `X - (Y + 2)`: its name is `X-Y+2`, which denotes `(X - Y) + 2`.
* `Pacal.Names.C98_violated_sigmoid` (`lean/Verif/Names/Props.lean`): C98 is violated by the sigmoid function: `sigmoid(X)` is named `tanh(X)`.
* `Pacal.C41_violated_copyReverse` (`lean/Verif/Nodes/PropsArrays.lean`): Disagreement: the reversed copy of an interpolator loses the first two nodes (the slice `[-1:1:-1]`, interpolation.py:83), so that a copy of the interpolator of `x ^ 2` through 0, 1 and 2 is constant.
* `Pacal.C41_violated_log` (`lean/Verif/Nodes/PropsBary.lean`): The weights of the logarithmic interpolator are those of the ordinary grid; they are wrong for its nodes: already with three nodes on `[1, 4]` the function `x ^ 2` is not reproduced at `3`.
* `Pacal.C39_violated_log` (`lean/Verif/Nodes/PropsNodes.lean`): **Violated for the logarithmic grid**: with five or more nodes it is not sorted (the cosine is not negated, so the inner points come in decreasing order).
* `Pacal.Noisy.C83_violated_square` (`lean/Verif/Noisy/Props.lean`): The range of the value is taken from the ends of the ranges of the variables. For the square of a variable with values in [-1, 1] plus noise with values in [0, 1] it is [1, 2], so that at 0 the integral over the value is 0, although eliminating the value gives 1.
* `Pacal.Noisy.C83_violated_difference` (`lean/Verif/Noisy/Props.lean`): The same happens for functions monotone in every variable but not all in one direction: the difference of two variables with values in [0, 1].
* `Pacal.Noisy.C83_violated_two` (`lean/Verif/Noisy/Props.lean`): After fixing two variables of a function of two variables the value remains, but the number of dimensions is 2: eliminating the value raises an exception.
* `Pacal.Noncentral.C71_violated_small_df` (`lean/Verif/Noncentral/Props.lean`): `NoncentralChiSquareDistr(df, lmbda)` accepts every `df >= 1`, but for `1 < df < 2` the summand `ChiSquareDistr(df - 1)` has no density, and nothing can be computed; likewise for `NoncentralFDistr` and, with `1/2 < alpha < 1`, for `NoncentralBetaDistr`.
* `Pacal.Pickle.C101_violated_private` (`lean/Verif/Pickle/Props.lean`): **C101 violated by private methods of a base class**: the pickled name contains the name of the class of the object instead of the class that defines the method; unpickling ends with UnboundLocalError.
* `Pacal.Pickle.C101_violated_super` (`lean/Verif/Pickle/Props.lean`): **C101 violated by methods bound with `super()`**: the method `f` of the base class, bound to an object of a class that overrides it, comes back as the overriding one.
* `Pacal.Pickle.C101_violated_attribute` (`lean/Verif/Pickle/Props.lean`): **C101 violated by attributes with the name of a method**: if the object has an attribute of its own called like the function, unpickling the method ends with AttributeError.
* `Pacal.Plot.C105_violated_tiny` (`lean/Verif/Plot/Props.lean`): Disagreement: a piece that begins at 0 and is shorter than `leftRightEpsilon` is sampled outside of the piece and in decreasing order (segments.py:244-245).
* `Pacal.C22_violated_zero_base` (`lean/Verif/Push/PropsComp.lean`): **C22 violated by `0 ** X`**: for the fair coin on 0 and 1 the result is the number 0, although `0 ** X` is 1 with probability 1/2 (the value of `0 ** 0`).
* `Pacal.C22_violated_sign` (`lean/Verif/Push/PropsComp.lean`): **C22 violated by the guess of the sign of an infinite end**: `log` of the uniform distribution on `[0, 2]`, built by the general route for monotone functions (the library avoids this for its own `log` by splitting first), puts no mass on the negative half line although `P(log X ≤ 0) > 0`.
* `Pacal.C22_violated_cos` (`lean/Verif/Push/PropsComp.lean`): **C22 violated by `cos` outside `[0, 2π)`**: for every distribution on the other side the library returns a function without any mass (here the uniform distribution on `[2π, 2π + 1]`).
* `Pacal.C22_finding_log_atom0` (`lean/Verif/Push/PropsComp.lean`): **Finding**: `log` of a distribution with an atom at 0 raises an exception
* `Pacal.C23_violated_sin2` (`lean/Verif/Push/PropsComp.lean`): **C23 violated by `sin`**: the function used as the inverse of `sin` on `[π/2, 3π/2]` is `2π - arccos`; at every `y` its sine is `-√(1 - y²)` instead of `y`, so it is not an inverse.
* `Pacal.C23_violated_sq2` (`lean/Verif/Push/PropsComp.lean`): **C23 violated by `Sq2Distr`**: the inverses of the two branches of `x²` are swapped.
* `Pacal.C19_violated_merge` (`lean/Verif/Push/PropsFold.lean`): **C19 violated by the merging of atoms**: with half the mass on -1 and on `1 + eps`, the distribution built for `|X|` is the constant `1 + eps`.
* `Pacal.C20_violated_merge` (`lean/Verif/Push/PropsFold.lean`): **C20 violated by the merging of atoms**: half the mass on 0 and on `√eps`; the distribution built for `X²` is the constant 0.
* `Pacal.C21_violated_atom` (`lean/Verif/Push/PropsInv.lean`): **C21 violated by atoms**: a distribution with an atom, wherever it is, has no usable reciprocal (every evaluation of the result raises an exception).
* `Pacal.C18_violated_merge` (`lean/Verif/Push/PropsShift.lean`): **C18 violated by the merging of atoms**: the fair coin on 0 and 1, scaled by the tolerance, becomes a constant.
* `Pacal.Quantile.C08_violated_two_atoms` (`lean/Verif/Quantile/Props.lean`): **C08** fails for atoms with nothing in between: for a fair coin with values 0 and 1, `quantile(1/4)` is 1, although `P(X < 1) = 1/2`.
* `Pacal.Quantile.C09_violated_coin` (`lean/Verif/Quantile/Props.lean`): **C09** fails for a fair coin with values 0 and 1: every `ci(p)` is the single point 1, which has probability 1/2 and not at least `1 - p`.
* `Pacal.Quantile.C60_violated_coin` (`lean/Verif/Quantile/Props.lean`): **C60** fails for a fair coin with values 0 and 1: whatever is drawn, every sampled value is 1, although the value 0 has probability 1/2.
* `Pacal.Quantile.C08_violated_gap` (`lean/Verif/Quantile/Props.lean`): **C08** (and C09) fail for a distribution with a gap: for the density 1/4 on `[0, 1]` and `[2, 3]` and 1/2 on `[3, 4]` the median is 2, although `P(X ≤ 2) = 1/4`: the break points are counted as if there were no gap.
* `Pacal.Quantile.C84_violated_thin` (`lean/Verif/Quantile/PropsInv.lean`): **C84 violated**: values of the distribution function closer than 0.0001 are merged. For the density 0.99999 on [100, 101] and 0.00001 on [101, 102] the last break point is therefore 0.99999, and the inverse distribution function at 0.999995 is 0.
* `Pacal.Report.C106_violated_tail` (`lean/Verif/Report/Props.lean`): Disagreement: for an unbounded piece only the interpolator near the finite end is looked at (segments.py:1149); an error of 1 in the interpolator of the tail is reported as 0.
* `Pacal.Report.C106_finding_empty` (`lean/Verif/Report/Props.lean`): Disagreement: a density without pieces has no reported error, the maximum of an empty list raises ValueError (distr.py:251-252).
* `Pacal.C64_finding_small_limit` (`lean/Verif/Rule/Props.lean`): **C64, finding (small limits):** with a node limit below 5 `integrate_clenshaw`, and with a node limit below 129 `integrate_fejer2_vector`, reach their `return` statement without a value for the error: `UnboundLocalError`.
* `Pacal.C64_finding_clenshaw_default` (`lean/Verif/Rule/Props.lean`): **C64, finding (debug_plot):** the parameter `debug_plot` of `integrate_clenshaw` hides the plotting function of the same name and defaults to `True`; when the node limit is reached, the boolean is called: `TypeError`. With the node limit 5 this happens for every integrand, even for constants, which the rule integrates exactly.
* `Pacal.Sample.C107_violated_period` (`lean/Verif/Sample/Props.lean`): **C107** is violated by sines and cosines of arguments outside of one period: the samples are 0.
* `Pacal.Sample.C107_finding_cos_law` (`lean/Verif/Sample/Props.lean`): Finding: the samples of `cos(X)` and the density computed for it are different laws as soon as `X` leaves one period. The density lacks the probability that `X` is outside of `[0, 2π)`; the samples have that probability at 0.
* `Pacal.Sampler.C67_violated_chiSquare_small_df` (`lean/Verif/Sampler/Props.lean`): `ChiSquareDistr(df)` with `0 < df < 1` can be sampled although its density cannot be built: the constructor accepts the parameter, `rand` draws from the chi-square law and every other operation fails.
* `Pacal.C01_finding_partial_overlap_accepted` (`lean/Verif/Segments/PropsAssemble.lean`): Finding: two *partially* overlapping pieces `[0,2]`, `[1,3]` are accepted by `addSegment` (only nested ones are rejected), so the "non-overlapping" hypothesis is the caller's duty.
* `Pacal.C02_finding_atom_inside_piece_moves` (`lean/Verif/Segments/PropsAssemble.lean`): Finding: an atom strictly inside an existing continuous piece is silently moved to the left end of that piece (segments.py:1096-1097).
* `Pacal.C03_violated_in_gap` (`lean/Verif/Segments/PropsAssemble.lean`): **C03 fails in a gap**: between two pieces, scalar evaluation extrapolates the piece to the right (here 1/2) while array evaluation gives 0.
* `Pacal.C108_violated_equality` (`lean/Verif/Segments/PropsCompare.lean`): **C108** is violated by `<=`, `>=` and `==`: no continuous piece is `<=` itself, although it is `==` itself; a piece and an atom at its right end are `==` and at the same time `<`, and `index` returns the position of the piece when asked for the atom.
* `Pacal.C108_violated_transitive` (`lean/Verif/Segments/PropsCompare.lean`): **C108**: `==` is not transitive
* `Pacal.C06_violated_div_real` (`lean/Verif/Segments/PropsDiv.lean`): **C06, finding.** `f / r` for a number `r` always fails: `__truediv__` treats the number as a piecewise function (segments.py:1592-1593), and `AttributeError` is raised.
* `Pacal.C06_violated_div` (`lean/Verif/Segments/PropsDiv.lean`): **C06, finding.** An atom of the divisor only: the quotient `0 / g` keeps the mass of the atom instead of 0 (segments.py:1664-1665).
* `Pacal.C06_violated_sub` (`lean/Verif/Segments/PropsSplit.lean`): **C06 violated for `-`.** `f - g` with an atom of mass 1 only in `g` has mass `+1` there instead of `-1` (segments.py:1664-1665).
* `Pacal.C06_violated_mul` (`lean/Verif/Segments/PropsSplit.lean`): **C06 violated for `*`.** The product with the empty function keeps the atom instead of dropping it.
* `Pacal.C06_violated_sub_real` (`lean/Verif/Segments/PropsSplit.lean`): **C06, finding.** `f - r` for a number `r` computes `r - f` (segments.py:1579-1580): for the constant function 5 on `[0, 1)` the "difference" with 2 is `-3`.
* `Pacal.Sparse.C44_violated_single_point` (`lean/Verif/Sparse/Props.lean`): **C44** fails for the compiled routine if there are more axes than values: on a grid of one point in two dimensions the array of pointers, allocated with one entry per value instead of one per axis, is written outside of its bounds.
* `Pacal.Standard.C102_violated_semicircle` (`lean/Verif/Standard/PropsArrays.lean`): **C102 violated by the semicircle distribution**: a point outside of the range makes the call on an array with two or more entries fail with ValueError (`SemicircleDistr(1).pdf(array([0.0, 2.0]))`), wherever the point is.
* `Pacal.Standard.C102_violated_logLogistic` (`lean/Verif/Standard/PropsArrays.lean`): **C102 violated by the log-logistic distribution**: a negative point makes the call on an array with two or more entries fail with ValueError (`LogLogisticDistr(2).pdf(array([-1.0, 1.0]))`), although the density there is 0.
* `Pacal.Standard.C102_violated_integers` (`lean/Verif/Standard/PropsArrays.lean`): **C102 violated by arrays of integers**: the exponential density at the integer 1 is `exp(-1)`, but in an array of integers it is truncated to 0 (`ExponentialDistr(1).pdf(array([1]))`).
* `Pacal.Standard.C103_violated_chiSquare` (`lean/Verif/Standard/PropsArrays.lean`): **C103 violated at 0 by the chi square distribution with 2 degrees of freedom**: `log_pdf(0)` is NaN, the density is 1/2; the prepared attribute `lpdf_at_0` is never used.
* `Pacal.Standard.C103_violated_gamma` (`lean/Verif/Standard/PropsArrays.lean`): **C103 violated at 0 by the gamma distribution with shape 1**: `log_pdf(0)` is NaN, the density is `1/theta`.
* `Pacal.Standard.C103_violated_negative` (`lean/Verif/Standard/PropsArrays.lean`): **C103 violated at negative points**: the density of the log-logistic distribution at -1 is 0, the logarithm NaN instead of `-inf`.
* `Pacal.Standard.C46_violated_chiSquare_small_df` (`lean/Verif/Standard/PropsB.lean`): For `df < 1`, a valid number of degrees of freedom accepted by the constructor, `ChiSquareDistr(df)` has no density at all (only a message is printed).
* `Pacal.Standard.C46_violated_beta_end_points` (`lean/Verif/Standard/PropsB.lean`): With `alpha = 1` the density at 0 is not a number (`log(0) * 0`), and with `beta = 1` neither is the density at 1; `BetaDistr(1, 1)` is the uniform distribution.
* `Pacal.Standard.C46_violated_chiSquare_at_zero` (`lean/Verif/Standard/PropsB.lean`): For `1 < df < 2` the chi-square density tends to infinity at 0 but `pdf(0)` returns 0.
* `Pacal.Standard.C46_violated_integer_array` (`lean/Verif/Standard/PropsB.lean`): On an array of integers the exponential density is truncated to integers: `ExponentialDistr(0.5).pdf` of the array `[0, 1]` is `[0, 0]`, while the density is positive there.
* `Pacal.Standard.C46_violated_semicircle_outside` (`lean/Verif/Standard/PropsC.lean`): Outside its support `pdf` of the semicircle distribution raises instead of returning 0.
* `Pacal.Standard.C46_violated_semicircle_array` (`lean/Verif/Standard/PropsC.lean`): On an array with points inside and outside the support it raises as well.
* `Pacal.Standard.C46_violated_weibull_at_zero` (`lean/Verif/Standard/PropsC.lean`): With shape 1 the density at 0 is `1/lmbda` in the limit, but `pdf(0)` returns 1: `WeibullDistr(1, 2).pdf(0)`.
* `Pacal.Standard.C46_violated_logLogistic_at_zero` (`lean/Verif/Standard/PropsD.lean`): With shape 1 the density at 0 is not a number (`0 * -inf`), whatever the scale.
* `Pacal.Standard.C46_violated_gumbel` (`lean/Verif/Standard/PropsD.lean`): Left of `mu - M*sigma` the computed Gumbel density is exactly 0 while the Gumbel density is positive.
* `Pacal.Standard.C47_violated_binomial_one` (`lean/Verif/Standard/PropsDiscrete.lean`): **C47** fails for `BinomialDistr(n, 1)`: the certain outcome `n` is a legitimate binomial law, but the constructor divides by `1 - p = 0`.
* `Pacal.Standard.C47_finding_poisson_zero_tolerance` (`lean/Verif/Standard/PropsDiscrete.lean`): **C47**, finding: with a tolerance that is not positive the constructor of the Poisson distribution does not end, in exact arithmetic.
* `Pacal.Standard.C47_finding_poisson_negative` (`lean/Verif/Standard/PropsDiscrete.lean`): **C47**, finding: a negative rate is accepted and gives a single atom of mass above 1.
* `Pacal.Standard.C47_finding_poisson_sampler` (`lean/Verif/Standard/PropsDiscrete.lean`): **C47**, finding: the truncated Poisson distribution is not normalised, so for every positive rate there are uniform draws on which its sampler is an index error.
* `Pacal.Standard.C47_finding_trunc_empty` (`lean/Verif/Standard/PropsDiscrete.lean`): **C47**, finding: with a tolerance above 1 the generic truncated distribution has an empty table.
* `Pacal.Standard.C47_finding_trunc_endless` (`lean/Verif/Standard/PropsDiscrete.lean`): **C47**, finding: the constructor of the generic truncated distribution does not end when no partial sum comes within the tolerance of 1.
* `Pacal.Standard.C46_violated_unchecked` (`lean/Verif/Standard/PropsE.lean`): `UniformDistr(1, 0)`, `ExponentialDistr(-1)` and `CauchyDistr(-1)` are accepted although their densities take negative values.
* `Pacal.Standard.C62_violated_both_poles` (`lean/Verif/Standard/PropsFun.lean`): When both poles are asked for on one piece, the left one is silently dropped.
* `Pacal.Standard.C62_violated_right_poles` (`lean/Verif/Standard/PropsFun.lean`): Right poles at two consecutive break points make the constructor fail (the test looks at `rpoles[i]` instead of `lpoles[i]`), although each of the two pieces has a single pole.
* `Pacal.Standard.C62_violated_infinite_pole` (`lean/Verif/Standard/PropsFun.lean`): A left pole at the start of the last, infinite piece is silently dropped.
* `Pacal.Standard.C62_violated_funDistr_poles` (`lean/Verif/Standard/PropsFun.lean`): `FunDistr` passes its pole arguments on to a constructor which does not know them: giving any of them raises.
* `Pacal.Standard.C48_finding_sampler_uniform` (`lean/Verif/Standard/PropsMix.lean`): **C48**, sampler: each of the `nmix` components is chosen with probability `1 / nmix`, whatever the weights.
* `Pacal.Standard.C48_violated_sampler` (`lean/Verif/Standard/PropsMix.lean`): **C48** fails for the sampler: for a mixture of the constants 0 and 1 with the weights 1/4 and 3/4, whose law puts 1/4 on 0, the sampler returns 0 with probability 1/2.
* `Pacal.Standard.C48_violated_close_atoms` (`lean/Verif/Standard/PropsMix.lean`): **C48** fails for components with atoms closer than the tolerance: all the mass goes to the first one.
* `Pacal.Standard.C63_violated_gumbel` (`lean/Verif/Standard/PropsRange.lean`): `GumbelDistr(0, 1)` has positive mass below 0, but its `range()` is `(0, inf)`.
* `Pacal.Standard.C63_violated_frechet` (`lean/Verif/Standard/PropsRange.lean`): `FrechetDistr(alpha, s, m)` with `m < 0` has positive mass below 0, but its `range()` is `(0, inf)` whatever `m`.
* `Pacal.Summary.C88_violated_gap` (`lean/Verif/Summary/PropsChar.lean`): `max_()` of a function that is `0` on `[0, 1]` and `5 - x` on `[2, 3]` returns the largest value 3 but the point 1, where the function is 0: the list of break points has one entry more than the list of values expects. All critical points (there are none) were found.
* `Pacal.Summary.C88_violated_atom` (`lean/Verif/Summary/PropsChar.lean`): with an atom there are more values than points: `max_()` of a density with the mass 1/4 at 0 and `1.5 * x` on `[0, 1]` is an `IndexError`, and the smallest of the listed values is attributed to the right end
* `Pacal.Summary.C88_violated_tail` (`lean/Verif/Summary/PropsChar.lean`): unbounded pieces are not differentiated: `max_()` of the density `x * exp(-x)` on `[0, inf]` is 0, found at 0
* `Pacal.Summary.C88_finding_exact` (`lean/Verif/Summary/PropsChar.lean`): In exact arithmetic the root finder works only if the derivative uses all of its nodes: `max_()` and `min_()` fail for every function one of whose bounded pieces is a polynomial that is interpolated with at least two nodes more than its degree needs (and at least three), for instance for every density with a constant piece.
* `Pacal.Summary.C75_violated_kl_support` (`lean/Verif/Summary/PropsInfo.lean`): **C75** fails where the second density is 0: the distance of `U(0, 2)` to `U(0, 1)` is computed as `-log 2`, a negative number; the divergence is infinite.
* `Pacal.Summary.C75_violated_kl_disjoint` (`lean/Verif/Summary/PropsInfo.lean`): **C75** fails for distributions on disjoint sets: the distance of `U(0, 1)` to `U(2, 3)` is computed as 0.
* `Pacal.Summary.C75_violated_kl_atoms` (`lean/Verif/Summary/PropsInfo.lean`): **C75** fails for an atom of the second distribution where the first has none: the distance of the constant 0 to a fair coin with values 0 and 1 is computed as 0 (it is `log 2`).
* `Pacal.Summary.C93_finding_zero` (`lean/Verif/Summary/PropsMgf.lean`): **C93, outside the range of X** the value is 0, whatever the distribution.
* `Pacal.Summary.C93_violated_outside` (`lean/Verif/Summary/PropsMgf.lean`): **C93 violated outside the range of X**: for the fair mixture of 0 and the uniform distribution on `[0, 1]`, `mgf()(2)` is 0 and `E exp(2X)` is `1/2 + (e² - 1)/4`. The function of `t` gets the break points of the density, a function of `x`.
* `Pacal.Summary.C93_violated_constant` (`lean/Verif/Summary/PropsMgf.lean`): **C93 violated by a constant**: `mgf()` of a constant `c` is an assertion error, since the density has one break point only.
* `Pacal.Summary.C73_violated_tail` (`lean/Verif/Summary/PropsMode.lean`): **C73 violated by a tail whose density starts late**: for the uniform density on [3/2, 5/2] given on the piece `[0, ∞)`, the search for the end of the tail stops at 1 because the density is 0 there; `mode()` is 0, where the density is 0, although the density is 1 at 2
* `Pacal.Summary.C73_violated_mixed` (`lean/Verif/Summary/PropsMode.lean`): **C73 violated for atoms together with a density**: with probability 9/10 the value is exactly 0, and the rest is uniform on [1, 1.05]; the mode reported lies in [1, 1.05], because the density 2 is compared with the probability 9/10
* `Pacal.Summary.C73_violated_max_abs` (`lean/Verif/Summary/PropsMode.lean`): **C73 violated for `max_abs`**: the largest absolute value of the constant function -1 is reported as -1
* `Pacal.Symbolic.C104_violated_abs` (`lean/Verif/Symbolic/Props.lean`): Disagreement: `abs(X)` of a random variable without distribution fails for every variable, because the constructor calls the misspelt method `getSymame` (rv.py:413).
* `Pacal.Symbolic.C104_violated_log` (`lean/Verif/Symbolic/Props.lean`): Disagreement: `log(X)`, `X ** 3`, `X ** 0.5` and `X ** Y` of a random variable without distribution fail with `AttributeError` unless `X` was made by `exp`, because `LogRV` calls `is_nonneg`, which no other class of rv.py has (rv.py:365-372).
* `Pacal.Symbolic.C104_violated_parents` (`lean/Verif/Symbolic/Props.lean`): Disagreement: the parents of `sqrt(X)` are a list that contains a list, and those of `sign(X)` are not a list, so asking for the variables behind them fails (rv.py:402, 423).
* `Pacal.Symbolic.C104_violated_functions` (`lean/Verif/Symbolic/Props.lean`): Disagreement: `sin`, `cos` and `tan` do not accept random variables without distribution; `sigmoid` accepts neither them nor numbers, because it uses a name that is not defined (distr.py:792-797).
* `Pacal.Symbolic.C104_violated_minMax` (`lean/Verif/Symbolic/Props.lean`): Disagreement: `min` and `max` of a random variable without distribution and a number fail, although they work for variables with a distribution (rv.py:548-549, distr.py:1196-1199).
* `Pacal.Symbolic.C104_violated_zeroPow` (`lean/Verif/Symbolic/Props.lean`): Disagreement: `0 ** X` is the number 0 and `X * 0`, `0 / X` are, whatever `X` is; in particular `0 ** X` is 0 where `X` is 0 although `0 ** 0` is 1 (rv.py:283-284).
* `Pacal.Tail.C77_finding_never_inf` (`lean/Verif/Tail/Props.lean`): **C77, finding.** A tail that does not increase is never reported with the exponent `np.inf`, however fast it decreases: the comparison `ex > 50` (utils.py:489) looks for growth, while decreasing tails have negative exponents.
* `Pacal.Tail.C77_violated_light_tail` (`lean/Verif/Tail/Props.lean`): **C77, violated.** The exponential density decreases faster than any power, but the reported right exponent is a finite number.
* `Pacal.Tail.C78_violated_cube` (`lean/Verif/Tail/Props.lean`): **C78, violated.** The cube, a polynomial, is reported as having a pole at 0 (on both sides) with the default settings: the last case `deg > 2` (utils.py:298) has no exception for integers.
* `Pacal.C57_violated_wide_infinite` (`lean/Verif/Transform/PropsFront.lean`): **C57** does not hold for infinite ends of a "wide" interval: they are replaced by `∓1e100`.
* `Pacal.C57_violated_segint_line` (`lean/Verif/Transform/PropsFront.lean`): **C57** does not hold on the whole line: the code raises `TypeError`.
* `Pacal.TwoVars.C66_violated_atoms` (`lean/Verif/TwoVars/Props.lean`): **C66 violated by atoms.** When the first pair of pieces contains an atom, `UnboundLocalError` is raised (adding the constant 1 to a uniform variable); after a pair without atoms, the integral of that pair is counted a second time.
* `Pacal.TwoVars.C66_violated_zero` (`lean/Verif/TwoVars/Props.lean`): **C66 violated for products with a piece that starts at 0**: for `X` uniform on `[0, 1]` and `Y` on `[1, 2]` the code compares with `None` (`TypeError`); for `X` on `[1, 2]` and `Y` on `[0, 1]` the equation `z / x = 0` has no first solution (`IndexError`).
* `Pacal.TwoVars.C66_violated_pole` (`lean/Verif/TwoVars/Props.lean`): **C66 violated by an operation with a pole**: for two resistors in parallel, `x y / (x + y)`, one between 1 and 2, the other between 1/10 and 2 in two pieces divided at 4/5, the density at 1/2 comes out too large: sympy's intersection of the curve with the line `y = 1/10` lies on the other branch of the hyperbola, so the first pair is integrated over all of `(1, 2)` instead of `(4/3, 2)`, and `(1, 4/3)` is counted again for the second pair.
* `Pacal.C37_violated_small_limit` (`lean/Verif/Util/PropsAdaptive.lean`): **C37 violated for small node limits**: with a node limit below 129 the integrator raises `IndexError` instead of returning an estimate.
* `Pacal.C37_finding_interpolate_limit` (`lean/Verif/Util/PropsAdaptive.lean`): With a node limit below the initial number of nodes the variable `err` is never assigned.
* `Pacal.C17_violated_chain` (`lean/Verif/Util/PropsBreaks.lean`): **C17 violated by `epsunique`**: a chain of points, each within tolerance of its predecessor, collapses to its first point, however far the last one is. With tolerance 1/10 the points 0, 1/10, …, 5/10 collapse to 0.
* `Pacal.C45_finding_par_map` (`lean/Verif/Util/PropsParallel.lean`): Finding: `par_map` does not create the pool; without one, long lists raise `AttributeError`.
* `Pacal.C38_violated_decreasing` (`lean/Verif/Util/PropsRoots.lean`): **C38 violated for decreasing functions**: `findinv_pinf(fun, a, c, increasing=False)` stops expanding when `fn b ≥ c`, which for a decreasing function means that the bracket has no sign change: for `fn x = 10 - x`, `a = 0`, `c = 1` the finder gets the bracket [0, 1], and `bisect` raises.

## Trusted base

* Lean 4.33.0 kernel, and the axioms `propext`, `Classical.choice`, `Quot.sound` only.
* The reading of the Python source into the definitions (each definition cites file and lines).
* Real/ordered-field arithmetic instead of IEEE doubles: rounding, overflow and NaN are not modelled
  unless a definition says so.
* External calls are parameters with the assumed behaviour stated as a hypothesis of the theorem:
  - the base quadrature on a finite interval (`Transform.Exact q`: it returns the Mathlib integral of every
    integrable function); `ExactQ` adds that the sliver of one machine epsilon left out at a pole is neglected
    (`eps = 0`) and that the exponents of the substitutions are positive;
  - `scipy.optimize.fminbound` (returns a minimum of a function with one valley on a bounded interval), `numpy.nan_to_num`;
  - `scipy.optimize.brentq` (returns a root of a continuous function with a sign change), `numpy.isfinite`;
  - `numpy.fft.fft`, `numpy.fft.ifft` (the documented formulas, C64 and C65), `numpy.linalg.eigvals` (the eigenvalues, C65);
  - `multiprocessing.Pool.map`: modelled as the standard library implements it (chunks, arbitrary completion order);
  - `lgamma` in the standard densities (equal to the logarithm of the Gamma function on positive reals), `exp`, `log`,
    powers and square roots (the real functions);
  - functions of one real variable applied to samples or nodes (pure, total).
* Interpolation is taken as exact where a property speaks about densities (the interpolation rules themselves are C39-C41).

## Not modelled

Plotting, printing, timing, `bindings/PacalServer.py` (an eval/exec wrapper around the API), `tests/`, `examples/`,
the string/symbol naming of variables.
