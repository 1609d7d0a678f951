{"id": "C01", "title": "Lazy lookup semantics", "statement": "Reading an index of a lazy vector or matrix returns the explicitly set value if there is one, and otherwise the result of the oldest applicable rule, with rules for both indices tried before left rules and left rules before right rules; if nothing applies a RuntimeError is raised. Reading the same index again returns the same value, whatever other indices are read in between.", "quantifier": "every history of assignments, rule additions and reads, every index", "why_tests_cant": "Rule priority and caching only show up in particular interleavings of reads and additions; there are unboundedly many histories.", "anchors": ["stheno/lazy.py:LazyTensor", "stheno/lazy.py:LazyVector", "stheno/lazy.py:LazyMatrix"]}
{"id": "C02", "title": "Every pair of processes in a measure has a covariance", "statement": "For any model built with the public API, `measure.means[p]` and `measure.kernels[p, q]` return (terminate without error) for all processes p and q that are attached to the measure and whose measure was not conditioned on a foreign process.", "quantifier": "every sequence of public API calls and every pair of attached processes", "why_tests_cant": "Lookups recurse through rules of arbitrarily many derived processes and stacked posteriors; tests cover only small graphs.", "anchors": ["stheno/model/measure.py:Measure._update", "stheno/model/measure.py:Measure.condition", "stheno/lazy.py:LazyMatrix._build"]}
{"id": "C03", "title": "Foreign processes are rejected", "statement": "Looking up the mean of, or a covariance with, a process that is not attached to the measure raises a RuntimeError and leaves the definitions, names, and measure groups of every measure unchanged.", "quantifier": "every reachable model, every process not attached to the measure", "why_tests_cant": "The absence of any rule that accidentally matches has to hold for every graph.", "anchors": ["stheno/lazy.py:LazyVector._build", "stheno/lazy.py:LazyMatrix._build", "stheno/model/measure.py:Measure._update"]}
{"id": "C04", "title": "Results do not depend on lookup order or caching", "statement": "Interleaving any number of reads of means and kernels with the construction of a model, in any order, changes neither the mean nor the kernel later returned for any process or pair, in any measure.", "quantifier": "every program and every interleaving of additional reads", "why_tests_cant": "Caches are filled by reads, and rules close over mutable measure state; the number of interleavings is unbounded.", "anchors": ["stheno/lazy.py:LazyTensor.__getitem__", "stheno/model/measure.py:Measure._update"]}
{"id": "C05", "title": "Extending a model never changes what is already there", "statement": "Once a process is attached to a measure, its mean, its kernel and its covariance with any other attached process stay the same forever: creating further processes, deriving, conditioning, naming or entering contexts never changes them.", "quantifier": "every reachable model and every continuation of the program", "why_tests_cant": "Requires a statement about all continuations; tests can only run a few.", "anchors": ["stheno/model/measure.py:Measure._update", "stheno/model/measure.py:Measure.condition"]}
{"id": "C06", "title": "Means are expectations", "statement": "If every process is read as the random function the user wrote (sum of the arguments, shifted argument, concatenation for cross, ...), then evaluating `measure.means[p](x)` gives exactly the vector of expectations of p at x under that measure, for derived processes of any depth, for posterior measures, and for single and multi-output inputs.", "quantifier": "every model, every process, every input, every collection of random variables satisfying the user's equations", "why_tests_cant": "Depth of derivation, number of measures and inputs are unbounded.", "anchors": ["stheno/model/measure.py:Measure", "stheno/mo/mean.py:MultiOutputMean", "stheno/model/observations.py:Observations.posterior_mean"]}
{"id": "C07", "title": "Kernels are covariances", "statement": "Under the same reading, evaluating `measure.kernels[p, q](x, y)` gives exactly the matrix of covariances between p at x and q at y under that measure, for derived processes of any depth, for stacked posterior measures, and for multi-output processes and inputs, whenever the result has the shape of that matrix.", "quantifier": "every model, every pair of processes, every pair of inputs, every collection of random variables satisfying the user's equations", "why_tests_cant": "Depth of derivation, number of measures and inputs are unbounded.", "anchors": ["stheno/model/measure.py:Measure", "stheno/mo/kernel.py:MultiOutputKernel", "stheno/model/observations.py:Observations.posterior_kernel"]}
{"id": "C08", "title": "Cross-covariances are symmetric", "statement": "`measure.kernels[p, q](x, y)` is the transpose of `measure.kernels[q, p](y, x)`.", "quantifier": "every model, pair of processes and inputs", "why_tests_cant": "Left and right rules are separate code paths combined in arbitrarily deep graphs.", "anchors": ["stheno/model/measure.py:Measure._update", "stheno/lazy.py:LazyMatrix.add_right_rule"]}
{"id": "C09", "title": "New GPs are independent of everything before them", "statement": "A GP created from a mean and kernel has zero covariance with every process already in its measure, and with every process derived from those alone, in that measure.", "quantifier": "every model, every earlier process, all inputs", "why_tests_cant": "Has to hold against every earlier process of every graph.", "anchors": ["stheno/model/measure.py:Measure.add_independent_gp"]}
{"id": "C10", "title": "Linear operations act linearly on joint distributions", "statement": "`p + q`, `c * p`, `f * p`, `p - q`, `p / c`, `-p`, `p + c`, `p + f` have the mean and the covariance, jointly with every other process, of the pointwise sum, scaling, product with a function and translation, in every measure that contains the operands; in particular `p - p` has zero variance.", "quantifier": "every model, operands, scalars, functions and inputs", "why_tests_cant": "Joint covariance with all other processes in all measures is an unbounded claim.", "anchors": ["stheno/model/measure.py:Measure.sum", "stheno/model/measure.py:Measure.mul", "stheno/model/gp.py:GP.__add__", "stheno/random.py:Random"]}
{"id": "C11", "title": "Input transformations act on the argument only", "statement": "`p.shift(s)`, `p.stretch(s)`, `p.select(dims)`, `p.transform(f)` have the joint distribution of x -> p(x - s), p(x / s), p(x[dims]), p(f(x)): the covariance of the result with any other process q transforms only the first argument.", "quantifier": "every model, amounts, transforms, other processes and inputs", "why_tests_cant": "Neutral second arguments (0, 1, None) must be right in combination with every other operation.", "anchors": ["stheno/model/measure.py:Measure.shift", "stheno/model/measure.py:Measure.stretch", "stheno/model/measure.py:Measure.select", "stheno/model/measure.py:Measure.transform"]}
{"id": "C12", "title": "Derivatives", "statement": "`p.diff(d)` has the joint distribution of the mean-square partial derivative of p with respect to feature d: its mean, kernel and covariance with other processes are the corresponding derivatives of mean and kernels.", "quantifier": "every model, feature index, other processes, and points where the derivative exists", "why_tests_cant": "A limit statement over all inputs.", "anchors": ["stheno/model/measure.py:Measure.diff", "stheno/model/gp.py:GP.diff"]}
{"id": "C13", "title": "Finite-difference approximation", "statement": "`p.diff_approx(deriv, order)` is the linear combination of shifted copies of p with the finite-difference weights, exactly, and jointly with all other processes; if the weights satisfy the order conditions it is exact on polynomial processes of degree below the order.", "quantifier": "every model, derivative, order and process", "why_tests_cant": "All orders and grid points.", "anchors": ["stheno/model/gp.py:GP.diff_approx"]}
{"id": "C14", "title": "Products are moment matched", "statement": "`p * q` has, for jointly Gaussian p and q, exactly the covariance of the pointwise product and exactly its covariance with every process already in the measure; its mean is the product of the means.", "quantifier": "every model, every pair of Gaussian processes (correlated or not), every other earlier process, all inputs", "why_tests_cant": "Fourth-moment identity over all Gaussian laws.", "anchors": ["stheno/model/measure.py:Measure.mul"]}
{"id": "C15", "title": "Cross is concatenation", "statement": "`cross(p1, ..., pn)` evaluated at x has mean and covariance of the concatenation of p1(x), ..., pn(x); evaluated at a tuple of finite-dimensional distributions it is the concatenation of those.", "quantifier": "every model, any number of processes, nested crosses, all inputs", "why_tests_cant": "Arbitrary nesting and number of outputs.", "anchors": ["stheno/model/measure.py:Measure.cross", "stheno/mo/kernel.py", "stheno/mo/mean.py", "stheno/mo/input.py"]}
{"id": "C16", "title": "Conditioning leaves the prior alone", "statement": "Conditioning a measure (also through `p | ...`, with any number of observations) does not change any mean, kernel, name or process of the prior measure or of any other existing measure.", "quantifier": "every model, every observation, every existing measure", "why_tests_cant": "Processes are shared by reference between prior and posterior, so aliasing must be excluded for all graphs.", "anchors": ["stheno/model/measure.py:Measure.condition", "stheno/model/gp.py:GP.condition"]}
{"id": "C17", "title": "Posterior is the Gaussian conditional", "statement": "For jointly Gaussian processes and independent Gaussian observation noise, posterior mean and posterior kernel evaluate to the conditional expectation and conditional covariance given the noisy observations.", "quantifier": "every model, observation, noise covariance with invertible observation covariance, all inputs", "why_tests_cant": "Probabilistic statement over all Gaussian laws.", "anchors": ["stheno/model/observations.py:Observations.posterior_kernel", "stheno/model/observations.py:Observations.posterior_mean"]}
{"id": "C18", "title": "Sequential conditioning equals joint conditioning", "statement": "Conditioning first on one observation and then conditioning the posterior on another gives the same means and kernels as conditioning once on both.", "quantifier": "every model, every two observations with invertible joint observation covariance, all processes and inputs", "why_tests_cant": "Block-matrix identity for all sizes.", "anchors": ["stheno/model/measure.py:Measure.condition", "stheno/model/observations.py:combine"]}
{"id": "C19", "title": "Order of observations does not matter", "statement": "Permuting the pairs passed to `condition` (or `Obs`) does not change the means and kernels of the posterior.", "quantifier": "every model, every list of pairs, every permutation", "why_tests_cant": "All permutations of lists of any length.", "anchors": ["stheno/model/observations.py:combine", "stheno/model/observations.py:AbstractObservations.__init__"]}
{"id": "C20", "title": "Noise-free observations are reproduced", "statement": "After conditioning on noise-free observations with invertible covariance, the posterior mean at the observed inputs equals the data and the posterior variance there is zero.", "quantifier": "every model, observed process, inputs and data", "why_tests_cant": "All sizes and kernels.", "anchors": ["stheno/model/observations.py:Observations"]}
{"id": "C21", "title": "Conditioning never increases variance", "statement": "The posterior variance of any process at any input is at most its prior variance, and the posterior covariance matrix of any finite set of values is positive semi-definite whenever the prior one is.", "quantifier": "every model, observation, process and finite set of inputs", "why_tests_cant": "Positive-semidefiniteness over all matrices.", "anchors": ["stheno/model/observations.py:Observations.posterior_kernel"]}
{"id": "C22", "title": "Conditioning on nothing", "statement": "Conditioning on zero observations returns exactly the prior mean and kernel objects.", "quantifier": "every model, process pair and observation with empty input", "why_tests_cant": "Must hold for each pair in each graph, including non-invertible empty matrices.", "anchors": ["stheno/model/observations.py:Observations.posterior_kernel", "stheno/model/observations.py:Observations.posterior_mean"]}
{"id": "C23", "title": "Deriving and conditioning commute", "statement": "Deriving a process before conditioning and looking it up in the posterior, or deriving the same process from the posterior processes, gives the same mean and covariances.", "quantifier": "every model, linear derivation and observation", "why_tests_cant": "Two code paths (rules in the prior vs rules in the posterior) must agree on all graphs.", "anchors": ["stheno/model/measure.py:Measure.condition", "stheno/model/measure.py:Measure._update"]}
{"id": "C24", "title": "All conditioning notations agree", "statement": "`m | (fdd, y)`, `m.condition(fdd, y)`, `m.condition((fdd, y))`, `m.condition((fdd, y), ...)` with one pair, and `m | Obs(fdd, y)` give posteriors with equal means and kernels; `p | ...` equals looking up p in the posterior of its measure.", "quantifier": "every model, fdd, data and process", "why_tests_cant": "The overloads construct different graphs (a cross process or none).", "anchors": ["stheno/model/measure.py:Measure.condition", "stheno/model/gp.py:GP.condition", "stheno/model/observations.py:AbstractObservations"]}
{"id": "C25", "title": "Missing data are ignored", "statement": "Observations containing NaNs give the same posterior as observations of only the available entries, also for observations of several processes at once.", "quantifier": "every model, data vector and pattern of missing entries", "why_tests_cant": "Exponentially many masks over all sizes and nestings.", "anchors": ["stheno/model/observations.py:AbstractObservations.__init__", "stheno/model/fdd.py:take"]}
{"id": "C26", "title": "Taking a subset commutes with mean and variance", "statement": "`B.take(fdd, mask)` has the mean and variance obtained by selecting the masked entries of the mean, variance and noise of fdd, for nested tuples of inputs.", "quantifier": "every fdd of single-output processes (nested tuples, fdds of fdds), every mask", "why_tests_cant": "Masks and nesting are unbounded.", "anchors": ["stheno/model/fdd.py:take", "stheno/model/fdd.py:_take_x", "stheno/mo/kernel.py:_take_x"]}
{"id": "C27", "title": "Inferred sizes are right", "statement": "The size used to build the noise matrix of `p(x, noise)` equals the number of rows of the mean and variance of p at x, for single-output processes and cross processes of single-output processes.", "quantifier": "every process and input", "why_tests_cant": "Dimensionality is inferred symbolically over all kernel expressions and nested inputs.", "anchors": ["stheno/mo/infer.py:infer_size", "stheno/mo/infer.py:dimensionality", "stheno/model/fdd.py:FDD.__init__"]}
{"id": "C28", "title": "Element-wise evaluation is the diagonal", "statement": "Element-wise evaluation of a kernel at x equals the diagonal of its kernel matrix at x, hence `fdd.var_diag` is the diagonal of `fdd.var` and marginals computed through either path agree.", "quantifier": "every kernel expression reachable in a model, every input", "why_tests_cant": "Two separately written recursive evaluators have to agree on all expressions.", "anchors": ["stheno/mo/kernel.py:elwise", "stheno/mo/input.py:elwise", "stheno/model/fdd.py:FDD"]}
{"id": "C29", "title": "Joint samples are split correctly", "statement": "`measure.sample(n, fdd1, ..., fddk)` returns, for each fdd of a single-output process, exactly the rows of the joint sample that belong to that fdd; together they are the whole joint sample.", "quantifier": "every list of fdds and every joint sample", "why_tests_cant": "All numbers and sizes of fdds.", "anchors": ["stheno/model/measure.py:Measure.sample", "stheno/mo/infer.py:num_elements"]}
{"id": "C30", "title": "Names are a one-to-one dictionary", "statement": "In each measure, names and named processes are in one-to-one correspondence at all times: `measure[name]` returns the process whose name is `name`, a name that is taken is refused, and renaming frees the old name.", "quantifier": "every history of naming calls, including failing ones", "why_tests_cant": "Failing calls in the middle of a history may leave half-updated dictionaries.", "anchors": ["stheno/model/measure.py:Measure.name", "stheno/model/gp.py:GP.name", "stheno/model/measure.py:Measure.__getitem__"]}
{"id": "C31", "title": "Default measure contexts nest", "statement": "Leaving a `with measure:` block restores the default measure from before the block, for properly nested blocks over distinct measures; inside the block GPs are created in the innermost measure.", "quantifier": "every nesting of context blocks", "why_tests_cant": "All nestings, including re-entrance.", "anchors": ["stheno/model/measure.py:Measure.__enter__", "stheno/model/measure.py:Measure.__exit__", "stheno/model/gp.py:GP.__init__"]}
{"id": "C32", "title": "Measure groups are consistent", "statement": "A process lists a measure among its measures if and only if the measure lists the process, without duplicates; combining two processes from different primary measures raises an AssertionError without changing any measure; and the result of combining two processes is attached to exactly the measures that contain both.", "quantifier": "every reachable model, every pair of processes, every iteration order of Python sets", "why_tests_cant": "Invariant over all histories and all hash orders.", "anchors": ["stheno/model/gp.py:assert_same_measure", "stheno/model/gp.py:intersection_measure_group", "stheno/model/measure.py:Measure._add_p", "stheno/model/measure.py:Measure.condition"]}
{"id": "C33", "title": "Copies are interchangeable with the original", "statement": "`measure(p)` has the mean of p in that measure, and the same covariance as p with every process, including p itself and other copies.", "quantifier": "every model, measure, process and inputs", "why_tests_cant": "Covariance with every other process, present and future.", "anchors": ["stheno/model/measure.py:Measure.__call__"]}
{"id": "C34", "title": "Lazy normals do not depend on access order", "statement": "The mean, variance and marginal variances represented by a (lazily constructed) Normal do not depend on which of its attributes and methods were used before, and each constructor function is called at most once.", "quantifier": "every sequence of attribute accesses and method calls", "why_tests_cant": "Unboundedly many access histories.", "anchors": ["stheno/random.py:Normal", "stheno/model/fdd.py:FDD"]}
{"id": "C35", "title": "Marginals and credible bounds", "statement": "Marginal variances are non-negative and equal the variance diagonal whenever that is non-negative; the credible bounds satisfy lower <= mean <= upper, are symmetric around the mean, and grow with the variance. A Gaussian variable is between the bounds with probability 95% (at least 0.95, at most 0.95001), and as likely below as above; the same holds for values of processes given what is observed.", "quantifier": "every normal; every program and every observation", "why_tests_cant": "All means and variances.", "anchors": ["stheno/random.py:Normal.marginals", "stheno/random.py:Normal.marginal_credible_bounds"]}
{"id": "C36", "title": "Log-density of missing data is the marginal log-density", "statement": "`logpdf` of a single column with NaNs equals `logpdf` of the available entries under the sub-normal; with nothing missing it is the Gaussian log-density.", "quantifier": "every normal, every data column, every pattern of NaNs", "why_tests_cant": "All masks.", "anchors": ["stheno/random.py:Normal.logpdf"]}
{"id": "C37", "title": "Chain rule of log-densities", "statement": "`measure.logpdf((f1, y1), (f2, y2))` equals `measure.logpdf(f1, y1)` plus the log-density of y2 under the posterior given (f1, y1).", "quantifier": "every model and pair of observations with invertible covariances", "why_tests_cant": "Determinant and Schur complement identity for all sizes.", "anchors": ["stheno/model/measure.py:Measure.logpdf", "stheno/random.py:Normal.logpdf", "stheno/model/measure.py:Measure.condition"]}
{"id": "C38", "title": "Arithmetic on normals is arithmetic on random vectors", "statement": "Sums of independent normals, adding constants, scaling, negation, subtraction, division and left and right matrix multiplication give the mean and covariance of the corresponding transformation of random vectors.", "quantifier": "every normal, constant and matrix", "why_tests_cant": "All sizes.", "anchors": ["stheno/random.py:Normal.__add__", "stheno/random.py:Normal.__mul__", "stheno/random.py:Normal.lmatmul", "stheno/random.py:Normal.rmatmul", "stheno/random.py:Random"]}
{"id": "C39", "title": "Divergences", "statement": "`kl(p, q)` is non-negative, is zero if and only if the two normals have equal mean and variance; `w2(p, q)` is zero for equal normals and symmetric; `entropy` is the expected negative log-density.", "quantifier": "every pair of normals with positive-definite variance", "why_tests_cant": "Inequality over all positive-definite matrices.", "anchors": ["stheno/random.py:Normal.kl", "stheno/random.py:Normal.w2", "stheno/random.py:Normal.entropy"]}
{"id": "C40", "title": "Inducing points at the data are exact", "statement": "Pseudo-point posteriors (VFE, FITC, DTC) whose inducing points are the observed process at the observed inputs equal the exact posterior, and the ELBO equals the log marginal likelihood.", "quantifier": "every model and observation with diagonal noise and invertible covariance", "why_tests_cant": "Matrix identity for all sizes.", "anchors": ["stheno/model/observations.py:AbstractPseudoObservations._compute", "stheno/model/observations.py:PseudoObservations", "stheno/model/observations.py:PseudoObservationsFITC", "stheno/model/observations.py:PseudoObservationsDTC"]}
{"id": "C41", "title": "The ELBO is a lower bound", "statement": "For VFE, `PseudoObs(...).elbo(measure)` is at most the exact log marginal likelihood of the data, for any inducing points.", "quantifier": "every model, every set of inducing points, data and diagonal noise", "why_tests_cant": "Inequality over all matrices.", "anchors": ["stheno/model/observations.py:AbstractPseudoObservations._compute", "stheno/model/observations.py:AbstractPseudoObservations.elbo"]}
{"id": "C42", "title": "Cached observation quantities are never stale", "statement": "`Obs.K_x(measure)` and `PseudoObs.K_z/mu/A/elbo(measure)` return, on every call and however the measure was extended in between, the value a fresh object would compute; values for different measures are not mixed up.", "quantifier": "every sequence of calls with any measures, interleaved with any model extension", "why_tests_cant": "Caches are keyed by object identity and survive arbitrary histories.", "anchors": ["stheno/model/observations.py:Observations.K_x", "stheno/model/observations.py:AbstractPseudoObservations"]}
{"id": "C43", "title": "User-supplied rules", "statement": "`measure.add_gp(mean, kernel, left_rule, right_rule)` adds a process with the given mean, kernel and left rule, and whose covariance with earlier processes in the other direction is given by right_rule, or by reversing the left rule if none is given.", "quantifier": "every model, mean, kernel, rules and other process", "why_tests_cant": "Rules are arbitrary functions.", "anchors": ["stheno/model/measure.py:Measure.add_gp"]}
{"id": "C44", "title": "Samples have the right distribution", "statement": "`fdd.sample` and `Normal.sample` return mean plus a draw with covariance var (plus the additional noise), also when the mean is skipped because it is known to be zero.", "quantifier": "every normal, noise level and number of samples", "why_tests_cant": "Distributional statement.", "anchors": ["stheno/random.py:Normal.sample"]}
{"id": "C45", "title": "Nothing the measure knows is out of reach or dangling", "statement": "Every process id that occurs in the tables or rules of a measure belongs to a process the measure keeps alive, so identity keys can never be reused for another process.", "quantifier": "every reachable model", "why_tests_cant": "Object lifetimes over all histories.", "anchors": ["stheno/lazy.py:_resolve_index", "stheno/model/measure.py:Measure._add_p"]}
{"id": "C46", "title": "Posterior measures can be conditioned and extended again", "statement": "All properties of means and kernels hold for stacks of posteriors of any height, with new processes added at any level.", "quantifier": "every tree of measures", "why_tests_cant": "Unbounded stacking.", "anchors": ["stheno/model/measure.py:Measure.condition", "stheno/model/gp.py:GP"]}
{"id": "C47", "title": "Stationary means stationary", "statement": "If `p.stationary` is true and the kernels that the user calls stationary are, then the kernel of p, and its elwise, do not change when both inputs are moved by the same amount, so all values have the same variance. Multiples, sums with functions, shifts, stretches and selections keep the attribute; derivatives, products with functions, other input transformations and conditioning lose it; a sum has it iff all four kernels involved have it.", "quantifier": "every program, measure, process, input and translation", "why_tests_cant": "All inputs and translations, for every way of building a process.", "anchors": ["stheno/model/gp.py:GP.stationary", "stheno/mo/adk.py:AmbiguousDimensionalityKernel._stationary"]}
{"id": "C48", "title": "Noise arguments mean what they say", "statement": "`p(x, noise)` is the distribution of `p(x)` plus independent Gaussian noise: none for `None`, of variance c in every entry for a number c, with the given variances for a vector, and with the given covariances for a matrix. Noise of the wrong size makes the variance raise.", "quantifier": "every process, every input, every noise argument, every probability space", "why_tests_cant": "Distributional statement for all sizes and kernels.", "anchors": ["stheno/model/fdd.py:_noise_as_matrix", "stheno/model/fdd.py:FDD.__init__"]}
{"id": "C49", "title": "The approximating distribution is optimal", "statement": "For VFE, `elbo` is the largest value of the variational objective (expected log-likelihood of the data less the divergence from the prior) over all distributions of the inducing variables, normal or not, and it is attained only by the normal with mean `mu` and variance K_z A^-1 K_z. Without noise on the inducing points, this is the distribution that the posterior gives to the inducing variables.", "quantifier": "every program, measure, choice of inducing points and data, and every distribution of the inducing variables", "why_tests_cant": "Optimality among all distributions.", "anchors": ["stheno/model/observations.py:AbstractPseudoObservations._compute", "stheno/model/observations.py:AbstractPseudoObservations.mu", "stheno/model/observations.py:AbstractPseudoObservations.elbo", "stheno/model/observations.py:AbstractPseudoObservations.posterior_kernel"]}
{"id": "C50", "title": "Sparse posteriors are exact posteriors in an approximate model", "statement": "The posterior given pseudo-observations is the conditional distribution of the processes given data that are predicted linearly from the inducing variables, with independent noise: the noise of the observations for VFE and DTC, and for FITC in addition the variance that the inducing variables do not explain. Hence it is a genuine Gaussian process, whose variances are at most those of the prior.", "quantifier": "every program, measure, method, choice of inducing points, data, and finite set of values", "why_tests_cant": "Distributional statement.", "anchors": ["stheno/model/observations.py:AbstractPseudoObservations.posterior_kernel", "stheno/model/observations.py:AbstractPseudoObservations.posterior_mean", "stheno/model/observations.py:AbstractPseudoObservations._compute"]}
{"id": "C51", "title": "Expressions mean what they say", "statement": "The value of a Python expression of numbers, functions and processes, with +, -, *, /, unary minus, shift, stretch, select and transform in any nesting, is the process that the expression says: its mean is the expression in the means, and its covariances are what bilinearity says. It is in exactly the measures that all processes in the expression are in. Expressions that are equal by the rules of arithmetic give the same process. Evaluation returns if the kinds of the operands fit, nothing is divided by zero and the processes share their measures; subtracting a function from a process raises a TypeError although adding one does not.", "quantifier": "every expression, every program before it, every measure, every input", "why_tests_cant": "All nestings of operators, also in posteriors and with conditioning in between.", "anchors": ["stheno/random.py:Random", "stheno/model/gp.py:GP.__add__", "stheno/model/gp.py:GP.__mul__", "stheno/model/gp.py:GP.shift", "stheno/model/gp.py:GP.stretch", "stheno/model/gp.py:GP.select", "stheno/model/gp.py:GP.transform"]}
{"id": "C52", "title": "Means and kernels can be numbers and functions", "statement": "A number given as the mean of a new process is its mean at all inputs, and a function is its mean. A number given as the kernel is its covariance at all pairs of inputs, and for a function f the covariance at x and y is f(x) f(y). GP(mean, kernel) and GP(kernel) + mean have the same mean and kernel. A negative number is accepted as a kernel and gives a negative variance.", "quantifier": "every program, number, function and input", "why_tests_cant": "All functions and all programs before and after.", "anchors": ["stheno/model/gp.py:GP.__init__"]}
{"id": "C53", "title": "Relations that hold almost surely are kept", "statement": "If a linear combination of values of processes has no variance, then it has no covariance with anything, and in all measures made by conditioning, exactly or with pseudo-observations, it has the same mean and still no covariance with anything. In particular GP(c) is a random constant and GP(f) a random multiple of f in all measures they are in.", "quantifier": "every regular program, every finite set of values with any coefficients, every stack of posteriors", "why_tests_cant": "All linear relations, all observations, stacks of any height.", "anchors": ["stheno/model/observations.py:Observations.posterior_kernel", "stheno/model/observations.py:Observations.posterior_mean", "stheno/model/observations.py:AbstractPseudoObservations.posterior_kernel", "stheno/model/measure.py:Measure.condition", "stheno/model/gp.py:GP.__init__"]}
{"id": "C54", "title": "Jitter is noise, and more noise is more variance", "statement": "The number that is added to the diagonal of a dense matrix before it is factored is, in posteriors with exact observations, the same as additional independent noise of the observations: calls of means and kernels return the same in both. With any such jitter all calls return, also where observations have no noise or determine each other; without it they may raise. If observations are made with more noise, or with more jitter, no variance of a process or of a linear combination of its values in any posterior gets smaller. As the jitter goes to zero, means, covariances and log-densities go to those without jitter. In log-densities and samples, also if data are missing, the jitter is additional noise too; the log-density of several FDDs is, with any jitter, exactly the sum given by the chain rule.", "quantifier": "every program, jitter, process, measure and input; every stack of posteriors", "why_tests_cant": "All programs and all positive jitters, and a limit.", "anchors": ["stheno/model/observations.py:Observations.posterior_kernel", "stheno/model/observations.py:Observations.posterior_mean", "stheno/model/measure.py:Measure.condition", "stheno/random.py:Normal.logpdf", "stheno/random.py:Normal.sample"]}
{"id": "C55", "title": "More inducing points never make the bound worse", "statement": "For the VFE approximation, m.logpdf(PseudoObs(us', data)) is at least m.logpdf(PseudoObs(us, data)) if the inducing points us, with their noise, are among us', whatever their order and whatever the notation with which the objects are made. If the data are among the inducing points, the bound is the log-density of the data.", "quantifier": "every regular program, every set of inducing points of any processes, every data set with diagonal noise, every history of calls", "why_tests_cant": "All programs and all sets of inducing points.", "anchors": ["stheno/model/observations.py:AbstractPseudoObservations._compute", "stheno/model/observations.py:AbstractPseudoObservations.elbo", "stheno/model/measure.py:Measure.logpdf"]}
{"id": "C56", "title": "Posterior covariances do not depend on the observed values, and means are affine in them", "statement": "Take two programs that do the same things, and condition on observations of the same processes at the same inputs with the same noise, but of different values. Then all kernels return the same in both, also elementwise. If a third program observes everywhere t times the values of the first plus 1 - t times the values of the second, then its means are t times those of the first plus 1 - t times those of the second. If the values that are observed are the mean, then the means of the posterior are those of the prior. For products of processes covariances do depend on the values that are observed, because moment matching reads means.", "quantifier": "every program without products of two processes, every set of values for every exact or approximate observation, every real t, every measure, pair of processes and inputs", "why_tests_cant": "All programs and all data sets.", "anchors": ["stheno/model/observations.py:Observations.posterior_mean", "stheno/model/observations.py:Observations.posterior_kernel", "stheno/model/observations.py:AbstractPseudoObservations.posterior_kernel", "stheno/model/observations.py:AbstractPseudoObservations.posterior_mean"]}
{"id": "C57", "title": "Posterior means are the best predictions", "statement": "If the process is drawn from the prior and observed with independent noise, then the expected squared error of predicting any of its values by the posterior mean is the posterior variance, and no other function of the observations has a smaller expected squared error; only functions that are almost surely equal to the posterior mean have the same. On average over the observations, posterior means are prior means, and the covariance of posterior means plus the posterior covariance is the prior covariance.", "quantifier": "every model and observation with positive-definite observation covariance, every Gaussian process with the means and covariances of the measure, every measurable function of the observations", "why_tests_cant": "All functions of the observations, and expectations over all observations.", "anchors": ["stheno/model/observations.py:Observations.posterior_mean", "stheno/model/observations.py:Observations.posterior_kernel", "stheno/model/measure.py:Measure.condition"]}
{"id": "C58", "title": "Repeated observations are pooled", "statement": "Conditioning on several observations of the same process at the same inputs, and on any other observations, gives the same posterior as conditioning on one observation of that process at these inputs and on the other observations, if the inverse of the noise covariance of the one observation is the sum of the inverses of the noise covariances of the repeated ones, and its data are their average weighted with these inverses. In particular, observations with equal noise covariances can be replaced by the average of the data with the noise divided by the number of observations.", "quantifier": "every program, every number of repeated observations and of other observations, in any order and notation, also with missing data, every positive-definite noise covariance, every pair of processes and inputs", "why_tests_cant": "All programs, numbers of observations, noise matrices and data.", "anchors": ["stheno/model/observations.py:Observations.__init__", "stheno/model/observations.py:combine", "stheno/model/measure.py:Measure.condition"]}
{"id": "C59", "title": "Observing a transformed process is observing the process", "statement": "Let q be a process p multiplied by a non-zero number or by a function that is not zero at the inputs, with a number or function added, with transformed inputs, or copied by a measure, or made from p by several such steps. Conditioning on observations of q gives the same posterior as conditioning on observations of p at the inputs, with the noise and with the data in the units of p, along with any other observations. Log-densities in the units of q are those in the units of p minus the sum of the logarithms of the absolute factors, so neither depends on the units in which data are written.", "quantifier": "every program, every chain of such transformations, every number of observations, in any order and notation, also with missing data, every pair of processes and inputs", "why_tests_cant": "All programs, transformations, inputs, noise matrices and data.", "anchors": ["stheno/model/measure.py:Measure.mul", "stheno/model/measure.py:Measure.sum", "stheno/model/measure.py:Measure.condition", "stheno/model/measure.py:Measure.logpdf"]}
{"id": "C60", "title": "Independent parts stay independent and are irrelevant to each other", "statement": "Let the processes of a program be in parts, such that a process of a part is made only from processes of that part, and observations, also joint ones, are of processes of parts with noise that does not connect parts. Then processes of different parts have covariance zero in every measure, also in posteriors. Posteriors given the same observations of a part and whatever observations of other parts have the same means and kernels of the processes of that part, and observations of other parts alone leave them as they were. The log-density of data of different parts is the sum of the log-densities.", "quantifier": "every program, every division in parts, every number of observations, in any order and notation, also with missing data and with inducing points, every pair of processes and inputs", "why_tests_cant": "All programs, divisions, inputs, noise matrices and data.", "anchors": ["stheno/model/measure.py:Measure.add_independent_gp", "stheno/model/measure.py:Measure.condition", "stheno/model/measure.py:Measure.logpdf", "stheno/model/observations.py:combine"]}
{"id": "C61", "title": "Observations with more and more noise are missing observations", "statement": "As the variance of additional independent noise on some of the observed values goes to infinity, the means and kernels of the posterior go to those of the posterior in which these values are missing, whatever the values are; if this is done for all values, to those of the prior. The log-density of the data, plus half the logarithm of 2 pi times the variance for each of these values, goes to the log-density of the data in which these values are missing.", "quantifier": "every program that is continued by conditioning, every set of missing values, every number put in their place, every pair of processes and inputs, all notations", "why_tests_cant": "A limit, for all programs, inputs, noise matrices and data.", "anchors": ["stheno/model/observations.py:Observations.__init__", "stheno/model/measure.py:Measure.condition", "stheno/model/measure.py:Measure.logpdf", "stheno/random.py:Normal.logpdf"]}
{"id": "C62", "title": "Jitter in inducing-point approximations", "statement": "Pseudo-observations are computed with jitter added to each of the three matrices that are factored. For VFE, every jitter and all inducing points the ELBO is at most the log-density of the data in the model with jitter. With any positive jitter the ELBO, posterior means and posterior kernels are computed, also with repeated inducing points. Posterior covariance matrices are positive semi-definite and at most those of the prior. As the jitter goes to zero, the ELBO, posterior means and posterior kernels go to those without jitter.", "quantifier": "every program with exact observations, every jitter, all inducing points, data and noise, VFE, FITC and DTC", "why_tests_cant": "Inequalities and limits for all programs, inducing points, data and jitters.", "anchors": ["stheno/model/observations.py:PseudoObservations._compute", "stheno/model/observations.py:PseudoObservations.elbo", "stheno/model/observations.py:PseudoObservations.posterior_kernel", "stheno/model/observations.py:PseudoObservations.posterior_mean"]}
{"id": "C63", "title": "Models are their equations", "statement": "What is returned for a process only depends on how it, and what it is made from, was defined and on the observations that were conditioned on. Two programs with the same equations return the same means, kernels, elementwise kernels and log-densities, although processes are made and measures conditioned in another order, processes and measures get other numbers, processes are made before instead of after conditioning, and there are further processes and measures that are not used. A new GP is uncorrelated with everything in its measure that is not made from it.", "quantifier": "all pairs of programs without products of processes of which the equations of the one are, with other numbers, among those of the other; all processes, inputs and data", "why_tests_cant": "About all pairs of programs of any length and all reorderings.", "anchors": ["stheno/model/measure.py:Measure.add_independent_gp", "stheno/model/measure.py:Measure._update", "stheno/model/measure.py:Measure.condition", "stheno/model/gp.py:GP.__init__"]}
{"id": "C64", "title": "Observations are informative", "statement": "The entropies of FDDs under measures obey the laws of information: conditioning on any observations does not increase the entropy, which stays the same only if all kernel calls stay the same; the joint entropy of FDDs is at most the sum of their entropies, which it only attains if they are uncorrelated; it is the entropy of some plus the entropy of the others under the posterior given the values of some, whatever the values; what some tell about others is what others tell about some; what FDDs add to others diminishes with more others; and the order of the FDDs does not matter. Divergences and Wasserstein distances of the same FDDs under two measures do not decrease if FDDs are added, and are zero exactly if the measures agree on all mean and kernel calls of the FDDs.", "quantifier": "all regular programs, measures, lists of FDDs of single-output processes at numeric inputs and observations, exact and with inducing points where no posterior formula is used", "why_tests_cant": "About all models, lists of FDDs and data.", "anchors": ["stheno/random.py:Normal.entropy", "stheno/random.py:Normal.kl", "stheno/random.py:Normal.w2", "stheno/model/observations.py:combine", "stheno/model/measure.py:Measure.__call__"]}
{"id": "C65", "title": "Observations are informative on average", "statement": "If data are drawn with the mean and variance that a measure gives to FDDs, then the divergence of the posterior from the prior at any other FDDs is on average what conditioning reduces their entropy by; the log-density of the data under the measure is on average minus the entropy of the FDDs; and under any other measure it is on average less by the divergence, so that no other measure has a larger expected log-density, and only measures with the same mean and kernel calls for the FDDs have the same one.", "quantifier": "all regular programs, measures, lists of FDDs of single-output processes at numeric inputs, probability spaces, and random vectors with the first two moments that the measure gives, with missing data", "why_tests_cant": "About expectations over data, which have a continuous distribution.", "anchors": ["stheno/model/measure.py:Measure.logpdf", "stheno/model/measure.py:Measure.condition", "stheno/random.py:Normal.entropy", "stheno/random.py:Normal.kl", "stheno/model/observations.py:Observations"]}
{"id": "C66", "title": "Nothing is broadcast, and checks of sizes only reject", "statement": "Sums, products and updates of posteriors broadcast their operands in the code, and multi-output kernels and means at numeric inputs make FDDs, which checks that sizes can be inferred. Without broadcasting, calls that pass the checks return what the model without checks returns. If the FDDs of the components of cross processes can be made, then every call that returns in the model without checks and with equal shapes returns the same with checks and broadcasting. In regular programs calls with checks and broadcasting at inputs at which processes can be called return, and exactly this. Every call has one result.", "quantifier": "all programs and worlds, measures, processes and inputs; the last but one claim for all regular programs and numeric inputs at which the processes can be called", "why_tests_cant": "Says for all programs that two evaluators agree; a test compares a program with itself.", "anchors": ["stheno/mo/kernel.py", "stheno/mo/mean.py", "stheno/mo/infer.py:infer_size", "stheno/model/fdd.py:FDD.__init__", "stheno/model/observations.py:Observations.posterior_kernel"]}
{"id": "C67", "title": "Operations raise exactly when they cannot be done", "statement": "In a program that conditions only on processes that the measure contains, an operation on measures and processes that exist raises exactly in the following cases, with exactly this exception. Sums, products and crosses: a RuntimeError if a process has no measure and an AssertionError if its first measure differs from that of the first process, whichever process comes first; crosses of nothing: an IndexError. Naming a process, at its construction or later, in one measure or in all of its measures: a RuntimeError if another process has the name in the measure. Means, kernels and copies: a RuntimeError if the measure does not contain the process. Everything else, in particular conditioning, never raises.", "quantifier": "all proper programs and all operations on existing objects", "why_tests_cant": "An exact characterisation of exceptions after all programs; tests show single exceptions.", "anchors": ["stheno/model/gp.py:assert_same_measure", "stheno/model/gp.py:intersection_measure_group", "stheno/model/gp.py:cross", "stheno/model/gp.py:GP.__init__", "stheno/model/measure.py:Measure.name", "stheno/model/measure.py:Measure.__call__"]}
{"id": "C68", "title": "Linear models give Bayesian linear regression", "statement": "Processes GP(s) and GP(mu, s) with numbers mu and s are uncorrelated weights with these means and variances. A process made from weights by arithmetic that is c(x) + sum_i phi_i(x) w_i has the mean c(x) + sum_i phi_i(x) mu_i and the kernel sum_ij phi_i(x) L_ij phi_j(y), where mu and L are the means and covariances of the weights, in every measure. Conditioning on noisy values y of such processes, also several at once and with missing values, gives weights with the precision L^-1 + X'N^-1X and the mean (L^-1 + X'N^-1X)^-1 (L^-1 mu + X'N^-1(y - c)), where X are the features at the data and N is the noise. This mean is the unique minimiser of (y - c - Xb)'N^-1(y - c - Xb) + (b - mu)'L^-1(b - mu). The log-density of the data is -(log det N + log det L + log det(L^-1 + X'N^-1X) + n log 2 pi + the minimum) / 2.", "quantifier": "all regular programs, all linear expressions of weights, all data", "why_tests_cant": "Equality of the function-space computation of the code with the weight-space solution, for all models, features and data.", "anchors": ["readme_example6_blr.py", "stheno/model/measure.py:Measure.condition", "stheno/model/observations.py:Observations.posterior_mean", "stheno/model/observations.py:Observations.posterior_kernel", "stheno/model/gp.py:GP.__init__", "stheno/model/gp.py:GP.__mul__", "stheno/model/measure.py:Measure.logpdf"]}
{"id": "C69", "title": "Batches of normals are computed element by element", "statement": "For normals whose mean and variance are arrays with batch dimensions, the log-densities (for several columns, vectors, and data with other batch dimensions), entropies, KL divergences, marginals, credible bounds, diagonalised normals, samples, sums, shifts, multiples and linear transformations at every index of the batch are those of the normal at that index, with batch dimensions broadcast as in numpy. Values may be missing in single columns without batch dimensions; elsewhere NaNs give NaNs in their own column only. The exceptions: without batch dimensions w2 and m2 are right; with batch dimensions w2 returns distances that are too large, since it sums the squared distances of the means over the whole batch, and m2 raises or mixes elements of the batch.", "quantifier": "all shapes, all batches, all entries", "why_tests_cant": "All shapes with all broadcasts; tests have a few.", "anchors": ["stheno/random.py:Normal.logpdf", "stheno/random.py:Normal.entropy", "stheno/random.py:Normal.kl", "stheno/random.py:Normal.w2", "stheno/random.py:Normal.m2", "stheno/random.py:Normal.marginals", "stheno/random.py:Normal.sample", "stheno/random.py:Normal.lmatmul"]}
{"id": "C70", "title": "Batches of observations are processed element by element", "statement": "If kernel matrices, means, noise and values have batch dimensions that can be broadcast together, then exact posteriors, the computation with inducing points (corrective variance, mean and ELBO) and posteriors with inducing points return, and give at every index of the batch what they give for the matrices at that index. In particular at every index the VFE bound is at most the log-density, all bounds are the log-density if the inducing points are the data, and posteriors are given by the usual formulas without Cholesky factors. Values of several FDDs with the same batch dimensions are concatenated along the rows and samples of several FDDs are taken apart along the rows, which are inverse to each other; values with different batch dimensions are rejected.", "quantifier": "all shapes, all batches, all methods, all entries", "why_tests_cant": "All shapes with all broadcasts; tests have a few.", "anchors": ["stheno/model/observations.py:AbstractPseudoObservations._compute", "stheno/model/observations.py:AbstractPseudoObservations.posterior_kernel", "stheno/model/observations.py:Observations.K_x", "stheno/model/observations.py:combine", "stheno/model/measure.py:Measure.sample"]}
{"id": "C71", "title": "Means and kernels at batches of inputs are evaluated element by element", "statement": "If means and kernels (sums, products, scalings, input transformations, functions, posteriors with and without inducing points, multi-output kernels at FDDs and tuples) are evaluated at inputs with batch dimensions, then the result has at every index of the batch the entries that the evaluation at the inputs, noises and observations at this index has: for pairwise, elwise, means, and the normal of an FDD. If all inputs have the same batch dimensions, noises and values can be broadcast to them, and the evaluation returns at every index, then the evaluation at the batch returns, and its result has these batch dimensions.", "quantifier": "all means and kernels without derivatives, all tables, all inputs, all shapes, all recursion depths", "why_tests_cant": "All expressions, all shapes and all broadcasts of batch dimensions; tests evaluate a few kernels at one batch.", "anchors": ["stheno/mo/input.py:pairwise", "stheno/mo/input.py:elwise", "stheno/mo/kernel.py:pairwise", "stheno/model/observations.py:Observations.posterior_kernel", "stheno/model/observations.py:AbstractPseudoObservations._compute", "stheno/model/fdd.py:FDD"]}
{"id": "C72", "title": "Programs with batches of observations are programs at every index of the batch", "statement": "The state after a program whose means, kernels and observations contain arrays with batch dimensions is, at every index of the batch, the state after the program with the data at this index: the same processes, measures, names and rules, and the same means and kernels from all lookups. Operations raise the same exceptions. Means and kernels (pairwise and elwise) that are called at batches of inputs return arrays that consist of what the calls return at the indices of the batch. If all inputs have the same batch dimensions, and the calls return at all indices, then the calls at the batch return.", "quantifier": "all programs without derivatives, all indices, all inputs, all shapes", "why_tests_cant": "All programs (posteriors of posteriors, products, multi-output processes, inducing points) with all shapes; tests run two programs with one batch dimension.", "anchors": ["stheno/model/measure.py:Measure", "stheno/model/gp.py:GP", "stheno/lazy.py:LazyMatrix._build", "stheno/model/observations.py:Observations.posterior_kernel", "stheno/model/observations.py:AbstractPseudoObservations.posterior_mean"]}
{"id": "C73", "title": "FDDs, conditioning, sampling and log-densities at batches of inputs are those at every index of the batch", "statement": "Noise given as a number, a vector, a matrix or a batch of matrices becomes at every index of the batch what the noise at this index becomes, and making an FDD at a batch of inputs raises if and only if it raises at an index. Conditioning on values of FDDs, `measure.logpdf` and `measure.sample` perform, in all notations, operations on the graph that are at every index the operations for the data at this index. The mean, the variance, the diagonal of the variance and the log-density of an FDD at a batch of inputs are at every index those of the FDD at this index. If all inputs and values have the same batch dimensions and the log-densities can be computed at all indices, then they can be computed for the batch, and there is one for every index.", "quantifier": "all programs without derivatives, all notations, all indices, all inputs, noises and values without missing entries, all shapes", "why_tests_cant": "All programs and all combinations of shapes; tests check log-densities and samples of two programs with one batch dimension.", "anchors": ["stheno/model/fdd.py:FDD", "stheno/model/fdd.py:_noise_as_matrix", "stheno/mo/infer.py:infer_size", "stheno/model/observations.py:combine", "stheno/model/measure.py:Measure.logpdf", "stheno/model/measure.py:Measure.sample", "stheno/model/measure.py:Measure.condition"]}
{"id": "C74", "title": "Missing values with batch dimensions", "statement": "Values without batch dimensions of which some are missing, at inputs without batch dimensions, are handled as at an index of the batch: making observations raises in the same cases, and otherwise gives the same observations of the rows that are not missing. Values with batch dimensions of which some are missing raise. Values without batch dimensions of which some are missing, at inputs with batch dimensions, are not handled correctly: there is a program in which an element of the batch is dropped instead of the rows of the missing value.", "quantifier": "all programs without derivatives, all nested inputs, all masks; the last part is about one program", "why_tests_cant": "All nestings of tuples and multi-output processes and all masks; no test has missing values at batches of inputs.", "anchors": ["stheno/model/observations.py:AbstractObservations.__init__", "stheno/model/fdd.py:take", "stheno/model/fdd.py:_take_x", "stheno/mo/kernel.py:_take_x"]}
{"id": "C75", "title": "Pseudo-observations for batches", "statement": "Pseudo-observations that are made from FDDs and values at batches of inputs, in all notations, are at every index of the batch the pseudo-observations that are made at this index. What they compute for a batch (the ELBO, which is also what measure.logpdf returns for them, the optimal mean, the kernel matrix of the inducing points and the corrective variance) consists of what they compute at every index. If all inputs have the same batch dimensions, then the ELBO is computed for the batch if it can be computed at every index, and there is one for every index.", "quantifier": "all programs without derivatives, all nested inputs, all batch dimensions, all three methods", "why_tests_cant": "All programs, all ranks and all broadcasts of batch dimensions; the tests with batches check single models of fixed shapes.", "anchors": ["stheno/model/observations.py:AbstractPseudoObservations.__init__", "stheno/model/observations.py:AbstractPseudoObservations._compute", "stheno/model/observations.py:AbstractPseudoObservations.elbo", "stheno/model/measure.py:Measure.logpdf"]}
{"id": "C76", "title": "Laws of log-densities hold at every index of a batch", "statement": "For batches of data, at every index of the batch: measure.logpdf of pairs is measure.logpdf of the first pairs plus the log-density of the others under the measure conditioned on the first; with VFE, measure.logpdf(PseudoObs(us, data)) is at most measure.logpdf of the same data; with more inducing points it is not smaller; and with VFE, FITC and DTC and inducing points at the data it is equal to measure.logpdf of the same data. If the noise is positive definite and all inputs have the same batch dimensions, then measure.logpdf returns one log-density for every index.", "quantifier": "all regular programs without derivatives, all FDDs, data and inducing points with batch dimensions that can be broadcast, all notations without observation objects for exact data", "why_tests_cant": "Inequalities for all programs, all data and all broadcasts of batch dimensions.", "anchors": ["stheno/model/observations.py:AbstractPseudoObservations._compute", "stheno/model/observations.py:AbstractPseudoObservations.elbo", "stheno/model/measure.py:Measure.logpdf", "stheno/model/measure.py:Measure.condition"]}
{"id": "C77", "title": "Laws of posteriors hold at every index of a batch", "statement": "For batches of data and batches of inputs, at every index of the batch: conditioning, exactly or with pseudo-observations, does not increase variances; covariance matrices of the prior and of all posteriors are symmetric and positive semi-definite; all notations and orders of the pairs give the same means and kernels; and conditioning on some pairs and then on others gives the same means and kernels as conditioning on all of them at once. With inducing points at the data, VFE, FITC and DTC give the same means and kernels as conditioning on the data. If all inputs have the batch dimensions, then means and kernels of all measures return.", "quantifier": "variances: all programs; otherwise all regular programs without derivatives; all FDDs, data and inputs with batch dimensions that can be broadcast, all notations without observation objects", "why_tests_cant": "All programs, all data and all broadcasts of batch dimensions.", "anchors": ["stheno/model/measure.py:Measure.condition", "stheno/model/observations.py:Observations.posterior_kernel", "stheno/model/observations.py:Observations.posterior_mean", "stheno/model/observations.py:AbstractPseudoObservations.posterior_kernel"]}
