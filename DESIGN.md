# Formal model of wesselb/stheno in Lean 4: design

The first version of this document was written before the proofs; it is kept up to date with the model.
`properties.jsonl` lists the properties. `MANIFEST.json` maps each property to theorem names. `AXIOMS.txt` lists the axioms of
each of those theorems, as printed by Lean. `seeded/LOG.jsonl` records wrong programs that the theorems were tested against.

## 1. Approach

stheno keeps a *graph* of Gaussian processes. A `Measure` has lazy tables of means and kernels; operations on GPs write values and rules to
these tables; a lookup finds a rule, which looks up other entries. What is stored are expressions (`mlkernels`), which are evaluated
at inputs later. The interesting questions are in three places, and the model has a machine for each of them:

1. the tables (which rule fires, what is cached, what has been written when),
2. the evaluation of means and kernels at inputs, in particular the dispatch for several outputs in `stheno/mo`,
3. the formulas (posteriors, sparse approximations, normal distributions).

Each has a specification which does not know how the code works:

1. the list of definitions that the user wrote, without stores, rules or caches,
2. random variables that satisfy the equations that the user wrote,
3. probability measures, conditional distributions, densities and divergences as defined in Mathlib.

Property theorems (`Props/*.lean`) are about whole programs: `runOps ops {}` is the heap after an arbitrary list of public operations, each of
which may have returned or raised. They are stated with what a user can observe (`Api.lean`, `Calls.lean`): which processes are attached to a
measure, what a lookup returns, what a call of a mean or kernel at an input returns.

Every theorem is followed by an `example` which instantiates it for a concrete program or value, so that hypotheses are seen to be satisfiable.

## 2. Files

All in `lean/Verif/`. "Model" files contain the definitions that are claims about `/repo`; each definition cites the lines it models.

### Model

| file | models |
|---|---|
| `Lazy` | `stheno/lazy.py` |
| `Syntax` | inputs, expressions for means and kernels (the part of `mlkernels` that is used), observations, rules as data |
| `World` | `stheno/model/measure.py`: `Measure`, lookups with caches, and the graph part of `observations.py` |
| `Ops` | `stheno/model/gp.py`: GPs, operations on them, and programs of public operations (`Op`) |
| `Construct` | `stheno/model/gp.py:70-99`: means and kernels of new GPs given as numbers and functions |
| `Numerics` | the matrix computations of `AbstractPseudoObservations._compute` |
| `Eval` | evaluation: `stheno/mo/{kernel,mean,input,adk}.py`, contracts of `mlkernels`, posterior and subspace kernels and means |
| `Broadcast` | evaluation with broadcasting and with the checks of sizes in `stheno/mo/{kernel,mean}.py` |
| `Fdd` | `stheno/model/fdd.py`, `stheno/mo/infer.py`, `_take_x`, and constructors of observations, `combine`, arguments of `condition` and `\|` |
| `MeasureFns` | `Measure.__call__(fdd)`, `Measure.logpdf`, `Measure.sample` |
| `Cache` | `Observations.K_x`, `AbstractPseudoObservations.{K_z, elbo, mu, A, _compute}` with their dictionaries |
| `Pseudo` | constructors of `PseudoObservations`, `PseudoObservationsFITC`, `PseudoObservationsDTC` |
| `Normal` | computations of `stheno/random.py:Normal` and `Random` on resolved moments |
| `Tensor` | arrays of any rank with broadcasting: the functions of `lab` and `matrix` that are used on batches |
| `Batch` | computations of `stheno/random.py:Normal` for arrays with batch dimensions |
| `BatchSparse` | computations of `stheno/model/observations.py`, `combine` and `Measure.sample` for arrays with batch dimensions |
| `BatchEval` | `Eval` for inputs and observations with batch dimensions; `BatchAt` has the data at an index of the batch |
| `BatchWorld` | `World` and `Ops` for means, kernels and observations with batch dimensions |
| `BatchFdd` | `Fdd` and `MeasureFns` for inputs, noises and values with batch dimensions |
| `BatchMissing` | `_take_x`, `B.take` and observations with missing values for arrays with batch dimensions |
| `BatchPseudo` | `Pseudo` and what `Cache` computes for inputs, noises and values with batch dimensions |
| `NormalState` | lazy resolution of moments in `stheno/random.py:Normal` |
| `Approx` | `GP.diff_approx` |
| `Arith` | Python expressions of processes: operators of `stheno/random.py:Random` with Python's dispatch of binary operators |
| `Stationary` | `GP.stationary`, and when kernels are called stationary |
| `Api`, `Calls` | observers used in statements |

### Specifications

| file | contents |
|---|---|
| `LazySpec` | lazy tables as histories of calls |
| `Spec`, `SpecOps` | the specification machine: measures are lists of definitions |
| `SecondOrder`, `Interp`, `Model` | second-order structures, random functions, and readings of programs (`Interp.Reads`): random variables that satisfy the equations |
| `Renoise` | programs with other noise or other values of observations: how means and kernels change |
| `Jitter` | evaluation with jitter |
| `JitterFns` | densities and samples with jitter |
| `JitterSparse` | pseudo-observations with jitter |
| `Gaussian` | what it means that a `Normal` is the distribution of a random vector |

### Proofs

| files | contents |
|---|---|
| `RefineLook`, `Mono`, `Refine`, `RefineOps` | the graph machine refines the specification machine |
| `Graph`, `GraphNames`, `GraphOps` | consequences in terms of observers |
| `EvalMono`, `EvalBig`, `Run`, `Plain` | evaluation: monotone in the depth of recursion and in the tables; sizes; rules for evaluation without a bound |
| `SoundAlg`, `Sound*`, `Everywhere`, `Derive` | means and kernels are expectations and covariances in every reading |
| `Hilbert`, `Canon`, `Realise`, `Program`, `Stable` | every elementary program has a reading, by random variables in a Hilbert space that do not change when the program continues |
| `Smooth`, `SmoothCalls` | when a process is mean-square differentiable, in terms of what calls of its mean and kernel return |
| `Total`, `TotalSparse`, `Returns`, `Positive`, `Off`, `Regular`, `Study` | calls return; programs (`Regular`) for which all of this holds without hypotheses about readings |
| `Update`, `Stack`, `Join`, `Post`, `Chain`, `Conditional`, `Density` | Gaussian updates: positivity, sequential and joint observations, densities, conditional distributions |
| `NumericsSpec`, `Sparse`, `Variational`, `Surrogate` | sparse approximations as matrix computations, as variational inference, and as exact inference in an approximate model |
| `EvalDiag`, `EvalTake`, `Take`, `Closed`, `Sizes` | `elwise` and the diagonal, subsets of inputs, sizes |
| `Coverage` | the probability that a Gaussian variable is within 1.96 standard deviations of its mean |
| `MoreNoise` | Gaussian updates with more noise, and limits of them |
| `Apart` | parts of a program that have nothing in common, and updates with observations of them |
| `Blur` | limits of updates and log-densities as the noise of some values goes to infinity |
| `Follow` | programs with the same equations |
| `Information` | entropies, divergences and distances of FDDs of measures |
| `Restate` | the same observations in other units |
| `Pool` | positive-definite systems with repeated rows and pooled noise |
| `Predict` | conditional expectations are best predictions; the law of total covariance |
| `Redata` | programs with other values of observations: kernels that do not refer to means, and updates that are affine in the values |
| `MorePoints` | Nyström approximations and bounds with more inducing points |
| `Moments`, `Product` | third and fourth moments of Gaussian variables; products of processes |
| `Point` | readings of small programs by hand, for examples |

## 3. How the code is modelled

**Heap.** Python objects live in a heap (`World`): measures and GPs are numbered in creation order; the number plays the role of `id(...)`.
Python's `id` can be reused after garbage collection. C45 and C42_alive show that every process and measure whose id is a key is kept alive.
A measure record has the fields of the Python class: `ps`, `_pids`, `means` and `kernels` (store, rules, left rules and right rules as in `lazy.py`),
the two name dictionaries and `_prev_default`. A GP record has `_measures`. Programs run in a state-and-exception monad in which the state survives an
exception, as in Python; a program in which an operation raises half way continues from the state that it left behind.

**Rules.** Closures passed as rules are defunctionalised: a rule is data (`LRule`, `RRule`, `URule`) that is interpreted when it fires.
Recursive lookups carry a fuel argument computed from the heap; that it suffices is a theorem (C02_terminates), not an assumption.

**Sets.** `intersection_measure_group` returns a Python set. Its iteration order is a parameter of the operations (any permutation), so theorems hold for all
orders.

**Expressions.** `KExpr` and `MExpr` are the expression trees of `mlkernels` as far as stheno builds them. Kernels that a user supplies are leaves
(arbitrary functions) combined with sums, products and multiples. `Eval.lean` has the contracts: what `pairwise`, `elwise` and calls of means
return for each kind of expression, with dispatch on numeric inputs, FDDs and tuples in the order of the code. Evaluation is partial: `none` is an exception.

**Reals.** Numbers are reals. `cholesky`, `solve`, `iqf`, `logdet`, `ratio`, `root` are replaced by what they compute. A Cholesky factorisation exists if and only if the
matrix is positive definite.

**Randomness.** The random generator is replaced by independent standard normal numbers on a probability space.

## 4. Per property: what is proved and how

Statements, quantifiers and notes about exceptions are in `properties.jsonl` and `MANIFEST.json`.

| | what is proved, and how |
|---|---|
| C01 | lazy tables agree with the specification by histories; invariant "stored = specified" |
| C02–C05, C16, C22, C45 | refinement of the specification machine; there, lookups are total on attached pairs, fail otherwise and do not change when a state grows |
| C06–C08 | induction over evaluation and definitions, for every reading; for `Regular` programs a reading exists and calls return |
| C09–C12, C15, C23, C33 | equations of a reading hold in every measure, posteriors included; then C06 and C07 |
| C13 | `diff_approx` as a list of operations; by induction its reading is the weighted sum of shifted processes; Vandermonde for the weights |
| C14 | moments of Gaussian variables by characteristic functions; what calls return by inversion of lookups |
| C17 | the residual is independent of the observation; conditional distributions as in Mathlib; existence by Kolmogorov extension |
| C18–C21, C24, C25 | algebra of Gaussian updates, lifted to programs by C06 and C07 |
| C26–C28, C48 | simulation of evaluation at subsets, at the diagonal, and with sizes |
| C29, C37 | joint densities and samples of FDDs in all notations; block determinants |
| C30–C32 | invariants of all histories |
| C34 | lazy normals as a state machine; every access is determined by what the constructors return |
| C35, C36, C38, C39, C44 | formulas of `random.py` against Mathlib's Gaussian measures, Kullback–Leibler divergence, couplings; alternating series for the probability of credible bounds |
| C40, C41 | matrix algebra of `_compute`, lifted to programs |
| C49 | the expected log-likelihood less the divergence is the ELBO less the divergence from the optimum (Woodbury identities); Kullback–Leibler divergence as in Mathlib, for arbitrary distributions |
| C50 | a linear function of jointly Gaussian variables, with independent noise, is jointly Gaussian with them; then conditional distributions as for C17, and Woodbury identities |
| C42 | memo tables; results do not change when the model is extended |
| C43 | tables after `add_gp`, at any later time; partial because the code ignores the right rule |
| C46 | regular programs can be conditioned, multiplied, differentiated and extended at any level; stacks of any height |
| C51 | induction over expressions: every value is made by operations whose readings are known; kinds of operands decide exceptions |
| C54 | simulation of evaluation with jitter by evaluation with more noise, also for densities, where the chain rule (C37) applies; posterior variances are minima over linear predictors; inverses are continuous |
| C55 | quadratic forms of the Nyström approximation are suprema, hence grow with the inducing points; what the density loses the trace term gains |
| C56 | kernels without products never refer to means, so that evaluation does not see the values; updates of expectations are affine in the values; a square whose kernel does depend on the values shows that the assumption about products is needed |
| C57 | posterior means are conditional expectations (C17), which are orthogonal projections |
| C58 | two observations of the same values are one with pooled noise, by induction; orders and notations by C19 and C24 |
| C59 | Gram matrices, covariances and residuals in other units differ by an invertible diagonal matrix, which cancels and changes log-determinants; orders and notations by C19, C24 and C37 |
| C60 | values of parts are orthogonal, by induction over the program; the Gram matrix of orthogonal values is block-diagonal, so that the update with both is the update with those that are correlated |
| C61 | the block of the Gram matrix of the noisy values has an inverse that goes to zero, so solutions go to solutions of the other block; the prior is the same in all continuations of a program |
| C62 | the jitter of `K_z` is noise of the inducing points; the jitter of the other two matrices makes determinants larger and quadratic forms smaller; everything is continuous where the limit of `K_z` is positive definite |
| C63 | a reading of the one program, with other numbers, is a reading of the other; calls return what any reading says |
| C64 | determinants of Schur complements; divergences of marginals are divergences of images of measures |
| C65 | expectations of quadratic forms; posteriors for all data at once, as a family of programs with a common beginning |
| C66 | a second evaluator, with broadcasting and checks, compared with the first by induction on the depth of calls |
| C67 | the specification of every operation, computed in states in which attached processes have means and kernels |
| C68 | C51 for expressions of processes whose calls do not depend on the rows, the update formula of C17, and the matrix inversion and determinant lemmas |
| C69 | rules for shapes and entries of the operations on arrays, then each method of `Batch` is compared with the method of `Normal` at an index of the batch |
| C70 | arrays of matrices with batch dimensions between two shapes are closed under the operations; then the functions of `Numerics` at an index of the batch, and what `Sparse` says about them |
| C71 | simulation: at every index of the batch the evaluator for batches gives what the evaluator of `Eval` gives with the data at this index (induction on the depth, C70 for posteriors); conversely, if all inputs have the same batch dimensions, shapes are determined by the shapes at one index, so that nothing raises |
| C72 | simulation between the machine with batches and the machine of `World` and `Ops`, method by method, with an invariant for the batch dimensions of everything in the heap; then C71 for calls, with one recursion depth for the finitely many indices of the batch |
| C73 | the functions of `BatchFdd` are compared with those of `Fdd` and `MeasureFns` at an index, argument by argument; then C72 for means and kernels and C69 for the log-density |
| C74 | induction on the nesting of inputs: taking rows of arrays without batch dimensions is taking elements of lists; the failure by evaluation of a program |
| C75 | C73 for the arguments, C72 for the arrays that `_compute` starts with, C70 for what it does with them, compared with `Cache` at an index |
| C76 | C73 and C75 give the log-density and the ELBO at an index, to which C37, C40, C41 and C55 apply |
| C77 | C72 and C73 give means, kernels and conditioning at an index, to which C18, C21, C25 and C40 apply |
| C47 | induction over evaluation; which operations keep the attribute by inversion of lookups |

Theorems named `*_reading` are about every reading of every program. Theorems named `*_regular` have no hypotheses about random variables: they are about
what calls return, for programs in the class `Regular`. A program is regular if user kernels are symmetric and positive semi-definite, noise matrices are positive
semi-definite, the covariance matrix of every observation is positive definite (for example because its noise is), observations are of processes in the measure,
processes are mean-square differentiable where derivatives of them can be called, and it uses no custom rules. If the noise of all observations is
positive definite, then mean-square differentiability can be read off from calls (C46_diff, C12_smooth): the mean is differentiable and the kernel has a mixed second
difference quotient at the diagonal. Conditioning does not change this (C12_smooth_posterior). Where calls return is a parameter: `G p x` says that
process `p` can be called at the row `x`. It must fit the definitions: rows of a sum are rows of both summands, a shifted process can be called where the shifted rows are
rows of the process, a derivative with respect to coordinate `d` where the process can be called on the whole line through `x`, and observations are at rows of the observed
process. A process that can be called nowhere (`Dead`), such as a cross process, can be used freely. If domains do not depend on rows, it suffices to name the processes
that cannot be called (`Off`). C43 covers custom rules for every program.

## 5. Which code is modelled

| code | modelled in | not modelled |
|---|---|---|
| `lazy.py` | `Lazy` (all functions) | `_resolve_index` for tuples of non-objects; `slice` errors |
| `model/measure.py` | `World`, `Ops`, `MeasureFns` (all methods) | `__hash__`, docstrings; keyword arguments of `diff` other than `dim` |
| `model/gp.py` | `Ops`, `World`, `Construct`, `Approx`, `Stationary` | `__str__`, `__repr__`, `display`; the library `fdm` in `diff_approx`: grid, weights and step are parameters |
| `model/fdd.py` | `Fdd`, `NormalState`, `BatchFdd` | `FDD(int, x)` (used by `mlkernels` for numeric inputs only), `dtype`, `__str__`, `__repr__` |
| `model/observations.py` | `Numerics`, `BatchSparse`, `Eval`, `Fdd`, `Cache`, `Pseudo`, `Jitter`, `JitterSparse`, `BatchMissing`, `BatchPseudo` | dtypes |
| `mo/*.py` | `Eval`, `Fdd`, `Stationary` | `render`, `need_parens`, `__eq__` of `AmbiguousDimensionalityKernel` |
| `random.py` | `Normal`, `Batch`, `NormalState`, `Arith`, `JitterFns` | `__str__`, `__repr__`, `dtype`, `cast` |
| `__init__.py`, `autograd.py`, `jax.py`, `tensorflow.py`, `torch.py` | | everything (imports and a warning) |

### Simplifications

Numbers:
* Floating point, dtypes, devices and back ends are not modelled.
* Batch dimensions are modelled in the class `Normal` (`Batch`, C69) and in the computations with observations, given kernel matrices and means
  (`BatchSparse`, C70), in the evaluation of means and kernels (`BatchEval`, C71), and in programs
  (`BatchWorld`, C72), with FDDs and what is made from them (`BatchFdd`, C73) and with pseudo-observations (`BatchPseudo`, C75), where amounts of shifts and stretches and scalars are not batches, derivatives
  are left out, noises with batch dimensions cannot be combined, and values are not missing, except in single observations (`BatchMissing`, C74). Everywhere else arrays are matrices, columns and numbers.
* The jitter `B.epsilon` is not modelled, except by C54 in posteriors with exact observations and in densities and samples, and by C62 in
  pseudo-observations. Theorems that need an inverse assume positive definiteness where the code would need it up to jitter. C54 says that a
  program with jitter is a program with more noise, so that they apply to it. Both take all factored matrices as dense; the code adds no jitter
  to diagonal matrices. Posteriors of posteriors with inducing points are not modelled with jitter.
* Structured matrices are modelled as the matrices they represent, except where the code branches on the class: whether the noise is of class `Diagonal` is a
  parameter of `mkPseudo`.
* The entries of `K_n` in `_compute` must be positive.

Evaluation:
* Shapes of summands and factors must be equal: no broadcasting of single rows or columns. `elwise` of the zero kernel requires equal sizes.
  `Broadcast` has the evaluator with broadcasting; C66 says when the two agree.
* User functions are applied row by row and fail on anything but numeric arrays.
* The algebra package simplifies expressions. Modelled are the simplifications of zero kernels, on which shapes depend; sums with a zero mean are not simplified.
  A product with the number zero is not simplified to the zero kernel, which has the same values but, for multi-output processes, possibly another shape.
* Building the FDD `p(x)` inside multi-output kernels does not check that the size of `p` can be inferred, so the model
  returns where the code may raise. Theorems that calls return are about single inputs and tuples of FDDs, where nothing is inferred.
  `Broadcast` also has the check, and C66 says when it passes. Pseudo-point kernels do not check the mean part of `_compute`.

Finite-dimensional distributions:
* Lookups are pure in `Fdd`, `MeasureFns` and `Cache`: they do not change what can be observed (C03, C04).
* FDDs that are inputs carry no noise (nothing looks at it). Observations are a single column (`logpdf` is also modelled for several columns). A mask of the wrong length raises.

Lazy normals: functions that construct moments are pure and deterministic (or always raise); fused functions such as `mlkernels.mean_var` return what separate
evaluation returns; `convert(_, AbstractMatrix)` is the identity; `squeeze` of a number raises.

User rules: rules given to `add_gp` are arbitrary functions of the other process and of kernels of the measure with it (`LRule`), without side effects.

## 6. Trusted base

* The kernel of Lean 4.33.0 and the axioms `propext`, `Classical.choice` and `Quot.sound`; see `AXIOMS.txt` for each theorem. No other axioms, no `sorry`, no `native_decide`, no
  `bv_decide`.
* Definitions in Mathlib that statements mention: measures, Gaussian distributions, conditional expectations and distributions, Kullback–Leibler divergence,
  matrices.
* The reading of the source: that the definitions in the model files in section 2 say what the cited lines do.
* Contracts of the dependencies `mlkernels`, `lab`, `matrix`, `fdm`, `plum`: written as definitions in `Syntax`, `Eval`, `Numerics` and `Normal`.

## 7. Findings: disagreements between the code and what one would expect

Each is a theorem about a concrete program unless it says otherwise.

1. `add_gp` ignores `right_rule` (`measure.py:136` passes `right_rule=None`): `C43_right_rule_ignored`.
2. `Measure.name` deletes the old name before it checks that the new one is free; a refused renaming loses the old name, and a GP whose name is refused
   remains in its measure: `C30_refusal_loses_name`, `C30_constructor_leaks`.
3. Entering a measure that is already active leaves `Measure.default` set afterwards: `C31_reentrant_leaks`.
4. The primary measure of `p + q` depends on the iteration order of a set: `C32_primary_depends_on_order`.
5. `num_elements(fdd)` ignores the number of outputs: `Measure.sample` splits wrongly (`C29_multi_wrong`), `infer_size` is wrong for nested crosses (`C27_nested_wrong`).
6. `Normal` with the number 0 as mean: `mean_var` and `marginals` depend on what was asked before: `C34_number_zero`.
7. `PseudoObs.K_z` with noise that is not diagonal raises at the first call and returns at the second: `C42_Kz_wrong`.
8. The mean of `p * q` omits the covariance of p and q, and `p * q` taken twice gives two processes with different joint distributions: `C14_mean_bias`, `C14_twice`.
9. Conditioning on an FDD of a process that is not in the measure is only detected at the first lookup: `C02_foreign_observation_accepted`.
10. `infer_size` raises for processes derived from cross processes by further operations, and for FDDs of later processes: `C27_again_raises`, `C27_later_raises`.
11. `B.take` of an FDD of a cross process raises in a posterior, and that of a cross process of cross processes raises everywhere: `C26_posterior_cross_raises`, `C26_cross_nested`.
12. `Normal * vector` gives a wrong variance: `C38_mul_vector_wrong`.
13. `diff_approx` of a process in several measures raises an `AssertionError` for some iteration orders of a set: `C13_raises`, `C13_returns_iff`.
14. `p - f` for a Python function `f` raises a `TypeError`, because `random.py:27-28` negates the function, although `p + f`, `f + p` and `f - p` are fine: `C51_sub_function`.
15. The cross process of a multi-output process and a process made after it raises at raw inputs, because the zero kernel between them has the
    wrong number of rows; made in the other order, it is fine: `C15_later_raises`, `C15_newest_raises`.
16. Conditioning on several pairs leaves the cross process of the observed processes in all measures that these have in common: `C24_pairs_leave`.
17. `p + q + r` raises an `AssertionError` for some iteration orders of a set if the processes are in several measures: `C51_sum_raises`.
18. `GP(c)` for a negative number `c` is accepted and has a negative variance: `C52_negative`.
19. The sum of a cross process and a single-output process can be called at one row, where the code broadcasts (it adds the same value of the
    single-output process to all components), and raises at two rows: `C66_widen_one`, `C66_widen_two`.
20. A cross process of processes in the posterior of a posterior given joint observations cannot be called at numeric inputs: `C66_twinned`.
21. `Normal.w2` of batches sums the squared distances of the means over the whole batch (`random.py:326`): the distances of two normals from equal ones
    depend on each other: `C69_w2`, `C69_w2_wrong`.
22. `Normal.m2` of batches raises, or mixes elements of the batch if there are as many of them as the normal has entries (`random.py:202`):
    `C69_m2_raises`, `C69_m2_wrong`.
23. Missing values at a batch of inputs: `_take_x` takes along the first axis (`fdd.py:137`), so that elements of the batch are dropped instead of rows: `C74_wrong`.
