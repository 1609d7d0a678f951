{"claims": [
 {"property": "C01", "status": "proved", "theorems": ["Stheno.LazySpec.C01_vector", "Stheno.LazySpec.C01_vector_stable", "Stheno.LazySpec.C01_matrix", "Stheno.LazySpec.C01_matrix_fresh", "Stheno.LazySpec.C01_matrix_stable"], "note": "Builders without side effects; the re-entrant use by measures is covered by C02-C05."},
 {"property": "C02", "status": "proved", "theorems": ["Stheno.C02_total", "Stheno.C02_terminates", "Stheno.C02_foreign_observation_accepted"], "note": "C02_total assumes observations refer to attached processes; C02_foreign_observation_accepted is the witness that the code does not check this."},
 {"property": "C03", "status": "proved", "theorems": ["Stheno.C03_kernel", "Stheno.C03_mean"], "note": ""},
 {"property": "C04", "status": "proved", "theorems": ["Stheno.C04_reads_irrelevant"], "note": ""},
 {"property": "C05", "status": "proved", "theorems": ["Stheno.C05_mean_call", "Stheno.C05_kernel_call", "Stheno.C05_elwise_call", "Stheno.C05_extension"], "note": ""},
 {"property": "C16", "status": "proved", "theorems": ["Stheno.C16_condition", "Stheno.C16_gp_condition"], "note": ""},
 {"property": "C22", "status": "proved", "theorems": ["Stheno.C22_empty"], "note": ""},
 {"property": "C30", "status": "proved", "theorems": ["Stheno.C30_bijection", "Stheno.C30_injective", "Stheno.C30_taken", "Stheno.C30_rename", "Stheno.C30_refusal_loses_name", "Stheno.C30_constructor_leaks"], "note": "Everything stated is proved; the code is weaker than a user may expect in that a refused naming is not atomic, which the last two theorems witness."},
 {"property": "C31", "status": "proved", "theorems": ["Stheno.C31_nested", "Stheno.C31_inside", "Stheno.C31_reentrant_leaks"], "note": "The last theorem is the witness that distinctness of the measures is needed."},
 {"property": "C32", "status": "proved", "theorems": ["Stheno.C32_consistent", "Stheno.C32_mismatch", "Stheno.C32_mismatch_cross", "Stheno.C32_result", "Stheno.C32_result_unary", "Stheno.C32_succeeds", "Stheno.C32_succeeds_unary", "Stheno.C32_order_irrelevant", "Stheno.C32_primary_depends_on_order"], "note": "Iteration order of Python sets is a parameter of the operations. The last theorem is a finding: which measure becomes the primary one depends on that order."},
 {"property": "C43", "status": "partial", "theorems": ["Stheno.C43_rules_partial", "Stheno.C43_rules", "Stheno.C43_right_rule_ignored", "Stheno.C43_right_rule_never_used"], "note": "Mean, kernel and left rule are honoured, at any later time, and if no right rule is given then the covariance in the other direction is the reversed left rule (C43_rules). The part about a given right rule is false for the code: it is ignored (C43_right_rule_never_used, and C43_right_rule_ignored for a program in which this gives a wrong covariance). Left rules are arbitrary functions of the other process and of kernels with it, without side effects."},
 {"property": "C45", "status": "proved", "theorems": ["Stheno.C45_alive"], "note": "Ids are never reused in the model; the theorem is that every id in the tables of a measure belongs to a process that the measure keeps alive."},
 {"property": "C06", "status": "proved", "theorems": ["Stheno.C06_reading", "Stheno.C06_regular"], "note": "For every collection of random variables satisfying the equations, and, for elementary programs with positive noise, such a collection exists and calls return."},
 {"property": "C07", "status": "proved", "theorems": ["Stheno.C07_reading", "Stheno.C07_elwise", "Stheno.C07_regular"], "note": "As C06."},
 {"property": "C08", "status": "proved", "theorems": ["Stheno.C08_reading", "Stheno.C08_regular"], "note": ""},
 {"property": "C10", "status": "proved", "theorems": ["Stheno.C10_sum", "Stheno.C10_scale", "Stheno.C10_addFn", "Stheno.C10_fmul", "Stheno.C10_sub", "Stheno.C10_self_sub", "Stheno.Interp.Reads.sum", "Stheno.Interp.Reads.scale", "Stheno.Interp.Reads.addFn", "Stheno.Interp.Reads.fmul"], "note": "C10_* are about calls of regular programs; Interp.Reads.* are the equations for every reading of every program."},
 {"property": "C11", "status": "proved", "theorems": ["Stheno.C11_pre", "Stheno.C11_inputs", "Stheno.Interp.Reads.pre"], "note": ""},
 {"property": "C09", "status": "proved", "theorems": ["Stheno.C09_table", "Stheno.C09_reading", "Stheno.C09_regular"], "note": "C09_table is about the kernels in the tables and needs no reading; the others also cover everything derived from processes that do not involve the new one."},
 {"property": "C12", "status": "proved", "theorems": ["Stheno.C12_regular", "Stheno.C12_reading", "Stheno.C12_calls", "Stheno.C12_rows", "Stheno.C12_smooth", "Stheno.C12_smooth_posterior", "Stheno.C12_smooth_gp", "Stheno.C12_smooth_sum", "Stheno.C12_smooth_scale", "Stheno.C12_smooth_fn", "Stheno.C12_smooth_twin"], "note": "C12_regular: for regular programs, at the rows at which the derivative can be called, all calls return and are derivatives. C12_smooth and the theorems after it, with C46_diff, say when a derivative can be taken, in terms of what calls return. C12_reading and C12_calls: for every reading in which covariance matrices of observations are positive definite. A reading is written out by hand for an example with a posterior."},
 {"property": "C15", "status": "proved", "theorems": ["Stheno.C15_reading", "Stheno.C15_mean", "Stheno.C15_kernel", "Stheno.C15_regular", "Stheno.C15_later_raises", "Stheno.C15_newest_raises"], "note": "C15_later_raises and C15_newest_raises are a finding: the cross process of a multi-output process and a process made after it raises at raw inputs."},
 {"property": "C23", "status": "proved", "theorems": ["Stheno.C23_reading", "Stheno.C23_regular"], "note": ""},
 {"property": "C33", "status": "proved", "theorems": ["Stheno.C33_table", "Stheno.C33_reading", "Stheno.C33_calls", "Stheno.C33_regular"], "note": ""},
 {"property": "C28", "status": "proved", "theorems": ["Stheno.C28_single", "Stheno.C28_regular", "Stheno.C28_reading"], "note": "C28_single is for all programs and inputs but only single-output processes (which may be observed through cross processes); C28_reading covers cross processes."},
 {"property": "C46", "status": "proved", "theorems": ["Stheno.C46_extend", "Stheno.C46_condition", "Stheno.C46_mul", "Stheno.C46_diff", "Stheno.C46_stacks", "Stheno.C46_condition_sparse"], "note": "The theorems about programs hold for all programs, which includes stacks of posteriors. These theorems show that the class of programs for which calls return is closed under extension and conditioning at any level, and has stacks of any height."},
 {"property": "C18", "status": "proved", "theorems": ["Stheno.C18_reading", "Stheno.C18_regular"], "note": "For every reading in which covariance matrices of observations are positive definite; C18_regular is about what calls of means and kernels return. Any number of pairs in each step."},
 {"property": "C19", "status": "proved", "theorems": ["Stheno.C19_reading", "Stheno.C19_regular"], "note": "As C18."},
 {"property": "C20", "status": "proved", "theorems": ["Stheno.C20_calls", "Stheno.C20_reading", "Stheno.C20_regular"], "note": "C20_calls is for all programs and an observation of one process; the others are for any number of pairs."},
 {"property": "C21", "status": "proved", "theorems": ["Stheno.C21_variance", "Stheno.C21_posSemidef", "Stheno.C21_regular", "Stheno.C21_sparse"], "note": "The first two are for all programs and exact observations; C21_sparse is for all programs and pseudo-observations. C21_regular says that the matrices are positive semi-definite in all measures of regular programs with positive semi-definite kernels."},
 {"property": "C27", "status": "proved", "theorems": ["Stheno.C27_size", "Stheno.C27_given", "Stheno.C27_total", "Stheno.C27_again_raises", "Stheno.C27_later_raises", "Stheno.C27_nested_wrong"], "note": "C27_size: whenever the FDD and the mean or variance exist, for all measures including posteriors. The code can raise instead of inferring a size; C27_total says when it does not, and the last three theorems are witnesses that it does (or is wrong for cross processes of cross processes)."},
 {"property": "C26", "status": "proved", "theorems": ["Stheno.C26_mean", "Stheno.C26_var", "Stheno.C26_noise", "Stheno.C26_total", "Stheno.C26_cross", "Stheno.C26_cross_nested", "Stheno.C26_posterior_cross_raises"], "note": "For all programs, also posteriors, whenever B.take returns. For cross processes the inputs are FDDs, or numeric inputs that are not in a tuple. C26_total and C26_cross say when it returns. The last two theorems are findings: it raises for nested cross processes and for posteriors of cross processes at FDDs."},
 {"property": "C24", "status": "proved", "theorems": ["Stheno.C24_notations", "Stheno.C24_regular", "Stheno.C24_gp_state", "Stheno.C24_gp", "Stheno.C24_pairs_leave"], "note": "C24_pairs_leave is a finding: conditioning on several pairs leaves a process in all common measures. The notations that build no cross process do the same by definition. The others agree in regular programs, at numeric inputs, for processes that are not cross processes; cross processes and cross-process observations may be anywhere in the program. C24_gp is for all programs."},
 {"property": "C25", "status": "proved", "theorems": ["Stheno.C25_regular"], "note": "For regular programs, any number of pairs, all notations, any pattern of missing data including everything missing. The FDDs are at numeric inputs."},
 {"property": "C35", "status": "proved", "theorems": ["Stheno.C35_marginals", "Stheno.C35_variance", "Stheno.C35_bounds", "Stheno.C35_coverage", "Stheno.C35_coverage_zero", "Stheno.C35_posterior"], "note": "C35_posterior: for exact observations."},
 {"property": "C36", "status": "proved", "theorems": ["Stheno.C36_missing", "Stheno.C36_density", "Stheno.C36_marginal", "Stheno.C36_column", "Stheno.C36_columns", "Stheno.C36_independent"], "note": "C36_marginal: for every pattern of missing data, the exponential of logpdf is a density, with respect to the Lebesgue measure, of the available entries of every Gaussian vector. C36_columns and C36_independent: data with several columns."},
 {"property": "C38", "status": "proved", "theorems": ["Stheno.C38_lmatmul", "Stheno.C38_rmatmul", "Stheno.C38_mul", "Stheno.C38_const", "Stheno.C38_neg_div", "Stheno.C38_add", "Stheno.C38_sub", "Stheno.C38_m2", "Stheno.C38_diagonalise", "Stheno.C38_mul_vector_wrong", "Stheno.C38_mul_vector_const"], "note": "For random vectors on any probability space, both means and covariances of arbitrary square-integrable vectors and Gaussian distributions. C38_mul_vector_wrong is a finding: multiplication with a column vector gives a wrong variance."},
 {"property": "C39", "status": "proved", "theorems": ["Stheno.C39_entropy", "Stheno.C39_kl", "Stheno.C39_kl_zero", "Stheno.C39_w2", "Stheno.C39_w2_symm", "Stheno.C39_w2_zero"], "note": "kl is the Kullback-Leibler divergence as defined in Mathlib; w2 is the infimum over couplings."},
 {"property": "C44", "status": "proved", "theorems": ["Stheno.C44_sample", "Stheno.C44_chol"], "note": "Random states are replaced by independent standard normal numbers on a probability space."},
 {"property": "C34", "status": "proved", "theorems": ["Stheno.C34_history", "Stheno.C34_once", "Stheno.C34_varMean", "Stheno.C34_diagonalise", "Stheno.C34_bounds", "Stheno.C34_mean_is_zero", "Stheno.C44_lazy", "Stheno.C34_fdd", "Stheno.C34_number_zero"], "note": "For all sequences of accesses, adaptively chosen. C34_number_zero is a finding: if the mean is the number 0, mean_var and marginals depend on what was done before."},
 {"property": "C17", "status": "proved", "theorems": ["Stheno.C17_conditional", "Stheno.C17_exists"], "note": "Regular conditional distributions, conditional expectations and conditional covariances as defined in Mathlib. C17_exists: Gaussian processes as assumed in C17_conditional exist."},
 {"property": "C37", "status": "proved", "theorems": ["Stheno.C37_reading", "Stheno.C37_regular", "Stheno.logpdf_pairs", "Stheno.logpdf_plain"], "note": "For any number of pairs on both sides, in all notations of logpdf and of conditioning, with missing data. logpdf_pairs and logpdf_plain: the log-densities exist."},
 {"property": "C29", "status": "proved", "theorems": ["Stheno.C29_regular", "Stheno.joint_normal", "Stheno.C29_multi_wrong"], "note": "The rows that belong to an FDD are identified by their distribution. C29_multi_wrong is a finding: for FDDs of multi-output processes the rows are wrong."},
 {"property": "C42", "status": "proved", "theorems": ["Stheno.C42_Kx", "Stheno.C42_Kx_fresh", "Stheno.C42_mu", "Stheno.C42_elbo", "Stheno.C42_Kz", "Stheno.C42_A", "Stheno.C42_alive", "Stheno.C42_used", "Stheno.C42_used_mean", "Stheno.C42_Kz_wrong"], "note": "For all histories of questions and changes of the model. C42_alive: keys stay valid because the observed process refers to the measure. C42_used: posteriors are computed with these quantities. C42_Kz_wrong is a finding: if _compute raises after K_z was kept, then asking for K_z again returns."},
 {"property": "C40", "status": "proved", "theorems": ["Stheno.C40_regular", "Stheno.C40_elbo_regular", "Stheno.C40_notations", "Stheno.C40_elbo_notations", "Stheno.C40_reading", "Stheno.C40_elbo_reading"], "note": "For VFE, FITC and DTC, in all notations and with missing data: posterior means and kernels at all inputs, and the ELBO. The inducing points must have no noise and the noise of the data must be diagonal and positive. Without the jitter that the code adds."},
 {"property": "C41", "status": "proved", "theorems": ["Stheno.C41_regular", "Stheno.C41_total", "Stheno.C41_notations", "Stheno.C41_reading", "Stheno.C41_approx"], "note": "For any inducing points, whatever was asked of the object before. C41_total: the ELBO exists. C41_approx: for FITC and DTC, where no bound holds, the ELBO is the log-density of the approximate model. Without the jitter that the code adds."},
 {"property": "C14", "status": "proved", "theorems": ["Stheno.C14_moments", "Stheno.C14_cross", "Stheno.C14_mean_bias", "Stheno.C14_twice"], "note": "For every program, every measure of it (posteriors included) and every Gaussian process with the means and covariances that calls of the model return: calls of the mean and kernel of p * q return, the mean is the product of the means, the kernel is the covariance of the pointwise products, and the kernels with earlier processes, in both directions, are the covariances of the pointwise product with them. C14_mean_bias: the mean is not the expectation of the product, the covariance of p and q is missing. C14_twice: taking the product twice gives two different processes, and by how much. Inputs are single inputs at which p and q have one value per row. That such Gaussian processes exist is C17_exists."},
 {"property": "C13", "status": "proved", "theorems": ["Stheno.C13_reading", "Stheno.C13_mean", "Stheno.C13_kernel", "Stheno.C13_self", "Stheno.C13_exact", "Stheno.C13_exact_mean", "Stheno.C13_exact_kernel", "Stheno.C13_weights", "Stheno.C13_measures", "Stheno.C13_returns_iff", "Stheno.C13_raises"], "note": "For all grids, weights, steps and derivatives; what the library fdm returns is a parameter. C13_weights: weights that satisfy the order conditions exist and are unique. C13_raises: if p is in several measures, diff_approx raises an AssertionError for some iteration orders of the set of measures; C13_returns_iff says exactly when it returns. Shifts move all coordinates of multi-dimensional inputs, so exactness is for one-dimensional inputs."},
 {"property": "C47", "status": "proved", "theorems": ["Stheno.C47_stationary", "Stheno.C47_elwise", "Stheno.C47_gp", "Stheno.C47_variance", "Stheno.C47_keeps", "Stheno.C47_loses", "Stheno.C47_sum", "Stheno.C47_posterior"], "note": "At numeric inputs of any number of features. C47_keeps, C47_loses, C47_sum and C47_posterior are at any later time and in every measure. When mlkernels calls its own kernels stationary is part of the model (a contract)."},
 {"property": "C48", "status": "proved", "theorems": ["Stheno.C48_noise", "Stheno.C48_raises"], "note": "For single-output processes and cross processes of them."},
 {"property": "C49", "status": "proved", "theorems": ["Stheno.C49_optimal", "Stheno.C49_achieved", "Stheno.C49_posterior", "Stheno.C49_regular"], "note": "For diagonal noise of the data. C49_achieved: such random vectors exist and attain the bound. C49_regular: what the other theorems are about exists in regular programs. C49_posterior also holds for FITC and DTC. Without the jitter that the code adds."},
 {"property": "C50", "status": "proved", "theorems": ["Stheno.C50_conditional", "Stheno.C50_exists", "Stheno.C21_sparse"], "note": "C50_conditional: calls of means and kernels of the posterior return, and what they return are the conditional distribution, expectations and covariances as defined in Mathlib. C50_exists: such models exist for regular programs. Without the jitter that the code adds."},
 {"property": "C51", "status": "proved", "theorems": ["Stheno.C51_reading", "Stheno.C51_mean", "Stheno.C51_kernel", "Stheno.C51_equal", "Stheno.C51_calls", "Stheno.C51_measures", "Stheno.C51_returns", "Stheno.C51_kind", "Stheno.C51_no_kind", "Stheno.C51_sub_function", "Stheno.C51_division", "Stheno.C51_sum_raises"], "note": "Operands are Python numbers, functions and processes; NumPy arrays and NumPy numbers, whose own operators come first, are not modelled. The theorems about means and covariances are for expressions in which no two processes are multiplied (for products see C14); those about measures, kinds and calls that return are for all expressions. C51_calls leaves out select and vectors of shifts and stretches."},
 {"property": "C52", "status": "proved", "theorems": ["Stheno.C52_mean", "Stheno.C52_kernel", "Stheno.C52_sum", "Stheno.C52_negative", "Stheno.C52_name"], "note": "At numeric inputs. What mlkernels makes of a number or a function times OneMean() or OneKernel() is a contract."},
 {"property": "C53", "status": "proved", "theorems": ["Stheno.C53_uncorrelated", "Stheno.C53_kept", "Stheno.C53_gp", "Stheno.C53_constant", "Stheno.C53_function"], "note": "For regular programs; values at numeric inputs. Without the jitter that the code adds."},
 {"property": "C54", "status": "proved", "theorems": ["Stheno.C54_jitter_mean", "Stheno.C54_jitter_kernel", "Stheno.C54_jitter_elwise", "Stheno.C54_returns", "Stheno.C54_more_noise", "Stheno.C54_jitter_more", "Stheno.C54_more_jitter", "Stheno.C54_zero", "Stheno.C54_limit", "Stheno.twice_stuck", "Stheno.C54_density", "Stheno.C54_sample", "Stheno.C54_fdd", "Stheno.C54_logpdf", "Stheno.C54_logpdf_returns", "Stheno.C54_joint_returns", "Stheno.C54_logpdf_limit", "Stheno.C54_chain"], "note": "C54_jitter_* and C54_zero: for every program without custom rules. The others: for exact observations; C54_more_noise, C54_jitter_more, C54_more_jitter and C54_limit also for programs without products of two processes, because the kernel of a product depends on posterior means. twice_stuck: an example that raises without jitter. C54_density and C54_sample: for every normal. C54_chain: for the log-density of two FDDs at numeric inputs and complete data."},
 {"property": "C55", "status": "proved", "theorems": ["Stheno.C55_reading", "Stheno.C55_notations", "Stheno.C55_regular", "Stheno.C55_more", "Stheno.C55_noiseless", "Stheno.C55_exact"], "note": "For VFE only; inducing points at numeric inputs, so that FDDs of cross processes appear as lists of FDDs. Where both bounds exist; C41_total says when. Without the jitter that the code adds."},
 {"property": "C56", "status": "proved", "theorems": ["Stheno.C56_kernel", "Stheno.C56_elwise", "Stheno.C56_regular", "Stheno.C56_mean", "Stheno.C56_expected", "Stheno.C56_products_differ"], "note": "C56_kernel and C56_elwise: for all programs of elementary operations without products of two processes, because the kernel of a product depends on posterior means, and for any inputs. C56_mean: for regular ones at numeric inputs. C56_expected: for all programs. Exact and approximate observations, and chains of them."},
 {"property": "C57", "status": "proved", "theorems": ["Stheno.C57_error", "Stheno.C57_mean", "Stheno.C57_best", "Stheno.C57_total"], "note": "For exact observations. As in C17: the process is any Gaussian process with the means and covariances of the measure at the inputs that matter; C17_exists says that there is one."},
 {"property": "C58", "status": "proved", "theorems": ["Stheno.C58_reading", "Stheno.C58_regular", "Stheno.C58_average"], "note": "For exact observations. C58_reading: for the values of the processes. C58_regular: for what calls return in regular programs, with all notations for observations and with missing data. C58_average: the pooled noise and data for equal noise."},
 {"property": "C59", "status": "proved", "theorems": ["Stheno.C59_reading", "Stheno.C59_regular", "Stheno.C59_logpdf_reading", "Stheno.C59_logpdf"], "note": "For exact observations. C59_reading and C59_logpdf_reading: for the values of the processes. C59_regular and C59_logpdf: for what calls and log-densities return in regular programs, with all notations and with missing data."},
 {"property": "C60", "status": "proved", "theorems": ["Stheno.C60_independent", "Stheno.C60_irrelevant", "Stheno.C60_unchanged", "Stheno.C60_logpdf"], "note": "For what calls and log-densities return in regular programs, with all notations and with missing data. C60_irrelevant and C60_unchanged are about exact observations; C60_independent also about measures conditioned with inducing points."},
 {"property": "C61", "status": "proved", "theorems": ["Stheno.C61_missing", "Stheno.C61_prior", "Stheno.C61_logpdf"], "note": "For what calls and log-densities return in regular programs that continue the same program; exact observations, in all notations."},
 {"property": "C62", "status": "proved", "theorems": ["Stheno.C62_bound", "Stheno.C62_returns", "Stheno.C62_variance", "Stheno.C62_elbo_limit", "Stheno.C62_limit"], "note": "For pseudo-observations of processes of measures whose own posteriors have exact observations; limits for programs without products."},
 {"property": "C63", "status": "proved", "theorems": ["Stheno.C63_mean", "Stheno.C63_kernel", "Stheno.C63_elwise", "Stheno.C63_logpdf", "Stheno.C63_fresh"], "note": "For regular programs without products of processes; log-densities in all notations and with missing data. Both programs are assumed to be regular."},
 {"property": "C64", "status": "proved", "theorems": ["Stheno.C64_less", "Stheno.C64_together", "Stheno.C64_chain", "Stheno.C64_mutual", "Stheno.C64_diminishing", "Stheno.C64_order", "Stheno.C64_kl", "Stheno.C64_w2", "Stheno.C64_kl_zero", "Stheno.C64_w2_zero", "Stheno.C64_entropy", "Stheno.C64_divergence"], "note": "For regular programs and FDDs of single-output processes at numeric inputs with positive definite variances. C64_less is for exact and sparse observations; C64_chain and C64_mutual for exact ones, in all notations and with missing data."},
 {"property": "C65", "status": "proved", "theorems": ["Stheno.C65_gain", "Stheno.C65_score", "Stheno.C65_proper"], "note": "For exact observations in all notations and with missing data; the data are any random vector with the mean and variance of the FDDs. In C65_gain the programs that condition on the data form a family with a common beginning."},
 {"property": "C66", "status": "proved", "theorems": ["Stheno.C66_check", "Stheno.C66_rejects", "Stheno.C66_returns", "Stheno.C66_unique", "Stheno.C66_regular", "Stheno.C66_sizable", "Stheno.C66_widen_one", "Stheno.C66_widen_two", "Stheno.C66_twinned"], "note": "Broadcasting as in numpy for two-dimensional arrays. Broadcasting inside the computations with inducing points is not modelled."},
 {"property": "C67", "status": "proved", "theorems": ["Stheno.C67_raises", "Stheno.C67_returns"], "note": "For operations on the graph of measures and processes (the type Op). Exceptions of calls, of linear algebra and of wrong argument types are not among them."},
 {"property": "C68", "status": "proved", "theorems": ["Stheno.C68_new", "Stheno.C68_mean", "Stheno.C68_kernel", "Stheno.C68_condition", "Stheno.C68_ridge", "Stheno.C68_evidence"], "note": "For positive definite covariances of the weights and of the noise. The example is the README example of Bayesian linear regression."},
 {"property": "C69", "status": "proved", "theorems": ["Stheno.BNormal.C69_entropy", "Stheno.BNormal.C69_kl", "Stheno.BNormal.C69_kl_returns", "Stheno.BNormal.C69_logpdf", "Stheno.BNormal.C69_missing", "Stheno.BNormal.C69_vector", "Stheno.BNormal.C69_marginals", "Stheno.BNormal.C69_bounds", "Stheno.BNormal.C69_diagonalise", "Stheno.BNormal.C69_add", "Stheno.BNormal.C69_shift", "Stheno.BNormal.C69_mul", "Stheno.BNormal.C69_lmatmul", "Stheno.BNormal.C69_rmatmul", "Stheno.BNormal.C69_returns", "Stheno.BNormal.C69_sample", "Stheno.BNormal.C69_w2", "Stheno.BNormal.C69_w2_single", "Stheno.BNormal.C69_w2_bound", "Stheno.BNormal.C69_w2_wrong", "Stheno.BNormal.C69_m2", "Stheno.BNormal.C69_m2_raises", "Stheno.BNormal.C69_m2_wrong"], "note": "The functions of lab and matrix on batches are contracts (Tensor). Missing values with batch dimensions in the mean or variance are modelled as raising."},
 {"property": "C70", "status": "proved", "theorems": ["Stheno.BData.C70_compute", "Stheno.BData.C70_shapes", "Stheno.BData.C70_formulas", "Stheno.BData.C70_bound", "Stheno.BData.C70_exact", "Stheno.BData.C70_posterior", "Stheno.BData.C70_sparse", "Stheno.C70_combine", "Stheno.C70_combine_raises", "Stheno.C70_unpack", "Stheno.C70_roundtrip"], "note": "For given arrays of kernel matrices and means; the functions of lab, matrix and mlkernels on batches are contracts. Without jitter and missing values."},
 {"property": "C71", "status": "proved", "theorems": ["Stheno.C71_pairwise", "Stheno.C71_elwise", "Stheno.C71_mean", "Stheno.C71_normal", "Stheno.C71_pairwise_returns", "Stheno.C71_elwise_returns", "Stheno.C71_mean_returns", "Stheno.C71_normal_returns"], "note": "For expressions without derivatives, with the simplifications of Eval; the functions of lab, matrix and mlkernels on batches are contracts."},
 {"property": "C72", "status": "proved", "theorems": ["Stheno.Bat.C72_state", "Stheno.Bat.C72_raises", "Stheno.Bat.C72_lookup", "Stheno.Bat.C72_mean", "Stheno.Bat.C72_kernel", "Stheno.Bat.C72_elwise", "Stheno.Bat.C72_mean_returns", "Stheno.Bat.C72_kernel_returns", "Stheno.Bat.C72_elwise_returns"], "note": "For programs without derivatives whose rules for add_gp are not functions of kernels; shifts, stretches and scalars are not batches."},
 {"property": "C73", "status": "proved", "theorems": ["Stheno.Bat.C73_noise", "Stheno.Bat.C73_fdd", "Stheno.Bat.C73_condition", "Stheno.Bat.C73_sample", "Stheno.Bat.C73_normal", "Stheno.Bat.C73_diag", "Stheno.Bat.C73_density", "Stheno.Bat.C73_logpdf", "Stheno.Bat.C73_normal_returns", "Stheno.Bat.C73_density_returns"], "note": "For programs without derivatives, without missing values; FDDs with batches of noises are not combined, and combined FDDs have more than one row."},
 {"property": "C74", "status": "proved", "theorems": ["Stheno.Bat.C74_missing", "Stheno.Bat.C74_batch", "Stheno.Bat.ExampleMissing.C74_wrong"], "note": "For noises without batch dimensions. That B.take takes along the first axis is a contract of lab."},
 {"property": "C75", "status": "proved", "theorems": ["Stheno.Bat.C75_make", "Stheno.Bat.C75_compute", "Stheno.Bat.C75_logpdf", "Stheno.Bat.C75_returns"], "note": "If FDDs are combined, their noises have no batch dimensions and at least two rows in total. The dictionaries of the objects (C42) are not modelled for batches."},
 {"property": "C76", "status": "proved", "theorems": ["Stheno.Bat.C76_bound", "Stheno.Bat.C76_exact", "Stheno.Bat.C76_more", "Stheno.Bat.C76_chain", "Stheno.Bat.C76_returns"], "note": "The programs at all indices are regular. The restrictions of C73 and C75 on combined FDDs apply. Values are not missing."},
 {"property": "C77", "status": "proved", "theorems": ["Stheno.Bat.C77_variance", "Stheno.Bat.C77_posSemidef", "Stheno.Bat.C77_same", "Stheno.Bat.C77_sequential", "Stheno.Bat.C77_inducing", "Stheno.Bat.C77_returns"], "note": "C77_variance: in all programs. The other theorems: the programs at all indices are regular, and inputs are arrays. The restrictions of C73 on combined FDDs apply. Values are not missing. C77_sequential: both lists have at least one value. C77_inducing: the noise of the data is diagonal and positive."}
]}
