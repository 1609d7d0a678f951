Axioms of the theorems in MANIFEST.json, as printed by `#print axioms`.

Stheno.LazySpec.C01_vector               propext, Classical.choice, Quot.sound
Stheno.LazySpec.C01_vector_stable        propext, Classical.choice, Quot.sound
Stheno.LazySpec.C01_matrix               propext, Classical.choice, Quot.sound
Stheno.LazySpec.C01_matrix_fresh         propext, Classical.choice, Quot.sound
Stheno.LazySpec.C01_matrix_stable        propext, Classical.choice, Quot.sound
Stheno.C02_total                         propext, Classical.choice, Quot.sound
Stheno.C02_terminates                    propext, Classical.choice, Quot.sound
Stheno.C02_foreign_observation_accepted  propext, Classical.choice, Quot.sound
Stheno.C03_kernel                        propext, Classical.choice, Quot.sound
Stheno.C03_mean                          propext, Classical.choice, Quot.sound
Stheno.C04_reads_irrelevant              propext, Classical.choice, Quot.sound
Stheno.C05_mean_call                     propext, Classical.choice, Quot.sound
Stheno.C05_kernel_call                   propext, Classical.choice, Quot.sound
Stheno.C05_elwise_call                   propext, Classical.choice, Quot.sound
Stheno.C05_extension                     propext, Classical.choice, Quot.sound
Stheno.C16_condition                     propext, Classical.choice, Quot.sound
Stheno.C16_gp_condition                  propext, Classical.choice, Quot.sound
Stheno.C22_empty                         propext, Classical.choice, Quot.sound
Stheno.C30_bijection                     propext, Classical.choice, Quot.sound
Stheno.C30_injective                     propext, Classical.choice, Quot.sound
Stheno.C30_taken                         propext, Classical.choice, Quot.sound
Stheno.C30_rename                        propext, Classical.choice, Quot.sound
Stheno.C30_refusal_loses_name            propext, Classical.choice, Quot.sound
Stheno.C30_constructor_leaks             propext, Classical.choice, Quot.sound
Stheno.C31_nested                        propext, Classical.choice, Quot.sound
Stheno.C31_inside                        propext, Classical.choice, Quot.sound
Stheno.C31_reentrant_leaks               propext, Classical.choice, Quot.sound
Stheno.C32_consistent                    propext, Classical.choice, Quot.sound
Stheno.C32_mismatch                      propext, Classical.choice, Quot.sound
Stheno.C32_mismatch_cross                propext, Classical.choice, Quot.sound
Stheno.C32_result                        propext, Classical.choice, Quot.sound
Stheno.C32_result_unary                  propext, Classical.choice, Quot.sound
Stheno.C32_succeeds                      propext, Classical.choice, Quot.sound
Stheno.C32_succeeds_unary                propext, Classical.choice, Quot.sound
Stheno.C32_order_irrelevant              propext, Classical.choice, Quot.sound
Stheno.C32_primary_depends_on_order      propext, Classical.choice, Quot.sound
Stheno.C43_rules_partial                 propext, Classical.choice, Quot.sound
Stheno.C43_rules                         propext, Classical.choice, Quot.sound
Stheno.C43_right_rule_ignored            propext, Classical.choice, Quot.sound
Stheno.C43_right_rule_never_used         propext, Classical.choice, Quot.sound
Stheno.C45_alive                         propext, Classical.choice, Quot.sound
Stheno.C06_reading                       propext, Classical.choice, Quot.sound
Stheno.C06_regular                       propext, Classical.choice, Quot.sound
Stheno.C07_reading                       propext, Classical.choice, Quot.sound
Stheno.C07_elwise                        propext, Classical.choice, Quot.sound
Stheno.C07_regular                       propext, Classical.choice, Quot.sound
Stheno.C08_reading                       propext, Classical.choice, Quot.sound
Stheno.C08_regular                       propext, Classical.choice, Quot.sound
Stheno.C10_sum                           propext, Classical.choice, Quot.sound
Stheno.C10_scale                         propext, Classical.choice, Quot.sound
Stheno.C10_addFn                         propext, Classical.choice, Quot.sound
Stheno.C10_fmul                          propext, Classical.choice, Quot.sound
Stheno.C10_sub                           propext, Classical.choice, Quot.sound
Stheno.C10_self_sub                      propext, Classical.choice, Quot.sound
Stheno.Interp.Reads.sum                  propext, Classical.choice, Quot.sound
Stheno.Interp.Reads.scale                propext, Classical.choice, Quot.sound
Stheno.Interp.Reads.addFn                propext, Classical.choice, Quot.sound
Stheno.Interp.Reads.fmul                 propext, Classical.choice, Quot.sound
Stheno.C11_pre                           propext, Classical.choice, Quot.sound
Stheno.C11_inputs                        propext, Classical.choice, Quot.sound
Stheno.Interp.Reads.pre                  propext, Classical.choice, Quot.sound
Stheno.C09_table                         propext, Classical.choice, Quot.sound
Stheno.C09_reading                       propext, Classical.choice, Quot.sound
Stheno.C09_regular                       propext, Classical.choice, Quot.sound
Stheno.C12_regular                       propext, Classical.choice, Quot.sound
Stheno.C12_reading                       propext, Classical.choice, Quot.sound
Stheno.C12_calls                         propext, Classical.choice, Quot.sound
Stheno.C12_rows                          propext, Classical.choice, Quot.sound
Stheno.C12_smooth                        propext, Classical.choice, Quot.sound
Stheno.C12_smooth_posterior              propext, Classical.choice, Quot.sound
Stheno.C12_smooth_gp                     propext, Classical.choice, Quot.sound
Stheno.C12_smooth_sum                    propext, Classical.choice, Quot.sound
Stheno.C12_smooth_scale                  propext, Classical.choice, Quot.sound
Stheno.C12_smooth_fn                     propext, Classical.choice, Quot.sound
Stheno.C12_smooth_twin                   propext, Classical.choice, Quot.sound
Stheno.C15_reading                       propext, Classical.choice, Quot.sound
Stheno.C15_mean                          propext, Classical.choice, Quot.sound
Stheno.C15_kernel                        propext, Classical.choice, Quot.sound
Stheno.C15_regular                       propext, Classical.choice, Quot.sound
Stheno.C15_later_raises                  propext, Classical.choice, Quot.sound
Stheno.C15_newest_raises                 propext, Classical.choice, Quot.sound
Stheno.C23_reading                       propext, Classical.choice, Quot.sound
Stheno.C23_regular                       propext, Classical.choice, Quot.sound
Stheno.C33_table                         propext, Classical.choice, Quot.sound
Stheno.C33_reading                       propext, Classical.choice, Quot.sound
Stheno.C33_calls                         propext, Classical.choice, Quot.sound
Stheno.C33_regular                       propext, Classical.choice, Quot.sound
Stheno.C28_single                        propext, Classical.choice, Quot.sound
Stheno.C28_regular                       propext, Classical.choice, Quot.sound
Stheno.C28_reading                       propext, Classical.choice, Quot.sound
Stheno.C46_extend                        propext, Classical.choice, Quot.sound
Stheno.C46_condition                     propext, Classical.choice, Quot.sound
Stheno.C46_mul                           propext, Classical.choice, Quot.sound
Stheno.C46_diff                          propext, Classical.choice, Quot.sound
Stheno.C46_stacks                        propext, Classical.choice, Quot.sound
Stheno.C46_condition_sparse              propext, Classical.choice, Quot.sound
Stheno.C18_reading                       propext, Classical.choice, Quot.sound
Stheno.C18_regular                       propext, Classical.choice, Quot.sound
Stheno.C19_reading                       propext, Classical.choice, Quot.sound
Stheno.C19_regular                       propext, Classical.choice, Quot.sound
Stheno.C20_calls                         propext, Classical.choice, Quot.sound
Stheno.C20_reading                       propext, Classical.choice, Quot.sound
Stheno.C20_regular                       propext, Classical.choice, Quot.sound
Stheno.C21_variance                      propext, Classical.choice, Quot.sound
Stheno.C21_posSemidef                    propext, Classical.choice, Quot.sound
Stheno.C21_regular                       propext, Classical.choice, Quot.sound
Stheno.C21_sparse                        propext, Classical.choice, Quot.sound
Stheno.C27_size                          propext, Classical.choice, Quot.sound
Stheno.C27_given                         propext, Classical.choice, Quot.sound
Stheno.C27_total                         propext, Classical.choice, Quot.sound
Stheno.C27_again_raises                  propext, Classical.choice, Quot.sound
Stheno.C27_later_raises                  propext, Classical.choice, Quot.sound
Stheno.C27_nested_wrong                  propext, Classical.choice, Quot.sound
Stheno.C26_mean                          propext, Classical.choice, Quot.sound
Stheno.C26_var                           propext, Classical.choice, Quot.sound
Stheno.C26_noise                         propext, Classical.choice, Quot.sound
Stheno.C26_total                         propext, Classical.choice, Quot.sound
Stheno.C26_cross                         propext, Classical.choice, Quot.sound
Stheno.C26_cross_nested                  propext, Classical.choice, Quot.sound
Stheno.C26_posterior_cross_raises        propext, Classical.choice, Quot.sound
Stheno.C24_notations                     propext, Classical.choice, Quot.sound
Stheno.C24_regular                       propext, Classical.choice, Quot.sound
Stheno.C24_gp_state                      propext, Classical.choice, Quot.sound
Stheno.C24_gp                            propext, Classical.choice, Quot.sound
Stheno.C24_pairs_leave                   propext, Classical.choice, Quot.sound
Stheno.C25_regular                       propext, Classical.choice, Quot.sound
Stheno.C35_marginals                     propext, Classical.choice, Quot.sound
Stheno.C35_variance                      propext, Classical.choice, Quot.sound
Stheno.C35_bounds                        propext, Classical.choice, Quot.sound
Stheno.C35_coverage                      propext, Classical.choice, Quot.sound
Stheno.C35_coverage_zero                 propext, Classical.choice, Quot.sound
Stheno.C35_posterior                     propext, Classical.choice, Quot.sound
Stheno.C36_missing                       propext, Classical.choice, Quot.sound
Stheno.C36_density                       propext, Classical.choice, Quot.sound
Stheno.C36_marginal                      propext, Classical.choice, Quot.sound
Stheno.C36_column                        propext, Classical.choice, Quot.sound
Stheno.C36_columns                       propext, Classical.choice, Quot.sound
Stheno.C36_independent                   propext, Classical.choice, Quot.sound
Stheno.C38_lmatmul                       propext, Classical.choice, Quot.sound
Stheno.C38_rmatmul                       propext, Classical.choice, Quot.sound
Stheno.C38_mul                           propext, Classical.choice, Quot.sound
Stheno.C38_const                         propext, Classical.choice, Quot.sound
Stheno.C38_neg_div                       propext, Classical.choice, Quot.sound
Stheno.C38_add                           propext, Classical.choice, Quot.sound
Stheno.C38_sub                           propext, Classical.choice, Quot.sound
Stheno.C38_m2                            propext, Classical.choice, Quot.sound
Stheno.C38_diagonalise                   propext, Classical.choice, Quot.sound
Stheno.C38_mul_vector_wrong              propext, Classical.choice, Quot.sound
Stheno.C38_mul_vector_const              propext, Classical.choice, Quot.sound
Stheno.C39_entropy                       propext, Classical.choice, Quot.sound
Stheno.C39_kl                            propext, Classical.choice, Quot.sound
Stheno.C39_kl_zero                       propext, Classical.choice, Quot.sound
Stheno.C39_w2                            propext, Classical.choice, Quot.sound
Stheno.C39_w2_symm                       propext, Classical.choice, Quot.sound
Stheno.C39_w2_zero                       propext, Classical.choice, Quot.sound
Stheno.C44_sample                        propext, Classical.choice, Quot.sound
Stheno.C44_chol                          propext, Classical.choice, Quot.sound
Stheno.C34_history                       propext, Classical.choice, Quot.sound
Stheno.C34_once                          propext, Classical.choice, Quot.sound
Stheno.C34_varMean                       propext, Classical.choice, Quot.sound
Stheno.C34_diagonalise                   propext, Classical.choice, Quot.sound
Stheno.C34_bounds                        propext, Classical.choice, Quot.sound
Stheno.C34_mean_is_zero                  propext, Classical.choice, Quot.sound
Stheno.C44_lazy                          propext, Classical.choice, Quot.sound
Stheno.C34_fdd                           propext, Classical.choice, Quot.sound
Stheno.C34_number_zero                   propext, Classical.choice, Quot.sound
Stheno.C17_conditional                   propext, Classical.choice, Quot.sound
Stheno.C17_exists                        propext, Classical.choice, Quot.sound
Stheno.C37_reading                       propext, Classical.choice, Quot.sound
Stheno.C37_regular                       propext, Classical.choice, Quot.sound
Stheno.logpdf_pairs                      propext, Classical.choice, Quot.sound
Stheno.logpdf_plain                      propext, Classical.choice, Quot.sound
Stheno.C29_regular                       propext, Classical.choice, Quot.sound
Stheno.joint_normal                      propext, Classical.choice, Quot.sound
Stheno.C29_multi_wrong                   propext, Classical.choice, Quot.sound
Stheno.C42_Kx                            propext, Classical.choice, Quot.sound
Stheno.C42_Kx_fresh                      propext, Classical.choice, Quot.sound
Stheno.C42_mu                            propext, Classical.choice, Quot.sound
Stheno.C42_elbo                          propext, Classical.choice, Quot.sound
Stheno.C42_Kz                            propext, Classical.choice, Quot.sound
Stheno.C42_A                             propext, Classical.choice, Quot.sound
Stheno.C42_alive                         propext, Classical.choice, Quot.sound
Stheno.C42_used                          propext, Classical.choice, Quot.sound
Stheno.C42_used_mean                     propext, Classical.choice, Quot.sound
Stheno.C42_Kz_wrong                      propext, Classical.choice, Quot.sound
Stheno.C40_regular                       propext, Classical.choice, Quot.sound
Stheno.C40_elbo_regular                  propext, Classical.choice, Quot.sound
Stheno.C40_notations                     propext, Classical.choice, Quot.sound
Stheno.C40_elbo_notations                propext, Classical.choice, Quot.sound
Stheno.C40_reading                       propext, Classical.choice, Quot.sound
Stheno.C40_elbo_reading                  propext, Classical.choice, Quot.sound
Stheno.C41_regular                       propext, Classical.choice, Quot.sound
Stheno.C41_total                         propext, Classical.choice, Quot.sound
Stheno.C41_notations                     propext, Classical.choice, Quot.sound
Stheno.C41_reading                       propext, Classical.choice, Quot.sound
Stheno.C41_approx                        propext, Classical.choice, Quot.sound
Stheno.C14_moments                       propext, Classical.choice, Quot.sound
Stheno.C14_cross                         propext, Classical.choice, Quot.sound
Stheno.C14_mean_bias                     propext, Classical.choice, Quot.sound
Stheno.C14_twice                         propext, Classical.choice, Quot.sound
Stheno.C13_reading                       propext, Classical.choice, Quot.sound
Stheno.C13_mean                          propext, Classical.choice, Quot.sound
Stheno.C13_kernel                        propext, Classical.choice, Quot.sound
Stheno.C13_self                          propext, Classical.choice, Quot.sound
Stheno.C13_exact                         propext, Classical.choice, Quot.sound
Stheno.C13_exact_mean                    propext, Classical.choice, Quot.sound
Stheno.C13_exact_kernel                  propext, Classical.choice, Quot.sound
Stheno.C13_weights                       propext, Classical.choice, Quot.sound
Stheno.C13_measures                      propext, Classical.choice, Quot.sound
Stheno.C13_returns_iff                   propext, Classical.choice, Quot.sound
Stheno.C13_raises                        propext, Classical.choice, Quot.sound
Stheno.C47_stationary                    propext, Classical.choice, Quot.sound
Stheno.C47_elwise                        propext, Classical.choice, Quot.sound
Stheno.C47_gp                            propext, Classical.choice, Quot.sound
Stheno.C47_variance                      propext, Classical.choice, Quot.sound
Stheno.C47_keeps                         propext, Classical.choice, Quot.sound
Stheno.C47_loses                         propext, Classical.choice, Quot.sound
Stheno.C47_sum                           propext, Classical.choice, Quot.sound
Stheno.C47_posterior                     propext, Classical.choice, Quot.sound
Stheno.C48_noise                         propext, Classical.choice, Quot.sound
Stheno.C48_raises                        propext, Classical.choice, Quot.sound
Stheno.C49_optimal                       propext, Classical.choice, Quot.sound
Stheno.C49_achieved                      propext, Classical.choice, Quot.sound
Stheno.C49_posterior                     propext, Classical.choice, Quot.sound
Stheno.C49_regular                       propext, Classical.choice, Quot.sound
Stheno.C50_conditional                   propext, Classical.choice, Quot.sound
Stheno.C50_exists                        propext, Classical.choice, Quot.sound
Stheno.C21_sparse                        propext, Classical.choice, Quot.sound
Stheno.C51_reading                       propext, Classical.choice, Quot.sound
Stheno.C51_mean                          propext, Classical.choice, Quot.sound
Stheno.C51_kernel                        propext, Classical.choice, Quot.sound
Stheno.C51_equal                         propext, Classical.choice, Quot.sound
Stheno.C51_calls                         propext, Classical.choice, Quot.sound
Stheno.C51_measures                      propext, Classical.choice, Quot.sound
Stheno.C51_returns                       propext, Classical.choice, Quot.sound
Stheno.C51_kind                          propext, Classical.choice, Quot.sound
Stheno.C51_no_kind                       propext, Classical.choice, Quot.sound
Stheno.C51_sub_function                  propext, Classical.choice, Quot.sound
Stheno.C51_division                      propext, Classical.choice, Quot.sound
Stheno.C51_sum_raises                    propext, Classical.choice, Quot.sound
Stheno.C52_mean                          propext, Classical.choice, Quot.sound
Stheno.C52_kernel                        propext, Classical.choice, Quot.sound
Stheno.C52_sum                           propext, Classical.choice, Quot.sound
Stheno.C52_negative                      propext, Classical.choice, Quot.sound
Stheno.C52_name                          propext, Classical.choice, Quot.sound
Stheno.C53_uncorrelated                  propext, Classical.choice, Quot.sound
Stheno.C53_kept                          propext, Classical.choice, Quot.sound
Stheno.C53_gp                            propext, Classical.choice, Quot.sound
Stheno.C53_constant                      propext, Classical.choice, Quot.sound
Stheno.C53_function                      propext, Classical.choice, Quot.sound
Stheno.C54_jitter_mean                   propext, Classical.choice, Quot.sound
Stheno.C54_jitter_kernel                 propext, Classical.choice, Quot.sound
Stheno.C54_jitter_elwise                 propext, Classical.choice, Quot.sound
Stheno.C54_returns                       propext, Classical.choice, Quot.sound
Stheno.C54_more_noise                    propext, Classical.choice, Quot.sound
Stheno.C54_jitter_more                   propext, Classical.choice, Quot.sound
Stheno.C54_more_jitter                   propext, Classical.choice, Quot.sound
Stheno.C54_zero                          propext, Classical.choice, Quot.sound
Stheno.C54_limit                         propext, Classical.choice, Quot.sound
Stheno.twice_stuck                       propext, Classical.choice, Quot.sound
Stheno.C54_density                       propext, Classical.choice, Quot.sound
Stheno.C54_sample                        propext, Classical.choice, Quot.sound
Stheno.C54_fdd                           propext, Classical.choice, Quot.sound
Stheno.C54_logpdf                        propext, Classical.choice, Quot.sound
Stheno.C54_logpdf_returns                propext, Classical.choice, Quot.sound
Stheno.C54_joint_returns                 propext, Classical.choice, Quot.sound
Stheno.C54_logpdf_limit                  propext, Classical.choice, Quot.sound
Stheno.C54_chain                         propext, Classical.choice, Quot.sound
Stheno.C55_reading                       propext, Classical.choice, Quot.sound
Stheno.C55_notations                     propext, Classical.choice, Quot.sound
Stheno.C55_regular                       propext, Classical.choice, Quot.sound
Stheno.C55_more                          propext, Classical.choice, Quot.sound
Stheno.C55_noiseless                     propext, Classical.choice, Quot.sound
Stheno.C55_exact                         propext, Classical.choice, Quot.sound
Stheno.C56_kernel                        propext, Classical.choice, Quot.sound
Stheno.C56_elwise                        propext, Classical.choice, Quot.sound
Stheno.C56_regular                       propext, Classical.choice, Quot.sound
Stheno.C56_mean                          propext, Classical.choice, Quot.sound
Stheno.C56_expected                      propext, Classical.choice, Quot.sound
Stheno.C56_products_differ               propext, Classical.choice, Quot.sound
Stheno.C57_error                         propext, Classical.choice, Quot.sound
Stheno.C57_mean                          propext, Classical.choice, Quot.sound
Stheno.C57_best                          propext, Classical.choice, Quot.sound
Stheno.C57_total                         propext, Classical.choice, Quot.sound
Stheno.C58_reading                       propext, Classical.choice, Quot.sound
Stheno.C58_regular                       propext, Classical.choice, Quot.sound
Stheno.C58_average                       propext, Classical.choice, Quot.sound
Stheno.C59_reading                       propext, Classical.choice, Quot.sound
Stheno.C59_regular                       propext, Classical.choice, Quot.sound
Stheno.C59_logpdf_reading                propext, Classical.choice, Quot.sound
Stheno.C59_logpdf                        propext, Classical.choice, Quot.sound
Stheno.C60_independent                   propext, Classical.choice, Quot.sound
Stheno.C60_irrelevant                    propext, Classical.choice, Quot.sound
Stheno.C60_unchanged                     propext, Classical.choice, Quot.sound
Stheno.C60_logpdf                        propext, Classical.choice, Quot.sound
Stheno.C61_missing                       propext, Classical.choice, Quot.sound
Stheno.C61_prior                         propext, Classical.choice, Quot.sound
Stheno.C61_logpdf                        propext, Classical.choice, Quot.sound
Stheno.C62_bound                         propext, Classical.choice, Quot.sound
Stheno.C62_returns                       propext, Classical.choice, Quot.sound
Stheno.C62_variance                      propext, Classical.choice, Quot.sound
Stheno.C62_elbo_limit                    propext, Classical.choice, Quot.sound
Stheno.C62_limit                         propext, Classical.choice, Quot.sound
Stheno.C63_mean                          propext, Classical.choice, Quot.sound
Stheno.C63_kernel                        propext, Classical.choice, Quot.sound
Stheno.C63_elwise                        propext, Classical.choice, Quot.sound
Stheno.C63_logpdf                        propext, Classical.choice, Quot.sound
Stheno.C63_fresh                         propext, Classical.choice, Quot.sound
Stheno.C64_less                          propext, Classical.choice, Quot.sound
Stheno.C64_together                      propext, Classical.choice, Quot.sound
Stheno.C64_chain                         propext, Classical.choice, Quot.sound
Stheno.C64_mutual                        propext, Classical.choice, Quot.sound
Stheno.C64_diminishing                   propext, Classical.choice, Quot.sound
Stheno.C64_order                         propext, Classical.choice, Quot.sound
Stheno.C64_kl                            propext, Classical.choice, Quot.sound
Stheno.C64_w2                            propext, Classical.choice, Quot.sound
Stheno.C64_kl_zero                       propext, Classical.choice, Quot.sound
Stheno.C64_w2_zero                       propext, Classical.choice, Quot.sound
Stheno.C64_entropy                       propext, Classical.choice, Quot.sound
Stheno.C64_divergence                    propext, Classical.choice, Quot.sound
Stheno.C65_gain                          propext, Classical.choice, Quot.sound
Stheno.C65_score                         propext, Classical.choice, Quot.sound
Stheno.C65_proper                        propext, Classical.choice, Quot.sound
Stheno.C66_check                         propext, Classical.choice, Quot.sound
Stheno.C66_rejects                       propext, Classical.choice, Quot.sound
Stheno.C66_returns                       propext, Classical.choice, Quot.sound
Stheno.C66_unique                        propext, Classical.choice, Quot.sound
Stheno.C66_regular                       propext, Classical.choice, Quot.sound
Stheno.C66_sizable                       propext, Classical.choice, Quot.sound
Stheno.C66_widen_one                     propext, Classical.choice, Quot.sound
Stheno.C66_widen_two                     propext, Classical.choice, Quot.sound
Stheno.C66_twinned                       propext, Classical.choice, Quot.sound
Stheno.C67_raises                        propext, Classical.choice, Quot.sound
Stheno.C67_returns                       propext, Classical.choice, Quot.sound
Stheno.C68_new                           propext, Classical.choice, Quot.sound
Stheno.C68_mean                          propext, Classical.choice, Quot.sound
Stheno.C68_kernel                        propext, Classical.choice, Quot.sound
Stheno.C68_condition                     propext, Classical.choice, Quot.sound
Stheno.C68_ridge                         propext, Classical.choice, Quot.sound
Stheno.C68_evidence                      propext, Classical.choice, Quot.sound
Stheno.BNormal.C69_entropy               propext, Classical.choice, Quot.sound
Stheno.BNormal.C69_kl                    propext, Classical.choice, Quot.sound
Stheno.BNormal.C69_kl_returns            propext, Classical.choice, Quot.sound
Stheno.BNormal.C69_logpdf                propext, Classical.choice, Quot.sound
Stheno.BNormal.C69_missing               propext, Classical.choice, Quot.sound
Stheno.BNormal.C69_vector                propext, Classical.choice, Quot.sound
Stheno.BNormal.C69_marginals             propext, Classical.choice, Quot.sound
Stheno.BNormal.C69_bounds                propext, Classical.choice, Quot.sound
Stheno.BNormal.C69_diagonalise           propext, Classical.choice, Quot.sound
Stheno.BNormal.C69_add                   propext, Classical.choice, Quot.sound
Stheno.BNormal.C69_shift                 propext, Classical.choice, Quot.sound
Stheno.BNormal.C69_mul                   propext, Classical.choice, Quot.sound
Stheno.BNormal.C69_lmatmul               propext, Classical.choice, Quot.sound
Stheno.BNormal.C69_rmatmul               propext, Classical.choice, Quot.sound
Stheno.BNormal.C69_returns               propext, Classical.choice, Quot.sound
Stheno.BNormal.C69_sample                propext, Classical.choice, Quot.sound
Stheno.BNormal.C69_w2                    propext, Classical.choice, Quot.sound
Stheno.BNormal.C69_w2_single             propext, Classical.choice, Quot.sound
Stheno.BNormal.C69_w2_bound              propext, Classical.choice, Quot.sound
Stheno.BNormal.C69_w2_wrong              propext, Classical.choice, Quot.sound
Stheno.BNormal.C69_m2                    propext, Classical.choice, Quot.sound
Stheno.BNormal.C69_m2_raises             propext, Classical.choice, Quot.sound
Stheno.BNormal.C69_m2_wrong              propext, Classical.choice, Quot.sound
Stheno.BData.C70_compute                 propext, Classical.choice, Quot.sound
Stheno.BData.C70_shapes                  propext, Classical.choice, Quot.sound
Stheno.BData.C70_formulas                propext, Classical.choice, Quot.sound
Stheno.BData.C70_bound                   propext, Classical.choice, Quot.sound
Stheno.BData.C70_exact                   propext, Classical.choice, Quot.sound
Stheno.BData.C70_posterior               propext, Classical.choice, Quot.sound
Stheno.BData.C70_sparse                  propext, Classical.choice, Quot.sound
Stheno.C70_combine                       propext, Classical.choice, Quot.sound
Stheno.C70_combine_raises                propext, Classical.choice, Quot.sound
Stheno.C70_unpack                        propext, Quot.sound
Stheno.C70_roundtrip                     propext, Classical.choice, Quot.sound
Stheno.C71_pairwise                      propext, Classical.choice, Quot.sound
Stheno.C71_elwise                        propext, Classical.choice, Quot.sound
Stheno.C71_mean                          propext, Classical.choice, Quot.sound
Stheno.C71_normal                        propext, Classical.choice, Quot.sound
Stheno.C71_pairwise_returns              propext, Classical.choice, Quot.sound
Stheno.C71_elwise_returns                propext, Classical.choice, Quot.sound
Stheno.C71_mean_returns                  propext, Classical.choice, Quot.sound
Stheno.C71_normal_returns                propext, Classical.choice, Quot.sound
Stheno.Bat.C72_state                     propext, Classical.choice, Quot.sound
Stheno.Bat.C72_raises                    propext, Classical.choice, Quot.sound
Stheno.Bat.C72_lookup                    propext, Classical.choice, Quot.sound
Stheno.Bat.C72_mean                      propext, Classical.choice, Quot.sound
Stheno.Bat.C72_kernel                    propext, Classical.choice, Quot.sound
Stheno.Bat.C72_elwise                    propext, Classical.choice, Quot.sound
Stheno.Bat.C72_mean_returns              propext, Classical.choice, Quot.sound
Stheno.Bat.C72_kernel_returns            propext, Classical.choice, Quot.sound
Stheno.Bat.C72_elwise_returns            propext, Classical.choice, Quot.sound
Stheno.Bat.C73_noise                     propext, Classical.choice, Quot.sound
Stheno.Bat.C73_fdd                       propext, Classical.choice, Quot.sound
Stheno.Bat.C73_condition                 propext, Classical.choice, Quot.sound
Stheno.Bat.C73_sample                    propext, Classical.choice, Quot.sound
Stheno.Bat.C73_normal                    propext, Classical.choice, Quot.sound
Stheno.Bat.C73_diag                      propext, Classical.choice, Quot.sound
Stheno.Bat.C73_density                   propext, Classical.choice, Quot.sound
Stheno.Bat.C73_logpdf                    propext, Classical.choice, Quot.sound
Stheno.Bat.C73_normal_returns            propext, Classical.choice, Quot.sound
Stheno.Bat.C73_density_returns           propext, Classical.choice, Quot.sound
Stheno.Bat.C74_missing                   propext, Classical.choice, Quot.sound
Stheno.Bat.C74_batch                     propext, Classical.choice, Quot.sound
Stheno.Bat.ExampleMissing.C74_wrong      propext, Classical.choice, Quot.sound
Stheno.Bat.C75_make                      propext, Classical.choice, Quot.sound
Stheno.Bat.C75_compute                   propext, Classical.choice, Quot.sound
Stheno.Bat.C75_logpdf                    propext, Classical.choice, Quot.sound
Stheno.Bat.C75_returns                   propext, Classical.choice, Quot.sound
Stheno.Bat.C76_bound                     propext, Classical.choice, Quot.sound
Stheno.Bat.C76_exact                     propext, Classical.choice, Quot.sound
Stheno.Bat.C76_more                      propext, Classical.choice, Quot.sound
Stheno.Bat.C76_chain                     propext, Classical.choice, Quot.sound
Stheno.Bat.C76_returns                   propext, Classical.choice, Quot.sound
Stheno.Bat.C77_variance                  propext, Classical.choice, Quot.sound
Stheno.Bat.C77_posSemidef                propext, Classical.choice, Quot.sound
Stheno.Bat.C77_same                      propext, Classical.choice, Quot.sound
Stheno.Bat.C77_sequential                propext, Classical.choice, Quot.sound
Stheno.Bat.C77_inducing                  propext, Classical.choice, Quot.sound
Stheno.Bat.C77_returns                   propext, Classical.choice, Quot.sound
