# Axioms of each theorem (output of `#print axioms`)

* `AB.C01_add`: propext, Classical.choice, Quot.sound
* `AB.C01_subtract`: propext, Classical.choice, Quot.sound
* `AB.C01_negative`: propext, Classical.choice, Quot.sound
* `AB.C02_multiply`: propext, Classical.choice, Quot.sound
* `AB.C03_power`: propext, Classical.choice, Quot.sound
* `AB.C03_power_attained`: propext, Classical.choice, Quot.sound
* `AB.C03_power_errors`: propext, Quot.sound
* `AB.C03_power_array`: propext, Quot.sound
* `AB.C04_outer_product`: propext, Classical.choice, Quot.sound
* `AB.C04_outer_product_array`: propext, Classical.choice, Quot.sound
* `AB.C04_outer_power`: propext, Classical.choice, Quot.sound
* `AB.C04_outer_power_array`: propext, Classical.choice, Quot.sound
* `AB.C04_errors`: propext, Quot.sound
* `AB.C05_tensordot`: propext, Classical.choice, Quot.sound
* `AB.C05_arbitrary_bilinear`: propext, Classical.choice, Quot.sound
* `AB.C05_negative_weight_counterexample`: propext, Classical.choice, Quot.sound
* `AB.C06_wellFormed`: propext, Classical.choice, Quot.sound
* `AB.C07_arrays`: propext, Quot.sound
* `AB.C07_degenerate`: propext, Classical.choice, Quot.sound
* `AB.C07_outer_degenerate`: propext, Classical.choice, Quot.sound
* `AB.C08_add_subtract`: propext, Classical.choice, Quot.sound
* `AB.C08_negative`: propext, Classical.choice, Quot.sound
* `AB.C08_multiply`: propext, Classical.choice, Quot.sound
* `AB.C08_power`: propext, Classical.choice, Quot.sound
* `AB.C08_tensordot`: propext, Classical.choice, Quot.sound
* `AB.C08_outer_product`: propext, Classical.choice, Quot.sound
* `AB.C08_outer_power`: propext, Classical.choice, Quot.sound
* `AB.C09_eval_iff_choice`: propext, Classical.choice, Quot.sound
* `AB.C10_eval_interval`: propext, Classical.choice, Quot.sound
* `AB.C10_eval_elementwise_interval`: propext, Classical.choice, Quot.sound
* `AB.Poly.C11_arbitrary_bilinear`: propext, Classical.choice, Quot.sound
* `AB.Poly.C12_integer_power`: propext, Classical.choice, Quot.sound
* `AB.Poly.C12_negative`: propext
* `AB.Poly.C12_empty`: propext, Quot.sound
* `AB.Poly.C13_iter_partitions`: propext, Classical.choice, Quot.sound
* `AB.Poly.C13_errors`: propext, Quot.sound
* `AB.Poly.C14_multinomial`: propext, Classical.choice, Quot.sound
* `AB.Poly.C14_empty`: propext
* `AB.C15_enclose_enclosure`: propext, Classical.choice, Quot.sound
* `AB.TEA.C16_add`: propext, Classical.choice, Quot.sound
* `AB.TEA.C17_negative`: propext, Classical.choice, Quot.sound
* `AB.TEA.C17_subtract`: propext, Classical.choice, Quot.sound
* `AB.TEA.C18_multiply`: propext, Classical.choice, Quot.sound
* `AB.TEA.C19_power`: propext, Classical.choice, Quot.sound
* `AB.TEA.C20_arbitrary_bilinear`: propext, Classical.choice, Quot.sound
* `AB.TEA.C21_compose`: propext, Classical.choice, Quot.sound
* `AB.C21_degree_counterexample`: propext, Classical.choice, Quot.sound
* `AB.C21_uniform_counterexample`: propext, Classical.choice, Quot.sound
* `AB.TEA.C22_supplied`: propext, Classical.choice, Quot.sound
* `AB.TEA.C22_derived`: propext, Classical.choice, Quot.sound
* `AB.TEA.C22_builtin`: propext, Classical.choice, Quot.sound
* `AB.TEA.C23_power_other`: propext, Classical.choice, Quot.sound
* `AB.TEA.C23_divide`: propext, Classical.choice, Quot.sound
* `AB.TEA.C23_pow`: propext, Classical.choice, Quot.sound
* `AB.TEA.C23_divide_recip`: propext, Classical.choice, Quot.sound
* `AB.TEA.C24_degree_bound`: propext, Classical.choice, Quot.sound
* `AB.C25_derivative_formulas`: propext, Classical.choice, Quot.sound
* `AB.C25_supported`: propext, Classical.choice, Quot.sound
* `AB.C26_flags`: propext, Classical.choice, Quot.sound
* `AB.C27_maximum_value`: propext, Classical.choice, Quot.sound
* `AB.C27_minimum_value`: propext, Classical.choice, Quot.sound
* `AB.C27_abs_range`: propext, Classical.choice, Quot.sound
* `AB.C27_get_range_counterexample`: propext, Classical.choice, Quot.sound
* `AB.C28_monotone_over`: propext, Classical.choice, Quot.sound
* `AB.C29_sharp_monotone`: propext, Classical.choice, Quot.sound
* `AB.C30_capped_excludes`: propext, Classical.choice, Quot.sound
* `AB.C30_cap_counterexample`: propext, Classical.choice, Quot.sound
* `AB.C31_bounded_derivative`: propext, Classical.choice, Quot.sound
* `AB.C31_wrong_length`: propext, Classical.choice, Quot.sound
* `AB.C32_quadratic`: propext, Classical.choice, Quot.sound
* `AB.C32_softplus2`: propext, Classical.choice, Quot.sound
* `AB.C33_truthful_tables`: propext, Classical.choice, Quot.sound
* `AB.C33_exp`: propext, Classical.choice, Quot.sound
* `AB.C33_log`: propext, Classical.choice, Quot.sound
* `AB.C33_softplus`: propext, Classical.choice, Quot.sound
* `AB.C33_sigmoid`: propext, Classical.choice, Quot.sound
* `AB.C33_abs`: propext, Classical.choice, Quot.sound
* `AB.C33_abs_unsupported`: propext, Classical.choice, Quot.sound
* `AB.C33_sigmoid4_counterexample`: propext, Classical.choice, Quot.sound
* `AB.C33_swish3_counterexample`: propext, Classical.choice, Quot.sound
* `AB.C33_swish4_counterexample`: propext, Classical.choice, Quot.sound
* `AB.C33_array_generator`: propext, Classical.choice, Quot.sound
* `AB.C34_pow`: propext, Classical.choice, Quot.sound
* `AB.C34_straddle_counterexample`: propext, Classical.choice, Quot.sound
* `AB.C34_array_generator`: propext, Classical.choice, Quot.sound
* `AB.C34_finite`: propext, Classical.choice, Quot.sound
* `AB.C34_all_regions`: propext, Classical.choice, Quot.sound
* `AB.C34_ends_at_zero_counterexample`: propext, Classical.choice, Quot.sound
* `AB.C34_nan`: propext, Classical.choice, Quot.sound
* `AB.C34_outside`: propext, Classical.choice, Quot.sound
* `AB.C34_outside_instance`: propext, Classical.choice, Quot.sound
* `AB.C35_sign`: propext, Classical.choice, Quot.sound
* `AB.C35_errors`: propext, Classical.choice, Quot.sound
* `AB.GE.C36_match_sound`: propext, Classical.choice, Quot.sound
* `AB.GE.C37_match_complete`: propext, Classical.choice, Quot.sound
* `AB.GE.C37_match_none`: propext, Classical.choice, Quot.sound
* `AB.GE.C38_replace_preserves`: propext, Classical.choice, Quot.sound
* `AB.GE.Ex.C38_capture_counterexample`: propext
* `AB.GE.Ex.C38_unused_counterexample`: propext
* `AB.GE.Ex.C38_input_counterexample`: propext
* `AB.GE.C39_terminates`: propext, Quot.sound
* `AB.GE.C39_result_unique`: propext, Quot.sound
* `AB.GE.C39_empty_pattern`: propext
* `AB.JE.C40_jaxpr_graph_jaxpr`: propext, Classical.choice, Quot.sound
* `AB.JE.C40_same_jaxpr`: propext, Classical.choice, Quot.sound
* `AB.JE.C40_graph_jaxpr_graph`: propext, Classical.choice, Quot.sound
* `AB.JE.Ex.C40_instance`: propext, Classical.choice, Quot.sound
* `AB.JE.Ex.C40_dropvar_counterexample`: propext
* `AB.JE.C41_iff`: propext, Classical.choice, Quot.sound
* `AB.JE.C41_same_function`: propext, Classical.choice, Quot.sound
* `AB.JE.C41_rename`: propext, Classical.choice, Quot.sound
* `AB.JE.C41_refl`: propext, Classical.choice, Quot.sound
* `AB.JE.Ex.C41_instance`: propext
* `AB.JE.Ex.C41_consts_counterexample`: propext
* `AB.JE.Ex.C41_function_counterexample`: propext
* `AB.JB.C42_static`: propext, Classical.choice, Quot.sound
* `AB.JB.C42_taylor_bounds`: propext, Classical.choice, Quot.sound
* `AB.JB.C42_builtin`: propext, Classical.choice, Quot.sound
* `AB.JB.taylorBoundsOk_of_fits`: propext, Classical.choice, Quot.sound
* `AB.JB.C42_add_counterexample`: propext, Classical.choice, Quot.sound
* `AB.JB.C42_compose_counterexample`: propext, Classical.choice, Quot.sound
* `AB.JB.C42_builtin_static`: propext, Classical.choice, Quot.sound
* `AB.JB.C42_degree0`: propext, Classical.choice, Quot.sound
* `AB.JB.C43_lower_upper`: propext, Classical.choice, Quot.sound
* `AB.JB.C43_ordered_everywhere`: propext, Classical.choice, Quot.sound
* `AB.JB.C44_tables`: propext, Classical.choice, Quot.sound
* `AB.JB.C44_static`: propext, Classical.choice, Quot.sound
* `AB.JB.C44_exact_at_x0`: propext, Classical.choice, Quot.sound
* `AB.JB.C44_builtin`: propext, Classical.choice, Quot.sound
* `AB.JB.C45_directional`: propext, Classical.choice, Quot.sound
* `AB.JB.C45_taylor_polynomial`: propext, Classical.choice, Quot.sound
* `AB.JB.C45_scalar`: propext, Classical.choice, Quot.sound
* `AB.JB.C45_builtin`: propext, Classical.choice, Quot.sound
* `AB.JB.C45_tables`: propext, Classical.choice, Quot.sound
* `AB.JB.C45_tables_scalar`: propext, Classical.choice, Quot.sound
* `AB.JB.C45_tables_example`: propext, Classical.choice, Quot.sound
* `AB.JB.C46_negative_degree`: propext, Quot.sound
* `AB.JB.C46_rank`: propext, Classical.choice, Quot.sound
* `AB.JB.C46_no_rule`: propext, Quot.sound
* `AB.JB.C46_program`: propext, Quot.sound
* `AB.JB.C46_nothing_skipped`: propext, Classical.choice, Quot.sound
* `AB.JB.C47_static`: propext, Classical.choice, Quot.sound
* `AB.JB.C47_propagated_regions`: propext, Classical.choice, Quot.sound
* `AB.JB.C48_constant_folding`: propext, Classical.choice, Quot.sound
* `AB.C49_contract`: propext, Classical.choice, Quot.sound
* `AB.C49_dot_general`: propext, Classical.choice, Quot.sound
* `AB.C49_conv`: propext, Classical.choice, Quot.sound
* `AB.JB.C49_batch_counterexample`: propext, Classical.choice, Quot.sound
* `AB.Lax.C49_conv_contract`: propext, Classical.choice, Quot.sound
* `AB.JB.C49_conv_fits`: propext, Classical.choice, Quot.sound
* `AB.C50_pass_thru`: propext, Classical.choice, Quot.sound
* `AB.C50_reduce_sum`: propext, Classical.choice, Quot.sound
* `AB.C50_squeeze`: propext, Classical.choice, Quot.sound
* `AB.C50_transpose`: propext, Classical.choice, Quot.sound
* `AB.C50_reduce_window_sum`: propext, Quot.sound
* `AB.C50_reshape`: propext, Classical.choice, Quot.sound
* `AB.C50_jit`: propext, Quot.sound
* `AB.C50_pass_thru_prim`: propext, Classical.choice, Quot.sound
* `AB.C50_jit_body`: propext, Classical.choice, Quot.sound
* `AB.C50_broadcast_in_dim`: propext, Quot.sound
* `AB.JB.C50_reshape_counterexample`: propext, Classical.choice, Quot.sound
* `AB.JB.C50_jit_counterexample`: propext, Classical.choice, Quot.sound
* `AB.JE.C51_replace_preserves`: propext, Classical.choice, Quot.sound
* `AB.JE.C51_primitive_rule`: propext, Classical.choice, Quot.sound
* `AB.JE.Ex.C51_instance`: propext, Classical.choice, Quot.sound
* `AB.JE.Ex.C51_instance_replaced`: propext
* `AB.JE.Ex.C51_intermediate_counterexample`: propext
* `AB.JE.Ex.C51_dropvar_counterexample`: propext, Classical.choice, Quot.sound
* `AB.JB.C52_form`: propext, Classical.choice, Quot.sound
* `AB.JB.C52_number_of_coefficients`: propext, Classical.choice, Quot.sound
* `AB.JB.C52_instance`: propext, Classical.choice, Quot.sound
* `AB.JB.C53_static`: propext, Classical.choice, Quot.sound
* `AB.JB.C53_total_correctness`: propext, Classical.choice, Quot.sound
* `AB.JB.C53_returns`: propext, Classical.choice, Quot.sound
* `AB.JB.C53_instance`: propext, Classical.choice, Quot.sound
* `AB.JB.C53_tables`: propext, Classical.choice, Quot.sound
* `AB.JB.C53_pow_propagate`: propext, Quot.sound
* `AB.JB.C53_zero_power_raises`: propext, Classical.choice, Quot.sound
* `AB.JB.C53_broadcast_raises`: propext, Classical.choice, Quot.sound
* `AB.JB.C53_reshape_raises`: propext, Classical.choice, Quot.sound
* `AB.JB.C53_labels_raises`: propext, Classical.choice, Quot.sound
* `AB.JB.C53_conv_returns`: propext, Quot.sound
* `AB.JB.C54_register`: propext, Classical.choice, Quot.sound
* `AB.JB.C54_register_sound`: propext, Quot.sound
* `AB.JB.C54_register_other`: propext, Quot.sound
* `AB.JB.C54_register_used`: propext, Quot.sound
* `AB.JB.C54_instance`: propext, Classical.choice, Quot.sound
* `AB.JB.C55_final_interval`: propext, Classical.choice, Quot.sound
* `AB.JB.C56_pipeline`: propext, Classical.choice, Quot.sound
* `AB.JB.C56_pipeline_single`: propext, Classical.choice, Quot.sound
* `AB.JB.C56_rewrite`: propext, Classical.choice, Quot.sound
* `AB.JB.C56_single`: propext, Classical.choice, Quot.sound
* `AB.JB.PEx.C56_instance`: propext, Classical.choice, Quot.sound
* `AB.JB.PEx.C56_rule_needed`: propext, Classical.choice, Quot.sound
* `AB.C57_outer_product`: propext, Classical.choice, Quot.sound
* `AB.C57_outer_power`: propext, Classical.choice, Quot.sound
* `AB.TEA.C57_init`: propext, Quot.sound
* `AB.TEA.C57_linear_length`: propext, Classical.choice, Quot.sound
* `AB.TEA.C57_multiply`: propext, Classical.choice, Quot.sound
* `AB.TEA.C57_power`: propext, Classical.choice, Quot.sound
* `AB.TEA.C57_arbitrary_bilinear`: propext, Classical.choice, Quot.sound
* `AB.TEA.C57_compose`: propext, Classical.choice, Quot.sound
* `AB.TEA.C57_elementwise`: propext, Classical.choice, Quot.sound
* `AB.TEA.C57_elementwise_supplied`: propext, Classical.choice, Quot.sound
* `AB.TEA.C57_power_other`: propext, Classical.choice, Quot.sound
* `AB.TEA.C57_divide`: propext, Classical.choice, Quot.sound
* `AB.C58_rounded_tables`: propext, Classical.choice, Quot.sound
* `AB.C58_away_truthful`: propext, Classical.choice, Quot.sound
* `AB.C58_away_sound`: propext, Classical.choice, Quot.sound
* `AB.C58_listed`: propext, Classical.choice, Quot.sound
* `AB.C58_local_tables`: propext, Classical.choice, Quot.sound
* `AB.C58_local_away_sound`: propext, Classical.choice, Quot.sound
* `AB.C58_swish4`: propext, Classical.choice, Quot.sound
* `AB.C59_cap_error`: propext, Classical.choice, Quot.sound
* `AB.C59_truthful`: propext, Classical.choice, Quot.sound
* `AB.C59_exact`: propext, Classical.choice, Quot.sound
* `AB.C59_exp`: propext, Classical.choice, Quot.sound
* `AB.C59_abs`: propext, Classical.choice, Quot.sound
* `AB.C59_rounded`: propext, Classical.choice, Quot.sound
* `AB.C59_softplus2`: propext, Classical.choice, Quot.sound
* `AB.C59_pow`: propext, Classical.choice, Quot.sound
* `AB.JB.C60_coefficients`: propext, Classical.choice, Quot.sound
* `AB.JB.C60_bounds`: propext, Classical.choice, Quot.sound
* `AB.JB.C60_builtin`: propext, Classical.choice, Quot.sound
* `AB.C60_elementwise`: propext, Classical.choice, Quot.sound
* `AB.C60_pow`: propext, Classical.choice, Quot.sound
* `AB.JB.C60_conv`: propext, Classical.choice, Quot.sound
* `AB.JB.C61_step`: propext, Classical.choice, Quot.sound
* `AB.JB.C61_iterates`: propext, Classical.choice, Quot.sound
* `AB.JB.C61_instance`: propext, Classical.choice, Quot.sound
* `AB.C62_point_value`: propext, Classical.choice, Quot.sound
* `AB.JB.C62_gap`: propext, Classical.choice, Quot.sound
* `AB.JB.C62_gap_scalar`: propext, Classical.choice, Quot.sound
* `AB.JB.C63_polynomial_exact`: propext, Classical.choice, Quot.sound
* `AB.JB.C63_instance`: propext, Classical.choice, Quot.sound
* `AB.JB.C63_degree_needed`: propext, Classical.choice, Quot.sound
* `AB.TEA.C65_multiply`: propext, Classical.choice, Quot.sound
* `AB.TEA.C65_power`: propext, Classical.choice, Quot.sound
* `AB.TEA.C65_divide`: propext, Classical.choice, Quot.sound
* `AB.TEA.C65_init`: propext, Quot.sound
* `AB.NB.C66_integrate`: propext, Classical.choice, Quot.sound
* `AB.NB.C66_v0`: propext, Classical.choice, Quot.sound
* `AB.NB.C66_v0_exact`: propext, Classical.choice, Quot.sound
* `AB.NB.C66_v1`: propext, Classical.choice, Quot.sound
* `AB.NB.C66_v1_exact`: propext, Classical.choice, Quot.sound
* `AB.NB.C66_returns`: propext, Classical.choice, Quot.sound
* `AB.NB.C66_instance`: propext, Classical.choice, Quot.sound
* `AB.NB.C66_exact_instance`: propext, Classical.choice, Quot.sound
* `AB.NB.C67_minimize_1d_quadratic`: propext, Classical.choice, Quot.sound
* `AB.NB.C68_safe_learning_rate`: propext, Classical.choice, Quot.sound
* `AB.NB.C68_quadratic`: propext, Classical.choice, Quot.sound
* `AB.NB.C68_next_max_eta`: propext, Quot.sound
* `AB.NB.C68_nan_doubles`: propext, Quot.sound
* `AB.NB.C68_update`: propext, Classical.choice, Quot.sound
* `AB.NB.C68_optimizer`: propext, Classical.choice, Quot.sound
* `AB.NB.C68_returns`: propext, Classical.choice, Quot.sound
* `AB.NB.C68_instance`: propext, Classical.choice, Quot.sound
* `AB.MLP.C69_evaluates`: propext, Classical.choice, Quot.sound
* `AB.MLP.C69_mlp_bounds`: propext, Classical.choice, Quot.sound
* `AB.MLP.C69_training`: propext, Classical.choice, Quot.sound
* `AB.MLP.C69_linear_exact`: propext, Classical.choice, Quot.sound
* `AB.MLP.C69_mlp_tables`: propext, Classical.choice, Quot.sound
* `AB.MLP.C69_safe_learning_rate`: propext, Classical.choice, Quot.sound
* `AB.MLP.C69_training_returns`: propext, Classical.choice, Quot.sound
* `AB.MLP.C69_instance`: propext, Classical.choice, Quot.sound
* `AB.MLP.C69_tables_instance`: propext, Classical.choice, Quot.sound
* `AB.MLP.C69_mlp_degree0`: propext, Classical.choice, Quot.sound
* `AB.MLP.C69_degree0_instance`: propext, Classical.choice, Quot.sound
* `AB.LaxSpec.C70_transpose`: propext, Classical.choice, Quot.sound
* `AB.LaxSpec.C70_reshape`: propext, Classical.choice, Quot.sound
* `AB.LaxSpec.C70_squeeze`: propext, Classical.choice, Quot.sound
* `AB.LaxSpec.C70_reduce_sum`: propext, Classical.choice, Quot.sound
* `AB.LaxSpec.C70_dot_general`: propext, Classical.choice, Quot.sound
* `AB.LaxSpec.C70_broadcast_in_dim`: propext, Quot.sound
* `AB.LaxSpec.C70_reduce_window_sum`: propext, Classical.choice, Quot.sound
* `AB.LaxSpec.C70_conv`: propext, Classical.choice, Quot.sound
* `AB.LaxSpec.C70_binary`: propext, Classical.choice, Quot.sound
* `AB.LaxSpec.C70_unary`: propext, Quot.sound
* `AB.LaxSpec.C70_instance`: propext, Classical.choice, Quot.sound
* `AB.JB.C71_coefficients`: propext, Classical.choice, Quot.sound
* `AB.JB.C71_gap`: propext, Classical.choice, Quot.sound
* `AB.JB.C71_rate`: propext, Classical.choice, Quot.sound
* `AB.JB.C71_error`: propext, Classical.choice, Quot.sound
* `AB.JB.C71_builtin`: propext, Classical.choice, Quot.sound
* `AB.JB.C71_instance`: propext, Classical.choice, Quot.sound
* `AB.JB.C64_renaming`: propext, Classical.choice, Quot.sound
* `AB.JB.C64_dataflow`: propext, Classical.choice, Quot.sound
* `AB.JB.C64_reordered`: propext, Classical.choice, Quot.sound
* `AB.JB.C64_instance`: propext, Classical.choice, Quot.sound
* `AB.C72_add`: propext, Classical.choice, Quot.sound
* `AB.C72_subtract`: propext, Classical.choice, Quot.sound
* `AB.C72_negative`: propext
* `AB.C72_multiply`: propext, Classical.choice, Quot.sound
* `AB.C72_power`: propext, Classical.choice, Quot.sound
* `AB.C72_rounding`: propext, Classical.choice, Quot.sound
* `AB.C72_roundoff`: propext, Classical.choice, Quot.sound
* `AB.C72_dot_counterexample`: propext, Classical.choice, Quot.sound
* `AB.JB.C73_fat`: propext, Classical.choice, Quot.sound
* `AB.JB.C73_total`: propext, Classical.choice, Quot.sound
* `AB.JB.C73_quickstart`: propext, Classical.choice, Quot.sound
* `AB.Net.C74_documented`: propext, Classical.choice, Quot.sound
* `AB.Net.C74_evaluates`: propext, Classical.choice, Quot.sound
* `AB.Net.C74_bounds`: propext, Classical.choice, Quot.sound
* `AB.Net.C74_training`: propext, Classical.choice, Quot.sound
* `AB.Net.C74_linear_exact`: propext, Classical.choice, Quot.sound
* `AB.Net.C74_tables`: propext, Classical.choice, Quot.sound
* `AB.Net.C74_wide`: propext, Classical.choice, Quot.sound
* `AB.Net.C74_instance`: propext, Classical.choice, Quot.sound
* `AB.Net.C74_tables_instance`: propext, Classical.choice, Quot.sound
* `AB.Net.C74_wide_instance`: propext, Classical.choice, Quot.sound
* `AB.C75_interval`: propext, Classical.choice, Quot.sound
* `AB.C75_operations`: propext, Classical.choice, Quot.sound
* `AB.C75_elementwise`: propext, Classical.choice, Quot.sound
* `AB.C75_bounds`: propext, Classical.choice, Quot.sound
* `AB.C75_pow_generator`: propext, Classical.choice, Quot.sound
* `AB.C75_pow`: propext, Classical.choice, Quot.sound
* `AB.C75_nan_at_x0`: propext, Classical.choice, Quot.sound
* `AB.C75_unbounded`: propext, Classical.choice, Quot.sound
* `AB.C75_pow_nan`: propext, Classical.choice, Quot.sound
* `AB.C75_reciprocal`: propext, Classical.choice, Quot.sound
* `AB.C75_dot`: propext, Classical.choice, Quot.sound
* `AB.C75_dot_nan`: propext, Quot.sound
* `AB.C75_finite`: propext, Quot.sound
* `AB.C75_finite_eval`: propext, Quot.sound
* `AB.C75_finite_operations`: propext, Classical.choice, Quot.sound
* `AB.C75_finite_elementwise`: propext, Classical.choice, Quot.sound
* `AB.Flt.C75_ieee_add`: propext, Classical.choice, Quot.sound
* `AB.Flt.C75_ieee_mul`: propext, Classical.choice, Quot.sound
* `AB.Flt.C75_ieee_minimum`: propext, Classical.choice, Quot.sound
* `AB.Flt.C75_ieee_maximum`: propext, Classical.choice, Quot.sound
* `AB.Flt.C75_ieee_unique`: propext, Classical.choice, Quot.sound
* `AB.JB.C76_polynomial_part`: propext, Classical.choice, Quot.sound
* `AB.JB.C76_tables`: propext, Classical.choice, Quot.sound
* `AB.C77_sharp_rule`: propext, Classical.choice, Quot.sound
* `AB.C77_exp`: propext, Classical.choice, Quot.sound
* `AB.C77_log`: propext, Classical.choice, Quot.sound
* `AB.C77_softplus`: propext, Classical.choice, Quot.sound
* `AB.C77_sigmoid`: propext, Classical.choice, Quot.sound
* `AB.C77_abs`: propext, Classical.choice, Quot.sound
* `AB.C77_pow`: propext, Classical.choice, Quot.sound
* `AB.C77_sigmoid1_counterexample`: propext, Classical.choice, Quot.sound
* `AB.JB.C78_coefficients`: propext, Classical.choice, Quot.sound
* `AB.JB.C78_bounds`: propext, Classical.choice, Quot.sound
* `AB.JB.C78_builtin`: propext, Classical.choice, Quot.sound
* `AB.JB.C78_instance`: propext, Classical.choice, Quot.sound
* `AB.JB.C79_outcome`: propext, Classical.choice, Quot.sound
* `AB.JB.C79_call`: propext, Quot.sound
* `AB.JB.C79_tables`: propext, Classical.choice, Quot.sound
* `AB.JB.C79_conv`: propext, Quot.sound
* `AB.JB.C79_builtin`: propext, Classical.choice, Quot.sound
* `AB.JB.C79_returns`: propext, Classical.choice, Quot.sound
* `AB.JB.C79_instance`: propext, Classical.choice, Quot.sound
* `AB.GE.C80_replace`: propext, Classical.choice, Quot.sound
* `AB.GE.C80_unchanged`: propext, Classical.choice, Quot.sound
* `AB.JB.C80_rewrite_all`: propext, Classical.choice, Quot.sound
* `AB.JB.C81_raises`: propext, Classical.choice, Quot.sound
* `AB.JB.C81_table`: propext, Classical.choice, Quot.sound
* `AB.JB.C81_cases`: propext, Classical.choice, Quot.sound
* `AB.JB.C81_rules`: propext, Classical.choice, Quot.sound
* `AB.JB.C81_dispatch`: propext, Classical.choice, Quot.sound
* `AB.JB.C81_registered_wins`: propext, Classical.choice, Quot.sound
* `AB.JB.C81_pass_thru_wins`: propext, Classical.choice, Quot.sound
* `AB.JB.C81_libSound`: propext, Classical.choice, Quot.sound
* `AB.JB.C81_sound`: propext, Classical.choice, Quot.sound
* `AB.JB.C81_other`: propext, Classical.choice, Quot.sound
* `AB.JB.C81_imported`: propext, Classical.choice, Quot.sound
* `AB.JB.C81_instance`: propext, Classical.choice, Quot.sound
* `AB.JB.C81_dispatch_instance`: propext, Classical.choice, Quot.sound
* `AB.JB.C82_taylor_bounds`: propext, Classical.choice, Quot.sound
* `AB.JB.C82_error`: propext, Classical.choice, Quot.sound
* `AB.JB.C82_builtin`: propext, Classical.choice, Quot.sound
* `AB.JB.C82_every_region`: propext, Classical.choice, Quot.sound
* `AB.JB.C82_instance`: propext, Classical.choice, Quot.sound
* `AB.JB.C83_exact_at_x0`: propext, Classical.choice, Quot.sound
* `AB.JB.C83_same_at_x0`: propext, Classical.choice, Quot.sound
* `AB.JB.C83_constant_coefficient`: propext, Classical.choice, Quot.sound
* `AB.C83_rounding`: propext, Classical.choice, Quot.sound
* `AB.C83_exact`: propext, Classical.choice, Quot.sound
* `AB.JB.C83_lift`: propext, Quot.sound
* `AB.JB.C83_away_counterexample`: propext, Classical.choice, Quot.sound
* `AB.JB.C83_div_counterexample`: propext, Classical.choice, Quot.sound
* `AB.JB.C83_pow_counterexample`: propext, Classical.choice, Quot.sound
* `AB.JB.C84_degree0_sound`: propext, Classical.choice, Quot.sound
* `AB.JB.C84_final_interval`: propext, Classical.choice, Quot.sound
* `AB.JB.C84_lower_le_upper`: propext, Classical.choice, Quot.sound
* `AB.JB.C84_lift`: propext, Classical.choice, Quot.sound
* `AB.JB.C84_builtin_counterexample`: propext, Classical.choice, Quot.sound
* `AB.JB.C84_dot_counterexample`: propext, Classical.choice, Quot.sound
* `AB.JB.C84_crossing_counterexample`: propext, Classical.choice, Quot.sound
* `AB.JE.C85_same_function`: propext, Classical.choice, Quot.sound
* `AB.JE.C85_replace`: propext, Classical.choice, Quot.sound
* `AB.JE.C85_depth`: propext, Quot.sound
* `AB.JB.C85_pipeline`: propext, Classical.choice, Quot.sound
* `AB.JB.CEx.C85_instance`: propext, Classical.choice, Quot.sound
* `AB.JB.CEx.C85_wellformed_needed`: propext, Classical.choice, Quot.sound
* `AB.JB.C86_degree0_sound`: propext, Classical.choice, Quot.sound
* `AB.JB.C86_builtin`: propext, Classical.choice, Quot.sound
* `AB.C86_exact_arithmetic`: propext, Classical.choice, Quot.sound
* `AB.JB.C86_integer_counterexample`: propext, Classical.choice, Quot.sound
* `AB.JB.C86_instance`: propext, Classical.choice, Quot.sound
* `AB.JB.C86_batch_instance`: propext, Classical.choice, Quot.sound
* `AB.NB.C87_integral_guarded`: propext, Classical.choice, Quot.sound
* `AB.NB.C87_integral`: propext, Classical.choice, Quot.sound
* `AB.NB.C87_quickstart`: propext, Classical.choice, Quot.sound
* `AB.NB.C87_safe_learning_rate`: propext, Classical.choice, Quot.sound
* `AB.NB.C87_safe_total`: propext, Classical.choice, Quot.sound
* `AB.NB.C87_optimizer`: propext, Classical.choice, Quot.sound
* `AB.NB.C87_fit_instance`: propext, Classical.choice, Quot.sound
* `AB.JB.C88_affine`: propext, Classical.choice, Quot.sound
* `AB.JB.C88_builtin`: propext, Classical.choice, Quot.sound
* `AB.JB.C88_meaning`: propext, Classical.choice, Quot.sound
* `AB.JB.C88_example`: propext, Classical.choice, Quot.sound
* `AB.JB.C89_combine`: propext, Classical.choice, Quot.sound
* `AB.JB.C89_degree_counterexample`: propext, Classical.choice, Quot.sound
* `AB.JB.C89_array_counterexample`: propext, Classical.choice, Quot.sound
* `AB.JB.C89_example`: propext, Classical.choice, Quot.sound
* `AB.JB.C90_shift`: propext, Classical.choice, Quot.sound
* `AB.JB.C90_meaning`: propext, Classical.choice, Quot.sound
* `AB.JB.C90_example`: propext, Classical.choice, Quot.sound
* `AB.JB.C90_propagate`: propext, Classical.choice, Quot.sound
* `AB.JB.C90_propagate_bounds`: propext, Classical.choice, Quot.sound
* `AB.JB.C90_propagate_example`: propext, Classical.choice, Quot.sound
* `AB.JB.C91_add`: propext, Classical.choice, Quot.sound
* `AB.JB.C91_sub`: propext, Classical.choice, Quot.sound
* `AB.JB.C91_add_builtin`: propext, Classical.choice, Quot.sound
* `AB.JB.C91_sub_builtin`: propext, Classical.choice, Quot.sound
* `AB.JB.C91_meaning`: propext, Classical.choice, Quot.sound
* `AB.JB.C91_example`: propext, Classical.choice, Quot.sound
* `AB.JB.C92_rearrange`: propext, Classical.choice, Quot.sound
* `AB.JB.C92_rearrange_builtin`: propext, Classical.choice, Quot.sound
* `AB.JB.C92_meaning`: propext, Classical.choice, Quot.sound
* `AB.JB.C92_example`: propext, Classical.choice, Quot.sound
* `AB.JB.C92_example_broadcast`: propext, Classical.choice, Quot.sound
