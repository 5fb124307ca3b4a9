c("C01","proved",["AB.C01_add","AB.C01_subtract","AB.C01_negative"])
c("C02","proved",["AB.C02_multiply"])
c("C03","proved",["AB.C03_power","AB.C03_power_attained","AB.C03_power_errors","AB.C03_power_array"])
c("C04","proved",["AB.C04_outer_product","AB.C04_outer_product_array","AB.C04_outer_power","AB.C04_outer_power_array","AB.C04_errors"])
c("C05","proved",["AB.C05_tensordot","AB.C05_arbitrary_bilinear","AB.C05_negative_weight_counterexample"],"holds for bilinear operations with nonnegative weights; the counterexample shows the restriction is needed")
c("C06","proved",["AB.C06_wellFormed"])
c("C07","proved",["AB.C07_arrays","AB.C07_degenerate","AB.C07_outer_degenerate"])
c("C08","proved",["AB.C08_add_subtract","AB.C08_negative","AB.C08_multiply","AB.C08_power","AB.C08_tensordot","AB.C08_outer_product","AB.C08_outer_power"])
c("C09","proved",["AB.C09_eval_iff_choice"])
c("C10","proved",["AB.C10_eval_interval","AB.C10_eval_elementwise_interval"])
c("C11","proved",["AB.Poly.C11_arbitrary_bilinear"])
c("C12","proved",["AB.Poly.C12_integer_power","AB.Poly.C12_negative","AB.Poly.C12_empty"])
c("C13","proved",["AB.Poly.C13_iter_partitions","AB.Poly.C13_errors"])
c("C14","proved",["AB.Poly.C14_multinomial","AB.Poly.C14_empty"])
c("C15","proved",["AB.C15_enclose_enclosure"])
c("C16","proved",["AB.TEA.C16_add"])
c("C17","proved",["AB.TEA.C17_negative","AB.TEA.C17_subtract"])
c("C18","proved",["AB.TEA.C18_multiply"])
c("C19","proved",["AB.TEA.C19_power"])
c("C20","proved",["AB.TEA.C20_arbitrary_bilinear"])
c("C21","proved",["AB.TEA.C21_compose","AB.C21_degree_counterexample","AB.C21_uniform_counterexample"],"the counterexamples show that the degree and batch-shape hypotheses are needed")
c("C22","proved",["AB.TEA.C22_supplied","AB.TEA.C22_derived","AB.TEA.C22_builtin"])
c("C23","proved",["AB.TEA.C23_power_other","AB.TEA.C23_divide","AB.TEA.C23_pow","AB.TEA.C23_divide_recip"],"for any sound generator, and for the generators of the code")
c("C24","proved",["AB.TEA.C24_degree_bound"])
c("C25","proved",["AB.C25_derivative_formulas","AB.C25_supported"])
c("C26","proved",["AB.C26_flags"])
c("C27","proved",["AB.C27_maximum_value","AB.C27_minimum_value","AB.C27_abs_range","AB.C27_get_range_counterexample"],"exactly the stated value; the counterexample shows that end points are ignored once a listed extremum lies inside")
c("C28","proved",["AB.C28_monotone_over"])
c("C29","proved",["AB.C29_sharp_monotone"])
c("C30","proved",["AB.C30_capped_excludes","AB.C30_cap_counterexample"])
c("C31","proved",["AB.C31_bounded_derivative","AB.C31_wrong_length"])
c("C32","proved",["AB.C32_quadratic","AB.C32_softplus2"])
c("C33","proved",["AB.C33_truthful_tables","AB.C33_exp","AB.C33_log","AB.C33_softplus","AB.C33_sigmoid","AB.C33_abs","AB.C33_abs_unsupported","AB.C33_sigmoid4_counterexample","AB.C33_swish3_counterexample","AB.C33_swish4_counterexample","AB.C33_array_generator"],"for the orders whose tables list only approximate extrema the soundness is conditional on the table (C33_truthful_tables), which C58 discharges away from the listed extrema")
c("C34","proved",["AB.C34_pow","AB.C34_straddle_counterexample","AB.C34_array_generator","AB.C34_finite","AB.C34_all_regions","AB.C34_ends_at_zero_counterexample","AB.C34_nan","AB.C34_outside","AB.C34_outside_instance"])
c("C35","proved",["AB.C35_sign","AB.C35_errors"])
c("C36","proved",["AB.GE.C36_match_sound"])
c("C37","proved",["AB.GE.C37_match_complete","AB.GE.C37_match_none"])
c("C38","proved",["AB.GE.C38_replace_preserves","AB.GE.Ex.C38_capture_counterexample","AB.GE.Ex.C38_unused_counterexample","AB.GE.Ex.C38_input_counterexample"],"holds under the explicit side conditions Rewritable; the three counterexamples show that the code does not check them and fails without them")
c("C39","proved",["AB.GE.C39_terminates","AB.GE.C39_result_unique","AB.GE.C39_empty_pattern"])
c("C40","proved",["AB.JE.C40_jaxpr_graph_jaxpr","AB.JE.C40_same_jaxpr","AB.JE.C40_graph_jaxpr_graph","AB.JE.Ex.C40_instance","AB.JE.Ex.C40_dropvar_counterexample"],"the counterexample: two DropVars share the count -1")
c("C41","proved",["AB.JE.C41_iff","AB.JE.C41_same_function","AB.JE.C41_rename","AB.JE.C41_refl","AB.JE.Ex.C41_instance","AB.JE.Ex.C41_consts_counterexample","AB.JE.Ex.C41_function_counterexample"],"same function for meanings of primitives that do not depend on what the code ignores; the counterexamples show that constants of closed Jaxprs and function parameters are ignored")
c("C42","proved",["AB.JB.C42_static","AB.JB.C42_taylor_bounds","AB.JB.C42_builtin","AB.JB.taylorBoundsOk_of_fits","AB.JB.C42_add_counterexample","AB.JB.C42_compose_counterexample","AB.JB.C42_builtin_static","AB.JB.C42_degree0"],"for every program, table of sound generators, x0, region, degree; C42_static: the program must meet the explicit shape condition ProgramFits; C42_taylor_bounds: each executed equation must meet the weaker StepOk; the counterexamples show the conditions are needed (DESIGN.md, Findings)")
c("C43","proved",["AB.JB.C42_static","AB.JB.C43_lower_upper","AB.JB.C43_ordered_everywhere","AB.JB.C44_tables"],"C44_tables: lower <= upper everywhere for the code's own tables, however small the trust region")
c("C44","proved",["AB.JB.C44_static","AB.JB.C44_exact_at_x0","AB.JB.C44_builtin","AB.JB.C44_tables"],"C44_tables: with the code's own tables, without any condition on how small the trust region is (the cap in taylor_remainder_ratio does not matter at x0)")
c("C45","proved",["AB.JB.C45_directional","AB.JB.C45_taylor_polynomial","AB.JB.C45_scalar","AB.JB.C45_builtin","AB.JB.C45_tables","AB.JB.C45_tables_scalar","AB.JB.C45_tables_example"],"any x (in every direction), and scalar x; x0 may also be an end point of the region; C45_tables: the tables of jax_bound.py over every trust region, also where the final interval is wrong (C30), for programs whose functions are smooth at the values met at x0")
c("C46","proved",["AB.JB.C46_negative_degree","AB.JB.C46_rank","AB.JB.C46_no_rule","AB.JB.C46_program","AB.JB.C46_nothing_skipped"])
c("C47","proved",["AB.JB.C47_static","AB.JB.C47_propagated_regions","AB.JB.C42_taylor_bounds"])
c("C48","proved",["AB.JB.C48_constant_folding"])
c("C49","proved",["AB.C49_contract","AB.C49_dot_general","AB.C49_conv","AB.JB.C49_batch_counterexample","AB.Lax.C49_conv_contract","AB.JB.C49_conv_fits"])
c("C50","proved",["AB.C50_pass_thru","AB.C50_reduce_sum","AB.C50_squeeze","AB.C50_transpose","AB.C50_reduce_window_sum","AB.C50_reshape","AB.C50_jit","AB.C50_pass_thru_prim","AB.C50_jit_body","AB.C50_broadcast_in_dim","AB.JB.C50_reshape_counterexample","AB.JB.C50_jit_counterexample"])
c("C51","proved",["AB.JE.C51_replace_preserves","AB.JE.C51_primitive_rule","AB.JE.Ex.C51_instance","AB.JE.Ex.C51_instance_replaced","AB.JE.Ex.C51_intermediate_counterexample","AB.JE.Ex.C51_dropvar_counterexample"],"the counterexamples show the conditions are needed and are not checked by the code")
c("C52","proved",["AB.JB.C52_form","AB.JB.C52_number_of_coefficients","AB.JB.C52_instance"])
c("C53","proved",["AB.JB.C53_static","AB.JB.C53_total_correctness","AB.JB.C53_returns","AB.JB.C53_instance","AB.JB.C53_tables","AB.JB.C53_pow_propagate","AB.JB.C53_zero_power_raises","AB.JB.C53_broadcast_raises","AB.JB.C53_reshape_raises","AB.JB.C53_labels_raises","AB.JB.C53_conv_returns"],"C53_static: conditions on the program only (ProgramFits, ProgramReturns); C53_returns/total_correctness: weaker conditions on the equations executed; C53_tables: the code's own tables over the reals (returns for every trust region and degree, exact at x0, ordered everywhere); C53_instance: a program meeting them for all x0, regions and degrees <= 12; the *_raises theorems show the limits are needed")
c("C54","proved",["AB.JB.C54_register","AB.JB.C54_register_sound","AB.JB.C54_register_other","AB.JB.C54_register_used","AB.JB.C54_instance"],"C54_instance: a user-registered square primitive with a rule proved sound")
c("C55","proved",["AB.JB.C55_final_interval","AB.JB.C54_instance"])
c("C56","proved",["AB.JB.C56_pipeline","AB.JB.C56_pipeline_single","AB.JB.C56_rewrite","AB.JB.C56_single","AB.JB.PEx.C56_instance","AB.JB.PEx.C56_rule_needed"],"the program is read by the interpreter through a decoding of equations (Decode); ProgramFits is a condition on the rewritten program")
c("C57","proved",["AB.C57_outer_product","AB.C57_outer_power","AB.TEA.C57_init","AB.TEA.C57_linear_length","AB.TEA.C57_multiply","AB.TEA.C57_power","AB.TEA.C57_arbitrary_bilinear","AB.TEA.C57_compose","AB.TEA.C57_elementwise","AB.TEA.C57_elementwise_supplied","AB.TEA.C57_power_other","AB.TEA.C57_divide"],"add, negative and subtract return by C16/C17; C57_linear_length gives the number of coefficients; concrete cases in Props/EnclTotalEx")
c("C58","proved",["AB.C58_rounded_tables","AB.C58_away_truthful","AB.C58_away_sound","AB.C58_listed","AB.C58_local_tables","AB.C58_local_away_sound","AB.C58_swish4"],"the regions left out for sigmoid 4, softplus 5, swish 3 and swish 4 are the ones on which the enclosure is wrong (counterexamples under C33)")
c("C59","proved",["AB.C59_cap_error","AB.C59_truthful","AB.C59_exact","AB.C59_exp","AB.C59_abs","AB.C59_rounded","AB.C59_softplus2","AB.C59_pow"])
c("C60","proved",["AB.JB.C60_coefficients","AB.JB.C60_bounds","AB.JB.C60_builtin","AB.C60_elementwise","AB.C60_pow","AB.JB.C60_conv"],"tableLib = the code's tables, restricted to calls on regions on which the table is right (BuiltinTable, PowTable); no condition on the size of the regions")
c("C61","proved",["AB.JB.C61_step","AB.JB.C61_iterates","AB.JB.C61_instance"])
c("C62","proved",["AB.C62_point_value","AB.JB.C62_gap","AB.JB.C62_gap_scalar"])
c("C63","proved",["AB.JB.C63_polynomial_exact","AB.JB.C63_instance","AB.JB.C63_degree_needed"],"C63_degree_needed shows the degree hypothesis cannot be dropped")
c("C65","proved",["AB.TEA.C65_multiply","AB.TEA.C65_power","AB.TEA.C65_divide","AB.TEA.C65_init"])
c("C66","proved",["AB.NB.C66_integrate","AB.NB.C66_v0","AB.NB.C66_v0_exact","AB.NB.C66_v1","AB.NB.C66_v1_exact","AB.NB.C66_returns","AB.NB.C66_instance","AB.NB.C66_exact_instance"],"over the real numbers; f is integrable and computed by the program on [a,b] (Computes)")
c("C67","proved",["AB.NB.C67_minimize_1d_quadratic"])
c("C68","proved",["AB.NB.C68_safe_learning_rate","AB.NB.C68_quadratic","AB.NB.C68_next_max_eta","AB.NB.C68_nan_doubles","AB.NB.C68_update","AB.NB.C68_optimizer","AB.NB.C68_returns","AB.NB.C68_instance"],"tracing and differentiation are not modelled: the traced program is given and computes the loss along the direction (Traces), and the direction is arbitrary")
c("C69","proved",["AB.MLP.C69_evaluates","AB.MLP.C69_mlp_bounds","AB.MLP.C69_training","AB.MLP.C69_linear_exact","AB.MLP.C69_mlp_tables","AB.MLP.C69_safe_learning_rate","AB.MLP.C69_training_returns","AB.MLP.C69_instance","AB.MLP.C69_tables_instance","AB.MLP.C69_mlp_degree0","AB.MLP.C69_degree0_instance"],"the program is the Jaxpr after rewriting (softplus etc. as one primitive), with biases as JAX adds them (an axis of size 1 that add stretches); soundness over the whole trust region is for tables that are right about the activations (LibSound: user-registered functions); for the code's own tables, rounded and with the cap, it is proved at the expansion point (C69_mlp_tables)")
c("C70","proved",["AB.LaxSpec.C70_transpose","AB.LaxSpec.C70_reshape","AB.LaxSpec.C70_squeeze","AB.LaxSpec.C70_reduce_sum","AB.LaxSpec.C70_dot_general","AB.LaxSpec.C70_broadcast_in_dim","AB.LaxSpec.C70_reduce_window_sum","AB.LaxSpec.C70_conv","AB.LaxSpec.C70_binary","AB.LaxSpec.C70_unary","AB.LaxSpec.C70_instance"],"JAX is not part of /repo: these theorems check the model of jax.lax that C42 and the pushforward functions rest on against an independent specification by sums over all multi-indices (Spec/LaxSpec)")
c("C71","proved",["AB.JB.C71_coefficients","AB.JB.C71_gap","AB.JB.C71_rate","AB.JB.C71_error","AB.JB.C71_builtin","AB.JB.C71_instance"],"real arithmetic; the enclosure functions in the tables have to be inclusion isotone and Lipschitz in the width of the region, which is proved for the built-in tables on regions where the tables are right and the function is smooth (smoothLib: a run with these checks that returns is the run of the code)")
c("C64","proved",["AB.JB.C64_renaming","AB.JB.C64_dataflow","AB.JB.C64_reordered","AB.JB.C64_instance"],"DropVars (count -1) keep their name")
c("C72","proved",["AB.C72_add","AB.C72_subtract","AB.C72_negative","AB.C72_multiply","AB.C72_power","AB.C72_rounding","AB.C72_roundoff","AB.C72_dot_counterexample"],"rounded arithmetic is specified by monotonicity and the laws of 0 and 1 (Spec/Rounding), met by the representable numbers of any monotone rounding (C72_rounding); NaN and infinities are excluded; only the interval operations, not the enclosures built from them")
c("C73","proved",["AB.JB.C73_fat","AB.JB.C73_total","AB.JB.C73_quickstart"],"real arithmetic; shapes as in ProgramFits; C73_fat assumes the tables right about the regions used, C73_total only conditions on the program (element-wise primitives with AlwaysRight, no division or negative power of the argument)")
c("C74","proved",["AB.Net.C74_documented","AB.Net.C74_evaluates","AB.Net.C74_bounds","AB.Net.C74_training","AB.Net.C74_linear_exact","AB.Net.C74_tables","AB.Net.C74_wide","AB.Net.C74_instance","AB.Net.C74_tables_instance","AB.Net.C74_wide_instance"],"Jaxpr as it is after _rewrite_jaxpr; the bias has as many axes as the output of its layer; the first layer has parameters; the loss is stated against the documented meaning of jax.lax (NetIs); C74_tables: built-in tables at eta0, C74_wide: on the whole trust region under a condition on the pre-activations")
c("C75","proved",["AB.C75_interval","AB.C75_operations","AB.C75_elementwise","AB.C75_bounds","AB.C75_pow_generator","AB.C75_pow","AB.C75_nan_at_x0","AB.C75_unbounded","AB.C75_pow_nan","AB.C75_reciprocal","AB.C75_dot","AB.C75_dot_nan","AB.C75_finite","AB.C75_finite_eval","AB.C75_finite_operations","AB.C75_finite_elementwise","AB.Flt.C75_ieee_add","AB.Flt.C75_ieee_mul","AB.Flt.C75_ieee_minimum","AB.Flt.C75_ieee_maximum","AB.Flt.C75_ieee_unique"],"rank-0 arrays (scalar x and values; C75_dot, C75_dot_nan: the degree-1 term of a vector x); finite arithmetic is exact, one zero (no -0.0); pow_enclosure for finite expansion points and regions; C75_finite*: the float model and the array model agree on finite rank-0 values")
c("C76","proved",["AB.JB.C76_polynomial_part","AB.JB.C76_tables"],"C76_tables has no hypotheses besides the two runs returning and equal region shapes. For degree 0 there is no polynomial part.")
c("C77","proved",["AB.C77_sharp_rule","AB.C77_exp","AB.C77_log","AB.C77_softplus","AB.C77_sigmoid","AB.C77_abs","AB.C77_pow","AB.C77_sigmoid1_counterexample"],"end points not affected by the cap (NotCapped), as in C29")
c("C78","proved",["AB.JB.C78_coefficients","AB.JB.C78_bounds","AB.JB.C78_builtin","AB.JB.C78_instance"],"conditional on both runs returning (with propagation pow with exponent 0 raises, finding 18); shapes as in ProgramFits; convolutions with nonnegative weights and order-preserving jitted functions (PrimIsotone), as in C60")
c("C79","proved",["AB.JB.C79_outcome","AB.JB.C79_call","AB.JB.C79_tables","AB.JB.C79_conv","AB.JB.C79_builtin","AB.JB.C79_returns","AB.JB.C79_instance"],"The escape clause U covers calls in which pow_enclosure computes an infinity or NaN (the model stops there); C79_returns has no such clause and covers programs without division, pow, negative powers and roots.")
c("C80","proved",["AB.GE.C80_replace","AB.GE.C80_unchanged","AB.JB.C80_rewrite_all"],"C80_replace is an equivalence with the inductive specification Rewritten (Spec/Rewrite), which mentions no part of the algorithm and determines the result (rewritten_unique). C80_rewrite_all: rules with a one-equation pattern (as all built-in rules have) whose replacement primitives are not primitives of patterns; Jaxprs in SSA form with counts that identify variables. Which parameters count as equivalent is C41.")
c("C81","proved",["AB.JB.C81_raises","AB.JB.C81_table","AB.JB.C81_cases","AB.JB.C81_rules","AB.JB.C81_dispatch","AB.JB.C81_registered_wins","AB.JB.C81_pass_thru_wins","AB.JB.C81_libSound","AB.JB.C81_sound","AB.JB.C81_other","AB.JB.C81_imported","AB.JB.C81_instance","AB.JB.C81_dispatch_instance"],"Primitives are identified by name. C81_dispatch connects the dict built by _pushforward_funs with the function pushforward that the interpreter model uses. C81_pass_thru_wins is finding 28.")
c("C82","proved",["AB.JB.C82_taylor_bounds","AB.JB.C82_error","AB.JB.C82_builtin","AB.JB.C82_every_region","AB.JB.C82_instance"],"propagate_trust_regions = True is excluded: the intersection of two approximate regions may miss every nearby value. NearValue (Spec/Near) contains the exact execution (exact_nearValue). Real arithmetic apart from the errors of the element-wise functions.")
c("C83","proved",["AB.JB.C83_exact_at_x0","AB.JB.C83_same_at_x0","AB.JB.C83_constant_coefficient","AB.C83_rounding","AB.C83_exact","AB.JB.C83_lift","AB.JB.C83_away_counterexample","AB.JB.C83_div_counterexample","AB.JB.C83_pow_counterexample"],"UnitLaws (Spec/FloatRef) is what is used of the arithmetic; C83_rounding: exact operations followed by a rounding have it, in every rounding mode. LibHead asks that enclosure functions start with the value the primitive computes (for the built-in tables: that get_function and the primitive round alike). The counterexamples show that the conditions on division and integer powers are needed (findings 29, 30) and that exactness does not extend to x != x0. Overflow and NaN: C75.")
c("C84","proved",["AB.JB.C84_degree0_sound","AB.JB.C84_final_interval","AB.JB.C84_lower_le_upper","AB.JB.C84_lift","AB.JB.C84_builtin_counterexample","AB.JB.C84_dot_counterexample","AB.JB.C84_crossing_counterexample"],"RoundedArith (Spec/Rounding) and UnitLaws (Spec/FloatRef) are what is used of the arithmetic; LibHolds0, Safe0 (Spec/Float0) and EqnsExact state the assumptions on tables and primitives; the counterexamples show that they are needed (findings 31-33)")
c("C85","proved",["AB.JE.C85_same_function","AB.JE.C85_replace","AB.JE.C85_depth","AB.JB.C85_pipeline","AB.JB.CEx.C85_instance","AB.JB.CEx.C85_wellformed_needed"],"callMeaning / callDecode (Spec/Calls) define the meaning of programs with calls; C41, C51 and C56 assume a meaning that respects the comparison of all parameters, which evaluation of nested Jaxprs does not (C85_wellformed_needed: a Jaxpr that binds a variable twice is compared equal to two different functions); here the condition is proved for well-formed Jaxprs (DeepOk). Nested Jaxprs have no constants of their own, as after jit; a call of a function of several arguments is kept opaque in taylor_bounds, as the code has no rule for it. C85_instance: sigmoid(x) * x with the built-in tables and the rules for sigmoid and swish, whose pattern has a call inside a call")
c("C86","proved",["AB.JB.C86_degree0_sound","AB.JB.C86_builtin","AB.C86_exact_arithmetic","AB.JB.C86_integer_counterexample","AB.JB.C86_instance","AB.JB.C86_batch_instance"],"convert_element_type carries the function that takes a number to the number of the new type (Model/Lax); Sound0 (Props/Convert, with Safe0 of Spec/Float0) asks that it is monotone, and that convolutions have nonnegative weights (as convGeneral has, C60_conv), EqnFits (Spec/Static) that it is the identity; C84 covers the same conversions in rounded arithmetic (finding 21)")
c("C87","proved",["AB.NB.C87_integral_guarded","AB.NB.C87_integral","AB.NB.C87_quickstart","AB.NB.C87_safe_learning_rate","AB.NB.C87_safe_total","AB.NB.C87_optimizer","AB.NB.C87_fit_instance"],"C66 and C68 are for sound tables; here the tables are the library's own (realLib). FatArgs (Spec/Fat) keeps the 1e-12 cap from acting; safeLib (Spec/RealLib) checks that regions are ones on which the tables are claimed sound, and returns the same as realLib when it returns")
c("C88","proved",["AB.JB.C88_affine","AB.JB.C88_builtin","AB.JB.C88_meaning","AB.JB.C88_example"],"AffineEqn lists the seven equations; C88_meaning shows independently that they compute k * f(x) + s. The factor k is a scalar literal. Exact arithmetic (floating point addition would round)")
c("C89","proved",["AB.JB.C89_combine","AB.JB.C89_degree_counterexample","AB.JB.C89_array_counterexample","AB.JB.C89_example"],"C89_combine follows from C42 for both settings. The two counterexamples are concrete programs")
c("C90","proved",["AB.JB.C90_shift","AB.JB.C90_meaning","AB.JB.C90_example","AB.JB.C90_propagate","AB.JB.C90_propagate_bounds","AB.JB.C90_propagate_example"],"Holds for every table of enclosure-generating functions, sound or not. C90_meaning shows independently that the program of C90_shift computes f(x + c). With propagation and max_degree > 0, C90_propagate_bounds gives equal entries of coefficients and bounds for isotone tables (those of C60) when both runs return; that one run returns when the other does is then not claimed. Exact arithmetic")
c("C91","proved",["AB.JB.C91_add","AB.JB.C91_sub","AB.JB.C91_add_builtin","AB.JB.C91_sub_builtin","AB.JB.C91_meaning","AB.JB.C91_example"],"Jaxpr.out selects the output, andThen (Spec/Affine) appends one equation; C91_meaning shows independently that it computes the sum or difference. The values have equal shapes (no broadcasting between them). Exact arithmetic")
c("C92","proved",["AB.JB.C92_rearrange","AB.JB.C92_rearrange_builtin","AB.JB.C92_meaning","AB.JB.C92_example","AB.JB.C92_example_broadcast"],"Rearranges (Spec/PassThruEqn) lists the six operations. The program followed by the operation meets ProgramFits (the condition of C42 on shapes; for reshape: x is not an array with exactly one entry and positive rank), and its evaluation at x0 succeeds with non-empty arrays. ND.Same: equal shape and entries. Exact arithmetic")
