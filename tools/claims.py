S = "Verif.Props.Store."
c("C01", "proved", [S+"C01_no_aliasing"])
c("C02", "proved", [S+"C02_contiguous"])
c("C03", "proved", [S+"C03_values_and_accounting", S+"C03_values_and_accounting_single"])
c("C04", "proved", [S+"C04_singleton"])
D = "Verif.Props.AD."
c("C09", "proved", [D+"C09_zos_forward", D+"traced_exists"],
  "exact arithmetic; recorder model: all adouble/pdouble overloads except advector/adubref, vector operations, external functions")
c("C10", "proved", [D+"C10_branch_switch", D+"C10_return_code", D+"C10_fos", D+"C10_recording_point"])
c("C11", "partial", [D+"C11_fos_forward_partial", D+"C11_asin_in_place"],
  "fails in the code where asin/acos/acosh/atanh of a temporary has result +-1 (witness theorem)")
c("C12", "partial", [D+"C12_fov_columns_partial", D+"C12_log_column"],
  "fails in the code at log(0) (witness theorem)")
c("C13", "partial", [D+"C13_fos_reverse_partial", D+"C13_pow_one_at_zero", D+"C13_dependent_used_later"],
  "fails in the code for pow(x,1.0) at 0 and for variables used after being declared dependent (witness theorems)")
c("C14", "proved", [D+"C14_fov_reverse_rows", D+"C14_fov_reverse_matrix"])
c("C15", "proved", [D+"C15_duality"])
c("C16", "partial", [D+"C16_values_restored_partial", D+"C16_vec_copy_order"],
  "fails in the code for adolc_vec_copy/adolc_vec_axpy of two or more elements (witness theorem)")
c("C19", "proved", [D+"C19_temporaries"])
c("C32", "partial", [D+"C32_values_while_taping_partial", D+"C32_fmin_stores_location"],
  "fails in the code for fmin(const adouble&, const adouble&) (witness theorem)")
c("C33", "partial", [D+"C33_reverse_after_taping_partial"],
  "fails in the code for fmin of two lvalues and the vector operations")
N = "Verif.Props.Num."
c("C25", "partial", [N+"C25_tensor_address_partial", N+"C25_tensorentry", N+"C25_binomi", N+"C25_order_matters"],
  "fails in the code when nonzero entries are not non-increasing, e.g. (1,1,2), which the manual allows (witness theorem)")
c("C26", "proved", [N+"C26_conv", N+"C26_inconv", N+"C26_deconv", N+"C26_inconv0", N+"C26_deconv0", N+"C26_divide", N+"C26_recipr", N+"C26_zeroset"],
  "exact arithmetic")
c("C30", "proved", [N+"C30_records"])
I = "Verif.Props.IO."
c("C05", "proved", [I+"C05_forward_readback"], "file system calls succeed; buffers of at least 3 operations, 43 locations, 5 values")
c("C06", "partial", [I+"C06_reverse_readback_partial", I+"C06_reverse_readback_no_params", I+"C06_params_witness"],
  "fails in the code when the parameters do not fit behind the other values of the last value buffer (witness theorem)")
c("C31", "partial", [I+"C31_parameters_partial", I+"C31_override_lost_witness", I+"C31_too_many_params"],
  "fails in the code for traces on disk not evaluated with keep, and for more parameters than VBUFSIZE (witness theorems)")
K = "Verif.Props.Stack."
c("C07", "partial", [K+"C07_value_stack_partial", K+"C07_exactly_full"],
  "fails in the code exactly when the stack fills its buffer and was never spilled (witness theorem, for all sizes)")
c("C08", "partial", [K+"C08_rows_partial", K+"C08_rows_vector_partial", K+"C08_straddling_row", K+"C08_row_too_long"],
  "fails in the code for scalar-mode rows straddling a block and for rows longer than the buffer (witness theorems)")
R = "Verif.Props.Rev."
c("C22", "proved", [R+"C22_schedule"])
c("C23", "proved", [R+"C23_cost", R+"C23_is_schedule"])
c("C24", "proved", [R+"C24_checkpointing", R+"C24_tangents"], "the sweeps on the trace of one step enter through Step.Sound (C09, C10, C13)")
c("C36", "partial", [R+"C36_sequential_partial", R+"C36_two_loops"],
  "fails in the code when another loop runs between forward and reverse run: the scheduler's state is one global variable (witness theorem)")
S = "Verif.Props.Session."
c("C34", "partial", [S+"C34_trace_on_partial", S+"C34_sizes_never_starts"],
  "holds for trace_on(tag, keep); the overload with buffer sizes never starts a trace, in any state (theorem)")
c("C37", "proved", [S+"C37_nested_tracing", S+"C37_outer_trace", S+"C37_create", S+"C37_statement"])
c("C38", "partial", [S+"C38_rejected_partial", S+"C38_busy_tag_changes_session", S+"C38_wrong_counts_blocks_retracing", S+"C38_wrong_params_blocks_tag"],
  "fails in the code for a busy tag, for wrong variable counts and for wrong parameter counts (theorems for all states)")
X = "Verif.Props.Ext."
c("C35", "partial", [X+"C35_location_tape", X+"C35_replay_partial", X+"C35_replay_v2", X+"C35_adjoint", X+"C35_two_calls"],
  "holds for records of the second version and for records of the first version always called with the same variables; fails in the code when one record is called with different variables (witness theorem)")
P = "Verif.Props.Sparse."
c("C20", "partial", [P+"C20_bits_forward_safe_partial", P+"C20_bits_forward_tight_partial", P+"C20_bits_reverse_safe_partial", P+"C20_bits_reverse_tight_partial", P+"tightOk_program", P+"fwdTightOk_program", P+"C20_index_safe_partial", P+"C20_index_tight_partial", P+"C20_fmin_drops", P+"C20_condassign_s_drops", P+"C20_null_row", P+"C20_index_division", P+"C20_index_tight_condassign_s", P+"C20_index_tight_stock", P+"C20_forward_tight_condassign", P+"C20_reverse_condassign_s", P+"C20_reverse_tight_division"],
  "bit pattern: proved in all four combinations of mode and direction; safe forward up to 1920 independents without two-argument condassign, tight forward up to 1920 independents when no constant is recorded after a conditional assignment, safe reverse without two-argument condassign, tight reverse when no division follows a value-dependent operation (program-level sufficient conditions proved); index domains: proved in safe and tight mode for programs without in-place operations on the second argument. The code fails for fmin with more than 64 independents, for two-argument condassign, beyond 1920 independents, and (index domains) for x/(expression) and, in tight mode, for variables alive at trace_on, for constants after a condassign (tight forward), for divisions (tight reverse) (witness theorems)")
H = "Verif.Props.HO."
c("C17", "partial", [H+"C17_hos_forward_partial", H+"C17_pow_at_zero", H+"C17_cbrt"],
  "proved for every degree, without cbrt, without pow at base 0 and for keep <= degree + 1; fails in the code for cbrt (not implemented) and pow at base 0 (witness theorems)")
R = "Verif.Props.HORev."
c("C18", "partial", [R+"C18_hos_ti_reverse_partial", R+"C18_hos_reverse_partial", R+"C18_pow_at_zero", R+"C18_floor", R+"C18_ceil", R+"C18_cbrt"],
  "proved for every degree and every weight polynomial, without cbrt, ceil, floor and without pow at a base of absolute value at most 1e-19, where the code is wrong or undefined (witness theorems). hov_reverse and hos_ov_reverse: C41, C42. Keep rows assumed to come back as a LIFO of rows (C08)")
D = "Verif.Props.Drivers."
c("C28", "partial", [D+"C28_function", D+"C28_gradient_partial", D+"C28_jacobian_partial", D+"C28_large_jacobian_partial", D+"C28_large_jacobian_overrun", D+"C28_vec_jac_partial", D+"C28_vec_jac_repeat", D+"C28_jac_vec_partial", D+"C28_lagra_hess_vec_partial", D+"C28_hess_vec_partial", D+"C28_hessian_partial", D+"C28_hess_mat_partial", D+"C28_hessian2_partial"],
  "same restrictions on the operations as C11, C13 and C18; fails in the code for vec_jac with repeat (always a negative code) and for large_jacobian when (runs-1)*ceil(n/runs) > n, e.g. 5 columns in 4 runs (theorems); hess_mat and hessian2 for programs without a += b*c, a -= b*c and fmin (C42)")
O = "Verif.Props.Ode."
c("C27", "partial", [O+"C27_forode_partial", O+"C27_solution_exists", O+"C27_accode_partial", O+"C27_accode_recurrence", O+"C27_accode_pattern_partial", O+"C27_accode_pattern_bound", O+"C27_accode_in_place", O+"C27_accode_pattern_reused"],
  "proved for every degree and tau, with the restrictions of C17/C18 near the initial value; the Jacobian tensor by hos_reverse per row. The documented in-place use of accode, its documented output pattern and reuse of an output pattern are wrong in the code (witness theorems)")
T = "Verif.Props.Traceless."
c("C29", "partial", [T+"C29_seed", T+"C29_value", T+"C29_derivative_partial", T+"C29_kinks_partial", T+"C29_columns", T+"C29_uninitialised", T+"C29_atan2_axis"],
  "values and independence of the directions for every program; derivatives at every point where the executed functions are differentiable (one-sided at kinks), except that atan2 returns 0 derivatives where its second argument is 0 and that `adouble d;` leaves derivatives uninitialised (witness theorems)")
c("C21", "partial", [P+"C21_safe_partial", P+"C21_tight_partial", P+"C21_safe_fmin", P+"C21_safe_condassign", P+"C21_condassign_s", P+"C21_stock", P+"C21_vec_dot_overflow", P+"C21_old_safe_partial", P+"C21_old_tight_partial", P+"C21_old_division", P+"C21_old_dangling"],
  "new (DAG) sweeps, safe and tight: succeed without undefined memory accesses, sorted, symmetric, complete; for programs without fmin/condassign (safe), without two-argument condassign (tight) and with no adouble alive at trace_on; the code fails in these cases and overruns its node array for adolc_vec_dot (witness theorems). Old index-set sweeps (OldSafe, OldTight): whenever they succeed the pattern is sorted, symmetric and complete, and they succeed for at most 20 independents; for programs in which no operation overwrites its second argument and without erf/erfc; for more than 20 independents the code uses memory it gave back, and it loses entries for x / (y*z) (witness theorems)")
N = "Verif.Props.Counts."
c("C39", "partial", [N+"C39_counts_partial", N+"C39_vector_operations", N+"C39_dot_product_rejected", N+"C39_eq_products"],
  "holds for all programs without adolc_vec_dot and adolc_vec_axpy; these are counted as dependents (theorems for all sizes)")
V = "Verif.Props.HOVec."
c("C40", "partial", [V+"C40_directions_partial", V+"C40_hov_forward_partial", V+"C40_log_at_zero", V+"C40_pow_at_zero"],
  "on every trace, except where log is evaluated at 0 or pow at base 0, where the code mixes the directions (witness theorems); for traced programs with the restrictions of C17")
V = "Verif.Props.HORevVec."
c("C41", "partial", [V+"C41_rows_partial", V+"C41_hov_ti_reverse_partial", V+"C41_hov_reverse_partial", V+"C41_abs", V+"C41_axpy"],
  "on every trace without ceil and floor, and for two rows or more without fabs and vector axpy, where the code reads outside its arrays or propagates one row only (theorems); derivatives with the restrictions of C18; the flag 1 (linear) or less implies that the higher coefficients of the row vanish")
c("C42", "partial", [V+"C42_trace_partial", V+"C42_hos_ov_reverse_partial", V+"C42_dead_sum", V+"C42_fmin"],
  "for programs in which sums receiving products are live and fmin has two different arguments, with the restrictions of C18; the code returns wrong derivatives for a dead sum and stops for fmin(x, x) (theorems)")

c("C43", "partial", ["Verif.Props.Tensor.C43_tensor_eval_partial", "Verif.Props.Tensor.C43_tensor_value_order"],
  "proved for every degree, number of directions, seed matrix and history of calls, in exact arithmetic; restrictions of C40 on the traced program (no cbrt, no pow or log at 0 along the directions); multi-indices in non-increasing order (C25). tensor_value returns the wrong entry for (2,1) (theorem). Return code not modelled")
V = "Verif.Props.JacSolv."
c("C44", "partial", [V+"C44_jac_solv_partial", V+"C44_evaluate_after_factorise", V+"C44_repeat_after_singular", V+"C44_small_refused"],
  "proved for every dimension and every history of successful calls in which no evaluation (mode 0) follows a factorisation, in exact arithmetic, parameters fixed; after mode 1 then mode 0 the code substitutes with the unfactored matrix, and a call repeated after -3 reports success (theorems)")
V = "Verif.Props.Api."
c("C45", "partial", [V+n for n in ["C45_traceable_partial", "C45_while_taping_partial", "C45_zos_forward_partial", "C45_fos_forward_partial", "C45_fos_reverse_partial", "C45_log10", "C45_tan", "C45_sinh", "C45_cosh", "C45_tanh", "C45_fmin", "C45_fmin_number", "C45_fmax", "C45_fmax_number", "C45_pow_number", "C45_pow", "C45_atan2_value", "C45_atan2_partial", "C45_pow_negative_base", "C45_atan2_negative_axis"]],
  "without fmin of two lvalues (C32), derivatives with the restrictions of C11 and C13, pow for positive bases, atan2 not on the negative real axis; on the excluded cases the code returns other values (theorems). Operands evaluated from left to right; frexp and vector types not modelled")
V = "Verif.Props.Interfaces."
c("C46", "partial", [V+n for n in ["C46_forward_partial", "C46_forward_scalar_partial", "C46_negative_code", "C46_thrown_loses_X", "C46_reverse_partial", "C46_reverse_matrix_partial", "C46_reverse_identity_partial", "C46_reverse_vector_partial"]],
  "with the restrictions of C17, C18, C41 on the traced program; when the call throws, X is not restored (theorem)")
V = "Verif.Props.AbsNormal."
c("C47", "partial", [V+n for n in ["C47_switching_function", "C47_abs_normal_form", "C47_piecewise_linear", "C47_active_gradient_lost", "C47_off_path"]] + ["Verif.Props.NoMinMax.C47_source_program"],
  "abs_normal and fos_pl_forward for every program, at every point where all calls other than fabs are differentiable (restrictions of C13); directional_active_gradient returns zero for y = fabs(x) whatever the signature, and abs_normal ignores that the forward sweep stopped (theorems)")
V = "Verif.Props.Lie."
c("C48", "partial", [V+n for n in ["C48_lie_scalar_partial", "C48_lie_gradient_partial", "C48_lie_covector_partial", "C48_lie_bracket_partial", "C48_gradient_order_one", "C48_covector_order_one", "C48_covector_overflow", "C48_bracket_overflow"]],
  "lie_scalar for every degree; lie_gradient for d >= 2, lie_covector for 2 <= d <= 12, lie_bracket for d <= 12, with the restrictions of C17, C18, C41 on the traced programs; for d = 1 lie_gradient uses a wrong direction and lie_covector an uninitialised array, for d >= 13 an int factorial overflows (theorems); d = 0 not modelled for lie_gradient and lie_covector")
V = "Verif.Props.FixPoint."
c("C49", "partial", [V+n for n in ["C49_iteration", "C49_fixed_point", "C49_forward_partial", "keptAt_forward", "keptAt_taping", "C49_reverse_partial", "C49_reverse_uninitialised", "C49_forward_no_pass", "C49_two_tapes", "C49_zos_forward_stale"]],
  "values for every function and norm; derivatives when a pass number is returned, with the restrictions of C11 and C13 on the sub-trace (and, for reverse, kept values of the sub-tape near the fixed point); N_max_deriv <= 1 adds uninitialised memory, N_max <= 1 makes no forward pass, a second tape finds the first tape's data, and zos_forward with keep leaves the old linearisation point (theorems). The outer trace is C35's")
V = "Verif.Props.Advector."
c("C50", "partial", [V+n for n in ["C50_values", "C50_while_taping_partial", "C50_derivative_partial", "C50_fov_columns", "C50_fov_rows_partial", "C50_lookup_partial", "C50_fov_rows_lost", "C50_self_assign", "C50_moved_element", "C50_lookup_unsorted"]],
  "values for every program and point when the elements are in consecutive locations at each subscript; values while taping without fmin of two lvalues; derivatives without v[i] = v[k] for i = k, with the restrictions of C11 and C13. fov_reverse loses all rows but the first at a read of a const advector, v[i] = v[k] with i = k loses the adjoint, assigning an rvalue to an element moves it to another location, and nondecreasing() accepts everything (theorems)")
V = "Verif.Props.TracelessSparse."
c("C51", "partial", [V+n for n in ["C51_init", "C51_init_count", "C51_values", "C51_indices", "C51_dependence_partial", "C51_zero_partial", "C51_numeric", "C51_jacobian_partial", "C51_repeat_partial", "C51_self_assignment", "C51_repeat_stale"]],
  "for every program that does not assign an object to itself, with the restrictions of C29 and ColPack's colouring contract as hypothesis; assigning an object to itself clears its pattern, and repeat uses a pattern that may not fit the new point (theorems)")
V = "Verif.Props.SparseJac."
c("C52", "partial", [V+n for n in ["C52_first_call_partial", "C52_history_partial", "C52_defined", "C52_null_row", "C52_failed_pattern", "C52_stale_pattern"]],
  "with the restrictions of C20 on the pattern methods and of C13 on the points, ColPack's colouring contract as hypothesis; with forward bit patterns only if every dependent depends on an independent (a null row is dereferenced otherwise), histories with safe pattern methods and one compression mode: a tight pattern that fails leaves null rows, and a tight pattern does not fit other points (theorems)")
V = "Verif.Props.SparseHess."
c("C53", "partial", [V+n for n in ["C53_first_call_partial", "C53_history_partial", "star_correct", "C53_failed_pattern", "C53_short_arrays", "C53_setHP_no_effect", "C53_getHP"]],
  "with the restrictions of C21 and C42 on the traced program (in the modes OldSafe and OldTight also at most 20 independents, no erf or erfc and no op= on a second argument), for all four control flow modes, ColPack's contract (colouring and recovery) as hypothesis, met by every star colouring with direct recovery; histories with safe patterns and one recovery method: a tight pattern that fails leaves null rows; with repeat = 0 arrays of the caller that are too short are overrun; setHP does not spare the computation of the pattern (theorems)")
V = "Verif.Props.TracelessHov."
c("C54", "partial", [V+n for n in ["C54_values", "C54_taylor_partial", "C54_first_order_partial", "C54_straight_line_partial", "C54_seed", "C54_example", "C54_cos_wrong", "C54_cosh_wrong", "C54_mul_assign_wrong", "C54_div_assign_wrong", "C54_pow_at_zero_wrong", "C54_rows_not_computed", "C54_uninitialised", "C54_shared_rows"]],
  "for every program that does not use cos, cosh, fabs, erf, erfc, pow(0, v), d *= a or d /= a with an adouble a (their results are wrong: theorems) or an unimplemented function (the program stops), with no two rows in the same memory at the start (setOneADValue stores the caller's pointer: theorem) and `adouble d;` counted as uninitialised (theorem); index patterns not modelled")
V = "Verif.Props.InvTaylor."
c("C55", "partial", [V+"C55_inverse_taylor_partial"],
  "for every degree, point and history in which no call has returned -3 (a repeated call after -3 uses the incomplete factorisation: C44_repeat_after_singular) and jac_solv is not called with mode 0; programs with the restrictions of C17, C18 and C41; a sweep that fails is not followed further")
V = "Verif.Props.InvTensor."
c("C56", "partial", [V+n for n in ["C56_inverse_tensor_partial", "C56_inverse_exists", "C56_changed_degree"]],
  "for every degree and number of directions after any calls with the same d and p; a call with other d, p uses the size of the old table for the new one and overruns it (theorem); multi-indices as in C43; otherwise the restrictions of C55")
V = "Verif.Props.Fortran."
A = "Verif.Props.Alloc."
c("C57", "partial", [V+n for n in ["C57_layout2", "C57_layout3", "C57_function", "C57_gradient_partial", "C57_vec_jac_partial", "C57_jacobian_partial", "C57_jac_vec_partial", "C57_lagra_hess_vec_partial", "C57_hess_vec_partial", "C57_hessian_partial", "C57_zos_forward", "C57_fos_reverse_partial", "C57_fov_reverse_partial", "C57_fov_forward_partial", "C57_hos_forward_partial", "C57_hos_ti_reverse_partial", "C57_hos_reverse_partial", "C57_hov_reverse_partial", "C57_hov_ti_reverse_partial", "C57_hov_forward_partial"]] + [A+n for n in ["C57_accodec_overrun", "C57_accodec_alias", "C57_forodec_free", "C57_forodec_lost"]],
  "drivers and sweeps with the restrictions of the C functions (C12-C14, C17, C18, C28, C40, C41); hessian_ overwrites the upper triangle with zeros, forodec_ drops the coefficients 1..dol it is given and frees interior pointers, accodec_ allocates rows one element too short and overruns the block for every size (theorems); what a failing sweep leaves in the result arrays is not modelled")
c("C58", "partial", [V+n for n in ["C58_parts_exists", "C58_zos_forward_partx", "C58_wrong_count", "C58_fos_forward_partx_partial", "C58_hos_forward_partx_partial", "C58_fov_forward_partx_partial", "C58_hov_forward_partx_partial"]],
  "with the restrictions of C11, C12, C17 and C40; for every partition, also with empty blocks")
c("C59", "partial", [A+n for n in ["C59_myalloc2_partial", "C59_myalloc2_null", "C59_myalloc3_partial", "C59_myalloc2_overflow", "C59_myallocI2", "C59_identity_shared"]],
  "for every size whose number of bytes does not overflow size_t; with overflow the block is too small (theorem); the rows of myallocI2 share their memory, so they must not be written (theorem); calloc succeeding")
V = "Verif.Props.SparseC."
c("C60", "partial", [V+n for n in ["C60_patterns", "C60_hess", "C60_first_call_partial", "C60_history_partial", "C60_failure", "C60_null_nnz"]],
  "options, failures and the delivery of the result without restriction; the Jacobian itself with the restrictions of C52; nnz must not be null (theorem); the caller's arrays come from new[]")
V = "Verif.Props.Life."
c("C61", "partial", [V+n for n in ["C61_latest_trace_partial", "C61_stale_trace", "C61_retrace_to_disk", "C61_leftover_file", "C61_stale_keep_witness"]],
  "for histories in which a trace that went to disk is the last one of its tape id; otherwise the sweeps see the old trace, or the old file is closed twice (theorems for all traces); reverse sweeps with the restriction of C06 on parameters")
V = "Verif.Props.Registry."
c("C62", "partial", [V+n for n in ["C62_create_partial", "C62_id_range", "C62_unknown", "C62_files_partial", "C62_current", "C62_tags_partial", "C62_tags_witness", "C62_wrap"]],
  "for at most 65536 tapes per thread; the next one gets id 0 again and cannot be reached (theorem); cachedTraceTags leaves the vector as it is if there is no tape (theorem); the counter of threads does not overflow, one directory for all tapes")
V = "Verif.Conf."
c("C63", "partial", [V+n for n in ["C63_config_file_partial", "C63_no_file", "C63_fails_numeric_directory", "C63_fails_behind_long_line", "C63_fails_zero", "C63_fails_not_numbers"]],
  "for lines of less than 100 characters, numbers of 64 bits other than a plain 0 and directories that do not begin with a digit, space or sign; the other cases fail (theorems): such directories are ignored, everything behind a long line is ignored, 0 is not accepted, a text beginning with digits counts as a number")
V = "Verif.Props.SparseANF."
c("C64", "partial", [V+n for n in ["C64_sparse_abs_normal_partial", "C64_repeat_first", "C64_counts", "C64_lost_column", "C64_manual_looks_at_dims", "C64_repeat_after_smooth"]],
  "for every history in which calls with repeat = 1 follow a call for the same SparseANF, without the calls whose index domains lose a column; the other cases fail (theorems): a lost column is missing from the blocks, a repeated call after sparse_jac for a smooth trace is undefined behaviour, manual memory checks dims() rather than the blocks; the contract of the colouring is a hypothesis, index domains in safe mode")
V = "Verif.Props.PlSig."
c("C65", "partial", [V+n for n in ["C65_fov_pl_forward", "C65_sig_forward_partial", "C65_sig_arrays", "C65_sig_spoiled", "C65_sig_reverse", "C65_active_gradient", "C65_smooth_partial", "C65_gradient_lost", "C65_fails_only_large", "C65_outside_E", "C65_outside_E_witness", "C65_scale"]] + ["Verif.Props.AbsNormal.C47_active_gradient_lost"] + ["Verif.Props.FovSig."+n for n in ["C65_fov_sig_forward_partial", "C65_fov_sig_oneSided_partial", "C65_fov_sig_first", "C65_fov_sig_arrays", "C65_fov_sig_first_only"]],
  "fov_pl_forward in full; fos_pl_sig_forward gives the one-sided directional derivatives if sigbase[0] is not 0 and no switching variable lies within 1e-12 of 0 without being 0; the rest fails (theorems): only the first elements of the result arrays are written and sigbase[0] is used for all switches, fos_pl_sig_reverse and with it directional_active_gradient loses what passes through fabs, the driver writes behind E when n is too small, the signature depends on the length of the direction; fov_pl_sig_forward: same case, all directions get the derivative of the smooth piece of one signature, the first also the one-sided derivative; with sigbase[0] = 0 only the first direction is projected (theorem)")
V = "Verif.Props.AnfDense."
c("C66", "partial", [V+n for n in ["C66_storage", "C66_null", "C66_resize_partial", "C66_resize_moves", "C66_abs_normal_partial", "C66_wrong_shape", "C66_fromTape", "C66_fortran_partial", "C66_equation", "C66_equation_witness", "C66_moved", "C66_empty", "C66_short_x"]],
  "for traces with a dependent or a switch, off the points where an operation is not differentiable; the rest fails (theorems): the documented equations do not hold (cy = y - J|z|), resize with another number of columns moves the elements, a moved-from object reports its old dimensions without storage, the length of x is not checked")
V = "Verif.Props.Doc."
c("C67", "partial", [V+n for n in ["C67_listing_partial", "C67_mismatch", "C67_pages", "C67_names", "C67_unlisted", "C67_next_is_wrong", "C67_external_is_wrong", "C67_external_cells", "C67_axpy_is_wrong", "C67_listing_witness", "C67_unlisted_witness", "C67_external_witness"]],
  "for traces without the 29 operations tape_doc has no case for, vec_axpy and external functions; for those it fails (theorems): the operations are missing and every later line shows wrong operands")
V = "Verif.Props.ExtBuf."
c("C68", "partial", [V+n for n in ["C68_room_partial", "C68_room_Zp_partial", "C68_user", "C68_tables", "C68_Zp_outside", "C68_fewer_blocks", "C68_no_output"]],
  "for records whose calls cover one another pairwise in number of blocks and longest block; Zp only if the outputs are enough; the rest fails (theorems): Zp of a function with many inputs and few outputs, a call with fewer but longer blocks between others, a function without outputs")
V = "Verif.Props.ExtObj."
c("C69", "partial", [V+n for n in ["C69_sweep_partial", "C69_call_partial", "C69_numbers", "C69_new", "C69_call_other_tape", "C69_wrong_object", "C69_iArr_call"]],
  "sweeps: for objects of the classes EDFobject and EDFobject_v2, any tapes; call: if the two tapes of the object are the same; the rest fails (theorems): with another tape call runs the function of another object or fails, call of an EDFobject_iArr never reaches its function")
V = "Verif.Props.BitProp."
c("C70", "partial", [V+n for n in ["C70_forward_safe_partial", "C70_forward_tight_partial", "C70_no_base_point", "C70_reverse_safe_partial", "C70_reverse_tight_partial"]] +
  ["Verif.Props.Sparse.C20_forward_tight_condassign", "Verif.Props.Sparse.C20_reverse_tight_division"],
  "any seeds, any number of words, any directions and weights; partial: the calls for which the sweeps fail are excluded (two-argument conditional assignments, fmin with several words, constants after a conditional assignment in tight forward, divisions before a value-dependent operation in tight reverse; witnesses among the theorems of C20)")
V = "Verif.Props.NoMinMax."
c("C71", "partial", [V+n for n in ["C71_traceable", "C71_no_min_op", "C71_same_meaning", "C71_while_taping", "C71_zos_forward", "C71_fos_forward_partial", "C71_fos_reverse_partial", "C71_switching_variables", "C71_abs_normal", "C71_mode", "C71_sweep_rejected", "C71_enable_while_tracing"]],
  "values, traceability, absence of min_op, abs-normal form and the flag in full; derivatives at points of differentiability as in C45 (which names the remaining exceptions)")
