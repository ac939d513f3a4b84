{
 "claims": [
  {
   "property": "C01",
   "status": "proved",
   "theorems": [
    "Verif.Props.Store.C01_no_aliasing"
   ],
   "note": ""
  },
  {
   "property": "C02",
   "status": "proved",
   "theorems": [
    "Verif.Props.Store.C02_contiguous"
   ],
   "note": ""
  },
  {
   "property": "C03",
   "status": "proved",
   "theorems": [
    "Verif.Props.Store.C03_values_and_accounting",
    "Verif.Props.Store.C03_values_and_accounting_single"
   ],
   "note": ""
  },
  {
   "property": "C04",
   "status": "proved",
   "theorems": [
    "Verif.Props.Store.C04_singleton"
   ],
   "note": ""
  },
  {
   "property": "C09",
   "status": "proved",
   "theorems": [
    "Verif.Props.AD.C09_zos_forward",
    "Verif.Props.AD.traced_exists"
   ],
   "note": "exact arithmetic; recorder model: all adouble/pdouble overloads except advector/adubref, vector operations, external functions"
  },
  {
   "property": "C10",
   "status": "proved",
   "theorems": [
    "Verif.Props.AD.C10_branch_switch",
    "Verif.Props.AD.C10_return_code",
    "Verif.Props.AD.C10_fos",
    "Verif.Props.AD.C10_recording_point"
   ],
   "note": ""
  },
  {
   "property": "C11",
   "status": "partial",
   "theorems": [
    "Verif.Props.AD.C11_fos_forward_partial",
    "Verif.Props.AD.C11_asin_in_place"
   ],
   "note": "fails in the code where asin/acos/acosh/atanh of a temporary has result +-1 (witness theorem)"
  },
  {
   "property": "C12",
   "status": "partial",
   "theorems": [
    "Verif.Props.AD.C12_fov_columns_partial",
    "Verif.Props.AD.C12_log_column"
   ],
   "note": "fails in the code at log(0) (witness theorem)"
  },
  {
   "property": "C13",
   "status": "partial",
   "theorems": [
    "Verif.Props.AD.C13_fos_reverse_partial",
    "Verif.Props.AD.C13_pow_one_at_zero",
    "Verif.Props.AD.C13_dependent_used_later"
   ],
   "note": "fails in the code for pow(x,1.0) at 0 and for variables used after being declared dependent (witness theorems)"
  },
  {
   "property": "C14",
   "status": "proved",
   "theorems": [
    "Verif.Props.AD.C14_fov_reverse_rows",
    "Verif.Props.AD.C14_fov_reverse_matrix"
   ],
   "note": ""
  },
  {
   "property": "C15",
   "status": "proved",
   "theorems": [
    "Verif.Props.AD.C15_duality"
   ],
   "note": ""
  },
  {
   "property": "C16",
   "status": "partial",
   "theorems": [
    "Verif.Props.AD.C16_values_restored_partial",
    "Verif.Props.AD.C16_vec_copy_order"
   ],
   "note": "fails in the code for adolc_vec_copy/adolc_vec_axpy of two or more elements (witness theorem)"
  },
  {
   "property": "C19",
   "status": "proved",
   "theorems": [
    "Verif.Props.AD.C19_temporaries"
   ],
   "note": ""
  },
  {
   "property": "C32",
   "status": "partial",
   "theorems": [
    "Verif.Props.AD.C32_values_while_taping_partial",
    "Verif.Props.AD.C32_fmin_stores_location"
   ],
   "note": "fails in the code for fmin(const adouble&, const adouble&) (witness theorem)"
  },
  {
   "property": "C33",
   "status": "partial",
   "theorems": [
    "Verif.Props.AD.C33_reverse_after_taping_partial"
   ],
   "note": "fails in the code for fmin of two lvalues and the vector operations"
  },
  {
   "property": "C25",
   "status": "partial",
   "theorems": [
    "Verif.Props.Num.C25_tensor_address_partial",
    "Verif.Props.Num.C25_tensorentry",
    "Verif.Props.Num.C25_binomi",
    "Verif.Props.Num.C25_order_matters"
   ],
   "note": "fails in the code when nonzero entries are not non-increasing, e.g. (1,1,2), which the manual allows (witness theorem)"
  },
  {
   "property": "C26",
   "status": "proved",
   "theorems": [
    "Verif.Props.Num.C26_conv",
    "Verif.Props.Num.C26_inconv",
    "Verif.Props.Num.C26_deconv",
    "Verif.Props.Num.C26_inconv0",
    "Verif.Props.Num.C26_deconv0",
    "Verif.Props.Num.C26_divide",
    "Verif.Props.Num.C26_recipr",
    "Verif.Props.Num.C26_zeroset"
   ],
   "note": "exact arithmetic"
  },
  {
   "property": "C30",
   "status": "proved",
   "theorems": [
    "Verif.Props.Num.C30_records"
   ],
   "note": ""
  },
  {
   "property": "C05",
   "status": "proved",
   "theorems": [
    "Verif.Props.IO.C05_forward_readback"
   ],
   "note": "file system calls succeed; buffers of at least 3 operations, 43 locations, 5 values"
  },
  {
   "property": "C06",
   "status": "partial",
   "theorems": [
    "Verif.Props.IO.C06_reverse_readback_partial",
    "Verif.Props.IO.C06_reverse_readback_no_params",
    "Verif.Props.IO.C06_params_witness"
   ],
   "note": "fails in the code when the parameters do not fit behind the other values of the last value buffer (witness theorem)"
  },
  {
   "property": "C31",
   "status": "partial",
   "theorems": [
    "Verif.Props.IO.C31_parameters_partial",
    "Verif.Props.IO.C31_override_lost_witness",
    "Verif.Props.IO.C31_too_many_params"
   ],
   "note": "fails in the code for traces on disk not evaluated with keep, and for more parameters than VBUFSIZE (witness theorems)"
  },
  {
   "property": "C07",
   "status": "partial",
   "theorems": [
    "Verif.Props.Stack.C07_value_stack_partial",
    "Verif.Props.Stack.C07_exactly_full"
   ],
   "note": "fails in the code exactly when the stack fills its buffer and was never spilled (witness theorem, for all sizes)"
  },
  {
   "property": "C08",
   "status": "partial",
   "theorems": [
    "Verif.Props.Stack.C08_rows_partial",
    "Verif.Props.Stack.C08_rows_vector_partial",
    "Verif.Props.Stack.C08_straddling_row",
    "Verif.Props.Stack.C08_row_too_long"
   ],
   "note": "fails in the code for scalar-mode rows straddling a block and for rows longer than the buffer (witness theorems)"
  },
  {
   "property": "C22",
   "status": "proved",
   "theorems": [
    "Verif.Props.Rev.C22_schedule"
   ],
   "note": ""
  },
  {
   "property": "C23",
   "status": "proved",
   "theorems": [
    "Verif.Props.Rev.C23_cost",
    "Verif.Props.Rev.C23_is_schedule"
   ],
   "note": ""
  },
  {
   "property": "C24",
   "status": "proved",
   "theorems": [
    "Verif.Props.Rev.C24_checkpointing",
    "Verif.Props.Rev.C24_tangents"
   ],
   "note": "the sweeps on the trace of one step enter through Step.Sound (C09, C10, C13)"
  },
  {
   "property": "C36",
   "status": "partial",
   "theorems": [
    "Verif.Props.Rev.C36_sequential_partial",
    "Verif.Props.Rev.C36_two_loops"
   ],
   "note": "fails in the code when another loop runs between forward and reverse run: the scheduler's state is one global variable (witness theorem)"
  },
  {
   "property": "C34",
   "status": "partial",
   "theorems": [
    "Verif.Props.Session.C34_trace_on_partial",
    "Verif.Props.Session.C34_sizes_never_starts"
   ],
   "note": "holds for trace_on(tag, keep); the overload with buffer sizes never starts a trace, in any state (theorem)"
  },
  {
   "property": "C37",
   "status": "proved",
   "theorems": [
    "Verif.Props.Session.C37_nested_tracing",
    "Verif.Props.Session.C37_outer_trace",
    "Verif.Props.Session.C37_create",
    "Verif.Props.Session.C37_statement"
   ],
   "note": ""
  },
  {
   "property": "C38",
   "status": "partial",
   "theorems": [
    "Verif.Props.Session.C38_rejected_partial",
    "Verif.Props.Session.C38_busy_tag_changes_session",
    "Verif.Props.Session.C38_wrong_counts_blocks_retracing",
    "Verif.Props.Session.C38_wrong_params_blocks_tag"
   ],
   "note": "fails in the code for a busy tag, for wrong variable counts and for wrong parameter counts (theorems for all states)"
  },
  {
   "property": "C35",
   "status": "partial",
   "theorems": [
    "Verif.Props.Ext.C35_location_tape",
    "Verif.Props.Ext.C35_replay_partial",
    "Verif.Props.Ext.C35_replay_v2",
    "Verif.Props.Ext.C35_adjoint",
    "Verif.Props.Ext.C35_two_calls"
   ],
   "note": "holds for records of the second version and for records of the first version always called with the same variables; fails in the code when one record is called with different variables (witness theorem)"
  },
  {
   "property": "C20",
   "status": "partial",
   "theorems": [
    "Verif.Props.Sparse.C20_bits_forward_safe_partial",
    "Verif.Props.Sparse.C20_bits_forward_tight_partial",
    "Verif.Props.Sparse.C20_bits_reverse_safe_partial",
    "Verif.Props.Sparse.C20_bits_reverse_tight_partial",
    "Verif.Props.Sparse.tightOk_program",
    "Verif.Props.Sparse.fwdTightOk_program",
    "Verif.Props.Sparse.C20_index_safe_partial",
    "Verif.Props.Sparse.C20_index_tight_partial",
    "Verif.Props.Sparse.C20_fmin_drops",
    "Verif.Props.Sparse.C20_condassign_s_drops",
    "Verif.Props.Sparse.C20_null_row",
    "Verif.Props.Sparse.C20_index_division",
    "Verif.Props.Sparse.C20_index_tight_condassign_s",
    "Verif.Props.Sparse.C20_index_tight_stock",
    "Verif.Props.Sparse.C20_forward_tight_condassign",
    "Verif.Props.Sparse.C20_reverse_condassign_s",
    "Verif.Props.Sparse.C20_reverse_tight_division"
   ],
   "note": "bit pattern: proved in all four combinations of mode and direction; safe forward up to 1920 independents without two-argument condassign, tight forward up to 1920 independents when no constant is recorded after a conditional assignment, safe reverse without two-argument condassign, tight reverse when no division follows a value-dependent operation (program-level sufficient conditions proved); index domains: proved in safe and tight mode for programs without in-place operations on the second argument. The code fails for fmin with more than 64 independents, for two-argument condassign, beyond 1920 independents, and (index domains) for x/(expression) and, in tight mode, for variables alive at trace_on, for constants after a condassign (tight forward), for divisions (tight reverse) (witness theorems)"
  },
  {
   "property": "C17",
   "status": "partial",
   "theorems": [
    "Verif.Props.HO.C17_hos_forward_partial",
    "Verif.Props.HO.C17_pow_at_zero",
    "Verif.Props.HO.C17_cbrt"
   ],
   "note": "proved for every degree, without cbrt, without pow at base 0 and for keep <= degree + 1; fails in the code for cbrt (not implemented) and pow at base 0 (witness theorems)"
  },
  {
   "property": "C18",
   "status": "partial",
   "theorems": [
    "Verif.Props.HORev.C18_hos_ti_reverse_partial",
    "Verif.Props.HORev.C18_hos_reverse_partial",
    "Verif.Props.HORev.C18_pow_at_zero",
    "Verif.Props.HORev.C18_floor",
    "Verif.Props.HORev.C18_ceil",
    "Verif.Props.HORev.C18_cbrt"
   ],
   "note": "proved for every degree and every weight polynomial, without cbrt, ceil, floor and without pow at a base of absolute value at most 1e-19, where the code is wrong or undefined (witness theorems). hov_reverse and hos_ov_reverse: C41, C42. Keep rows assumed to come back as a LIFO of rows (C08)"
  },
  {
   "property": "C28",
   "status": "partial",
   "theorems": [
    "Verif.Props.Drivers.C28_function",
    "Verif.Props.Drivers.C28_gradient_partial",
    "Verif.Props.Drivers.C28_jacobian_partial",
    "Verif.Props.Drivers.C28_large_jacobian_partial",
    "Verif.Props.Drivers.C28_large_jacobian_overrun",
    "Verif.Props.Drivers.C28_vec_jac_partial",
    "Verif.Props.Drivers.C28_vec_jac_repeat",
    "Verif.Props.Drivers.C28_jac_vec_partial",
    "Verif.Props.Drivers.C28_lagra_hess_vec_partial",
    "Verif.Props.Drivers.C28_hess_vec_partial",
    "Verif.Props.Drivers.C28_hessian_partial",
    "Verif.Props.Drivers.C28_hess_mat_partial",
    "Verif.Props.Drivers.C28_hessian2_partial"
   ],
   "note": "same restrictions on the operations as C11, C13 and C18; fails in the code for vec_jac with repeat (always a negative code) and for large_jacobian when (runs-1)*ceil(n/runs) > n, e.g. 5 columns in 4 runs (theorems); hess_mat and hessian2 for programs without a += b*c, a -= b*c and fmin (C42)"
  },
  {
   "property": "C27",
   "status": "partial",
   "theorems": [
    "Verif.Props.Ode.C27_forode_partial",
    "Verif.Props.Ode.C27_solution_exists",
    "Verif.Props.Ode.C27_accode_partial",
    "Verif.Props.Ode.C27_accode_recurrence",
    "Verif.Props.Ode.C27_accode_pattern_partial",
    "Verif.Props.Ode.C27_accode_pattern_bound",
    "Verif.Props.Ode.C27_accode_in_place",
    "Verif.Props.Ode.C27_accode_pattern_reused"
   ],
   "note": "proved for every degree and tau, with the restrictions of C17/C18 near the initial value; the Jacobian tensor by hos_reverse per row. The documented in-place use of accode, its documented output pattern and reuse of an output pattern are wrong in the code (witness theorems)"
  },
  {
   "property": "C29",
   "status": "partial",
   "theorems": [
    "Verif.Props.Traceless.C29_seed",
    "Verif.Props.Traceless.C29_value",
    "Verif.Props.Traceless.C29_derivative_partial",
    "Verif.Props.Traceless.C29_kinks_partial",
    "Verif.Props.Traceless.C29_columns",
    "Verif.Props.Traceless.C29_uninitialised",
    "Verif.Props.Traceless.C29_atan2_axis"
   ],
   "note": "values and independence of the directions for every program; derivatives at every point where the executed functions are differentiable (one-sided at kinks), except that atan2 returns 0 derivatives where its second argument is 0 and that `adouble d;` leaves derivatives uninitialised (witness theorems)"
  },
  {
   "property": "C21",
   "status": "partial",
   "theorems": [
    "Verif.Props.Sparse.C21_safe_partial",
    "Verif.Props.Sparse.C21_tight_partial",
    "Verif.Props.Sparse.C21_safe_fmin",
    "Verif.Props.Sparse.C21_safe_condassign",
    "Verif.Props.Sparse.C21_condassign_s",
    "Verif.Props.Sparse.C21_stock",
    "Verif.Props.Sparse.C21_vec_dot_overflow",
    "Verif.Props.Sparse.C21_old_safe_partial",
    "Verif.Props.Sparse.C21_old_tight_partial",
    "Verif.Props.Sparse.C21_old_division",
    "Verif.Props.Sparse.C21_old_dangling"
   ],
   "note": "new (DAG) sweeps, safe and tight: succeed without undefined memory accesses, sorted, symmetric, complete; for programs without fmin/condassign (safe), without two-argument condassign (tight) and with no adouble alive at trace_on; the code fails in these cases and overruns its node array for adolc_vec_dot (witness theorems). Old index-set sweeps (OldSafe, OldTight): whenever they succeed the pattern is sorted, symmetric and complete, and they succeed for at most 20 independents; for programs in which no operation overwrites its second argument and without erf/erfc; for more than 20 independents the code uses memory it gave back, and it loses entries for x / (y*z) (witness theorems)"
  },
  {
   "property": "C39",
   "status": "partial",
   "theorems": [
    "Verif.Props.Counts.C39_counts_partial",
    "Verif.Props.Counts.C39_vector_operations",
    "Verif.Props.Counts.C39_dot_product_rejected",
    "Verif.Props.Counts.C39_eq_products"
   ],
   "note": "holds for all programs without adolc_vec_dot and adolc_vec_axpy; these are counted as dependents (theorems for all sizes)"
  },
  {
   "property": "C40",
   "status": "partial",
   "theorems": [
    "Verif.Props.HOVec.C40_directions_partial",
    "Verif.Props.HOVec.C40_hov_forward_partial",
    "Verif.Props.HOVec.C40_log_at_zero",
    "Verif.Props.HOVec.C40_pow_at_zero"
   ],
   "note": "on every trace, except where log is evaluated at 0 or pow at base 0, where the code mixes the directions (witness theorems); for traced programs with the restrictions of C17"
  },
  {
   "property": "C41",
   "status": "partial",
   "theorems": [
    "Verif.Props.HORevVec.C41_rows_partial",
    "Verif.Props.HORevVec.C41_hov_ti_reverse_partial",
    "Verif.Props.HORevVec.C41_hov_reverse_partial",
    "Verif.Props.HORevVec.C41_abs",
    "Verif.Props.HORevVec.C41_axpy"
   ],
   "note": "on every trace without ceil and floor, and for two rows or more without fabs and vector axpy, where the code reads outside its arrays or propagates one row only (theorems); derivatives with the restrictions of C18; the flag 1 (linear) or less implies that the higher coefficients of the row vanish"
  },
  {
   "property": "C42",
   "status": "partial",
   "theorems": [
    "Verif.Props.HORevVec.C42_trace_partial",
    "Verif.Props.HORevVec.C42_hos_ov_reverse_partial",
    "Verif.Props.HORevVec.C42_dead_sum",
    "Verif.Props.HORevVec.C42_fmin"
   ],
   "note": "for programs in which sums receiving products are live and fmin has two different arguments, with the restrictions of C18; the code returns wrong derivatives for a dead sum and stops for fmin(x, x) (theorems)"
  },
  {
   "property": "C43",
   "status": "partial",
   "theorems": [
    "Verif.Props.Tensor.C43_tensor_eval_partial",
    "Verif.Props.Tensor.C43_tensor_value_order"
   ],
   "note": "proved for every degree, number of directions, seed matrix and history of calls, in exact arithmetic; restrictions of C40 on the traced program (no cbrt, no pow or log at 0 along the directions); multi-indices in non-increasing order (C25). tensor_value returns the wrong entry for (2,1) (theorem). Return code not modelled"
  },
  {
   "property": "C44",
   "status": "partial",
   "theorems": [
    "Verif.Props.JacSolv.C44_jac_solv_partial",
    "Verif.Props.JacSolv.C44_evaluate_after_factorise",
    "Verif.Props.JacSolv.C44_repeat_after_singular",
    "Verif.Props.JacSolv.C44_small_refused"
   ],
   "note": "proved for every dimension and every history of successful calls in which no evaluation (mode 0) follows a factorisation, in exact arithmetic, parameters fixed; after mode 1 then mode 0 the code substitutes with the unfactored matrix, and a call repeated after -3 reports success (theorems)"
  },
  {
   "property": "C45",
   "status": "partial",
   "theorems": [
    "Verif.Props.Api.C45_traceable_partial",
    "Verif.Props.Api.C45_while_taping_partial",
    "Verif.Props.Api.C45_zos_forward_partial",
    "Verif.Props.Api.C45_fos_forward_partial",
    "Verif.Props.Api.C45_fos_reverse_partial",
    "Verif.Props.Api.C45_log10",
    "Verif.Props.Api.C45_tan",
    "Verif.Props.Api.C45_sinh",
    "Verif.Props.Api.C45_cosh",
    "Verif.Props.Api.C45_tanh",
    "Verif.Props.Api.C45_fmin",
    "Verif.Props.Api.C45_fmin_number",
    "Verif.Props.Api.C45_fmax",
    "Verif.Props.Api.C45_fmax_number",
    "Verif.Props.Api.C45_pow_number",
    "Verif.Props.Api.C45_pow",
    "Verif.Props.Api.C45_atan2_value",
    "Verif.Props.Api.C45_atan2_partial",
    "Verif.Props.Api.C45_pow_negative_base",
    "Verif.Props.Api.C45_atan2_negative_axis"
   ],
   "note": "without fmin of two lvalues (C32), derivatives with the restrictions of C11 and C13, pow for positive bases, atan2 not on the negative real axis; on the excluded cases the code returns other values (theorems). Operands evaluated from left to right; frexp and vector types not modelled"
  },
  {
   "property": "C46",
   "status": "partial",
   "theorems": [
    "Verif.Props.Interfaces.C46_forward_partial",
    "Verif.Props.Interfaces.C46_forward_scalar_partial",
    "Verif.Props.Interfaces.C46_negative_code",
    "Verif.Props.Interfaces.C46_thrown_loses_X",
    "Verif.Props.Interfaces.C46_reverse_partial",
    "Verif.Props.Interfaces.C46_reverse_matrix_partial",
    "Verif.Props.Interfaces.C46_reverse_identity_partial",
    "Verif.Props.Interfaces.C46_reverse_vector_partial"
   ],
   "note": "with the restrictions of C17, C18, C41 on the traced program; when the call throws, X is not restored (theorem)"
  },
  {
   "property": "C47",
   "status": "partial",
   "theorems": [
    "Verif.Props.AbsNormal.C47_switching_function",
    "Verif.Props.AbsNormal.C47_abs_normal_form",
    "Verif.Props.AbsNormal.C47_piecewise_linear",
    "Verif.Props.AbsNormal.C47_active_gradient_lost",
    "Verif.Props.AbsNormal.C47_off_path",
    "Verif.Props.NoMinMax.C47_source_program"
   ],
   "note": "abs_normal and fos_pl_forward for every program, at every point where all calls other than fabs are differentiable (restrictions of C13); directional_active_gradient returns zero for y = fabs(x) whatever the signature, and abs_normal ignores that the forward sweep stopped (theorems)"
  },
  {
   "property": "C48",
   "status": "partial",
   "theorems": [
    "Verif.Props.Lie.C48_lie_scalar_partial",
    "Verif.Props.Lie.C48_lie_gradient_partial",
    "Verif.Props.Lie.C48_lie_covector_partial",
    "Verif.Props.Lie.C48_lie_bracket_partial",
    "Verif.Props.Lie.C48_gradient_order_one",
    "Verif.Props.Lie.C48_covector_order_one",
    "Verif.Props.Lie.C48_covector_overflow",
    "Verif.Props.Lie.C48_bracket_overflow"
   ],
   "note": "lie_scalar for every degree; lie_gradient for d >= 2, lie_covector for 2 <= d <= 12, lie_bracket for d <= 12, with the restrictions of C17, C18, C41 on the traced programs; for d = 1 lie_gradient uses a wrong direction and lie_covector an uninitialised array, for d >= 13 an int factorial overflows (theorems); d = 0 not modelled for lie_gradient and lie_covector"
  },
  {
   "property": "C49",
   "status": "partial",
   "theorems": [
    "Verif.Props.FixPoint.C49_iteration",
    "Verif.Props.FixPoint.C49_fixed_point",
    "Verif.Props.FixPoint.C49_forward_partial",
    "Verif.Props.FixPoint.keptAt_forward",
    "Verif.Props.FixPoint.keptAt_taping",
    "Verif.Props.FixPoint.C49_reverse_partial",
    "Verif.Props.FixPoint.C49_reverse_uninitialised",
    "Verif.Props.FixPoint.C49_forward_no_pass",
    "Verif.Props.FixPoint.C49_two_tapes",
    "Verif.Props.FixPoint.C49_zos_forward_stale"
   ],
   "note": "values for every function and norm; derivatives when a pass number is returned, with the restrictions of C11 and C13 on the sub-trace (and, for reverse, kept values of the sub-tape near the fixed point); N_max_deriv <= 1 adds uninitialised memory, N_max <= 1 makes no forward pass, a second tape finds the first tape's data, and zos_forward with keep leaves the old linearisation point (theorems). The outer trace is C35's"
  },
  {
   "property": "C50",
   "status": "partial",
   "theorems": [
    "Verif.Props.Advector.C50_values",
    "Verif.Props.Advector.C50_while_taping_partial",
    "Verif.Props.Advector.C50_derivative_partial",
    "Verif.Props.Advector.C50_fov_columns",
    "Verif.Props.Advector.C50_fov_rows_partial",
    "Verif.Props.Advector.C50_lookup_partial",
    "Verif.Props.Advector.C50_fov_rows_lost",
    "Verif.Props.Advector.C50_self_assign",
    "Verif.Props.Advector.C50_moved_element",
    "Verif.Props.Advector.C50_lookup_unsorted"
   ],
   "note": "values for every program and point when the elements are in consecutive locations at each subscript; values while taping without fmin of two lvalues; derivatives without v[i] = v[k] for i = k, with the restrictions of C11 and C13. fov_reverse loses all rows but the first at a read of a const advector, v[i] = v[k] with i = k loses the adjoint, assigning an rvalue to an element moves it to another location, and nondecreasing() accepts everything (theorems)"
  },
  {
   "property": "C51",
   "status": "partial",
   "theorems": [
    "Verif.Props.TracelessSparse.C51_init",
    "Verif.Props.TracelessSparse.C51_init_count",
    "Verif.Props.TracelessSparse.C51_values",
    "Verif.Props.TracelessSparse.C51_indices",
    "Verif.Props.TracelessSparse.C51_dependence_partial",
    "Verif.Props.TracelessSparse.C51_zero_partial",
    "Verif.Props.TracelessSparse.C51_numeric",
    "Verif.Props.TracelessSparse.C51_jacobian_partial",
    "Verif.Props.TracelessSparse.C51_repeat_partial",
    "Verif.Props.TracelessSparse.C51_self_assignment",
    "Verif.Props.TracelessSparse.C51_repeat_stale"
   ],
   "note": "for every program that does not assign an object to itself, with the restrictions of C29 and ColPack's colouring contract as hypothesis; assigning an object to itself clears its pattern, and repeat uses a pattern that may not fit the new point (theorems)"
  },
  {
   "property": "C52",
   "status": "partial",
   "theorems": [
    "Verif.Props.SparseJac.C52_first_call_partial",
    "Verif.Props.SparseJac.C52_history_partial",
    "Verif.Props.SparseJac.C52_defined",
    "Verif.Props.SparseJac.C52_null_row",
    "Verif.Props.SparseJac.C52_failed_pattern",
    "Verif.Props.SparseJac.C52_stale_pattern"
   ],
   "note": "with the restrictions of C20 on the pattern methods and of C13 on the points, ColPack's colouring contract as hypothesis; with forward bit patterns only if every dependent depends on an independent (a null row is dereferenced otherwise), histories with safe pattern methods and one compression mode: a tight pattern that fails leaves null rows, and a tight pattern does not fit other points (theorems)"
  },
  {
   "property": "C53",
   "status": "partial",
   "theorems": [
    "Verif.Props.SparseHess.C53_first_call_partial",
    "Verif.Props.SparseHess.C53_history_partial",
    "Verif.Props.SparseHess.star_correct",
    "Verif.Props.SparseHess.C53_failed_pattern",
    "Verif.Props.SparseHess.C53_short_arrays",
    "Verif.Props.SparseHess.C53_setHP_no_effect",
    "Verif.Props.SparseHess.C53_getHP"
   ],
   "note": "with the restrictions of C21 and C42 on the traced program (in the modes OldSafe and OldTight also at most 20 independents, no erf or erfc and no op= on a second argument), for all four control flow modes, ColPack's contract (colouring and recovery) as hypothesis, met by every star colouring with direct recovery; histories with safe patterns and one recovery method: a tight pattern that fails leaves null rows; with repeat = 0 arrays of the caller that are too short are overrun; setHP does not spare the computation of the pattern (theorems)"
  },
  {
   "property": "C54",
   "status": "partial",
   "theorems": [
    "Verif.Props.TracelessHov.C54_values",
    "Verif.Props.TracelessHov.C54_taylor_partial",
    "Verif.Props.TracelessHov.C54_first_order_partial",
    "Verif.Props.TracelessHov.C54_straight_line_partial",
    "Verif.Props.TracelessHov.C54_seed",
    "Verif.Props.TracelessHov.C54_example",
    "Verif.Props.TracelessHov.C54_cos_wrong",
    "Verif.Props.TracelessHov.C54_cosh_wrong",
    "Verif.Props.TracelessHov.C54_mul_assign_wrong",
    "Verif.Props.TracelessHov.C54_div_assign_wrong",
    "Verif.Props.TracelessHov.C54_pow_at_zero_wrong",
    "Verif.Props.TracelessHov.C54_rows_not_computed",
    "Verif.Props.TracelessHov.C54_uninitialised",
    "Verif.Props.TracelessHov.C54_shared_rows"
   ],
   "note": "for every program that does not use cos, cosh, fabs, erf, erfc, pow(0, v), d *= a or d /= a with an adouble a (their results are wrong: theorems) or an unimplemented function (the program stops), with no two rows in the same memory at the start (setOneADValue stores the caller's pointer: theorem) and `adouble d;` counted as uninitialised (theorem); index patterns not modelled"
  },
  {
   "property": "C55",
   "status": "partial",
   "theorems": [
    "Verif.Props.InvTaylor.C55_inverse_taylor_partial"
   ],
   "note": "for every degree, point and history in which no call has returned -3 (a repeated call after -3 uses the incomplete factorisation: C44_repeat_after_singular) and jac_solv is not called with mode 0; programs with the restrictions of C17, C18 and C41; a sweep that fails is not followed further"
  },
  {
   "property": "C56",
   "status": "partial",
   "theorems": [
    "Verif.Props.InvTensor.C56_inverse_tensor_partial",
    "Verif.Props.InvTensor.C56_inverse_exists",
    "Verif.Props.InvTensor.C56_changed_degree"
   ],
   "note": "for every degree and number of directions after any calls with the same d and p; a call with other d, p uses the size of the old table for the new one and overruns it (theorem); multi-indices as in C43; otherwise the restrictions of C55"
  },
  {
   "property": "C57",
   "status": "partial",
   "theorems": [
    "Verif.Props.Fortran.C57_layout2",
    "Verif.Props.Fortran.C57_layout3",
    "Verif.Props.Fortran.C57_function",
    "Verif.Props.Fortran.C57_gradient_partial",
    "Verif.Props.Fortran.C57_vec_jac_partial",
    "Verif.Props.Fortran.C57_jacobian_partial",
    "Verif.Props.Fortran.C57_jac_vec_partial",
    "Verif.Props.Fortran.C57_lagra_hess_vec_partial",
    "Verif.Props.Fortran.C57_hess_vec_partial",
    "Verif.Props.Fortran.C57_hessian_partial",
    "Verif.Props.Fortran.C57_zos_forward",
    "Verif.Props.Fortran.C57_fos_reverse_partial",
    "Verif.Props.Fortran.C57_fov_reverse_partial",
    "Verif.Props.Fortran.C57_fov_forward_partial",
    "Verif.Props.Fortran.C57_hos_forward_partial",
    "Verif.Props.Fortran.C57_hos_ti_reverse_partial",
    "Verif.Props.Fortran.C57_hos_reverse_partial",
    "Verif.Props.Fortran.C57_hov_reverse_partial",
    "Verif.Props.Fortran.C57_hov_ti_reverse_partial",
    "Verif.Props.Fortran.C57_hov_forward_partial",
    "Verif.Props.Alloc.C57_accodec_overrun",
    "Verif.Props.Alloc.C57_accodec_alias",
    "Verif.Props.Alloc.C57_forodec_free",
    "Verif.Props.Alloc.C57_forodec_lost"
   ],
   "note": "drivers and sweeps with the restrictions of the C functions (C12-C14, C17, C18, C28, C40, C41); hessian_ overwrites the upper triangle with zeros, forodec_ drops the coefficients 1..dol it is given and frees interior pointers, accodec_ allocates rows one element too short and overruns the block for every size (theorems); what a failing sweep leaves in the result arrays is not modelled"
  },
  {
   "property": "C58",
   "status": "partial",
   "theorems": [
    "Verif.Props.Fortran.C58_parts_exists",
    "Verif.Props.Fortran.C58_zos_forward_partx",
    "Verif.Props.Fortran.C58_wrong_count",
    "Verif.Props.Fortran.C58_fos_forward_partx_partial",
    "Verif.Props.Fortran.C58_hos_forward_partx_partial",
    "Verif.Props.Fortran.C58_fov_forward_partx_partial",
    "Verif.Props.Fortran.C58_hov_forward_partx_partial"
   ],
   "note": "with the restrictions of C11, C12, C17 and C40; for every partition, also with empty blocks"
  },
  {
   "property": "C59",
   "status": "partial",
   "theorems": [
    "Verif.Props.Alloc.C59_myalloc2_partial",
    "Verif.Props.Alloc.C59_myalloc2_null",
    "Verif.Props.Alloc.C59_myalloc3_partial",
    "Verif.Props.Alloc.C59_myalloc2_overflow",
    "Verif.Props.Alloc.C59_myallocI2",
    "Verif.Props.Alloc.C59_identity_shared"
   ],
   "note": "for every size whose number of bytes does not overflow size_t; with overflow the block is too small (theorem); the rows of myallocI2 share their memory, so they must not be written (theorem); calloc succeeding"
  },
  {
   "property": "C60",
   "status": "partial",
   "theorems": [
    "Verif.Props.SparseC.C60_patterns",
    "Verif.Props.SparseC.C60_hess",
    "Verif.Props.SparseC.C60_first_call_partial",
    "Verif.Props.SparseC.C60_history_partial",
    "Verif.Props.SparseC.C60_failure",
    "Verif.Props.SparseC.C60_null_nnz"
   ],
   "note": "options, failures and the delivery of the result without restriction; the Jacobian itself with the restrictions of C52; nnz must not be null (theorem); the caller's arrays come from new[]"
  },
  {
   "property": "C61",
   "status": "partial",
   "theorems": [
    "Verif.Props.Life.C61_latest_trace_partial",
    "Verif.Props.Life.C61_stale_trace",
    "Verif.Props.Life.C61_retrace_to_disk",
    "Verif.Props.Life.C61_leftover_file",
    "Verif.Props.Life.C61_stale_keep_witness"
   ],
   "note": "for histories in which a trace that went to disk is the last one of its tape id; otherwise the sweeps see the old trace, or the old file is closed twice (theorems for all traces); reverse sweeps with the restriction of C06 on parameters"
  },
  {
   "property": "C62",
   "status": "partial",
   "theorems": [
    "Verif.Props.Registry.C62_create_partial",
    "Verif.Props.Registry.C62_id_range",
    "Verif.Props.Registry.C62_unknown",
    "Verif.Props.Registry.C62_files_partial",
    "Verif.Props.Registry.C62_current",
    "Verif.Props.Registry.C62_tags_partial",
    "Verif.Props.Registry.C62_tags_witness",
    "Verif.Props.Registry.C62_wrap"
   ],
   "note": "for at most 65536 tapes per thread; the next one gets id 0 again and cannot be reached (theorem); cachedTraceTags leaves the vector as it is if there is no tape (theorem); the counter of threads does not overflow, one directory for all tapes"
  },
  {
   "property": "C63",
   "status": "partial",
   "theorems": [
    "Verif.Conf.C63_config_file_partial",
    "Verif.Conf.C63_no_file",
    "Verif.Conf.C63_fails_numeric_directory",
    "Verif.Conf.C63_fails_behind_long_line",
    "Verif.Conf.C63_fails_zero",
    "Verif.Conf.C63_fails_not_numbers"
   ],
   "note": "for lines of less than 100 characters, numbers of 64 bits other than a plain 0 and directories that do not begin with a digit, space or sign; the other cases fail (theorems): such directories are ignored, everything behind a long line is ignored, 0 is not accepted, a text beginning with digits counts as a number"
  },
  {
   "property": "C64",
   "status": "partial",
   "theorems": [
    "Verif.Props.SparseANF.C64_sparse_abs_normal_partial",
    "Verif.Props.SparseANF.C64_repeat_first",
    "Verif.Props.SparseANF.C64_counts",
    "Verif.Props.SparseANF.C64_lost_column",
    "Verif.Props.SparseANF.C64_manual_looks_at_dims",
    "Verif.Props.SparseANF.C64_repeat_after_smooth"
   ],
   "note": "for every history in which calls with repeat = 1 follow a call for the same SparseANF, without the calls whose index domains lose a column; the other cases fail (theorems): a lost column is missing from the blocks, a repeated call after sparse_jac for a smooth trace is undefined behaviour, manual memory checks dims() rather than the blocks; the contract of the colouring is a hypothesis, index domains in safe mode"
  },
  {
   "property": "C65",
   "status": "partial",
   "theorems": [
    "Verif.Props.PlSig.C65_fov_pl_forward",
    "Verif.Props.PlSig.C65_sig_forward_partial",
    "Verif.Props.PlSig.C65_sig_arrays",
    "Verif.Props.PlSig.C65_sig_spoiled",
    "Verif.Props.PlSig.C65_sig_reverse",
    "Verif.Props.PlSig.C65_active_gradient",
    "Verif.Props.PlSig.C65_smooth_partial",
    "Verif.Props.PlSig.C65_gradient_lost",
    "Verif.Props.PlSig.C65_fails_only_large",
    "Verif.Props.PlSig.C65_outside_E",
    "Verif.Props.PlSig.C65_outside_E_witness",
    "Verif.Props.PlSig.C65_scale",
    "Verif.Props.AbsNormal.C47_active_gradient_lost",
    "Verif.Props.FovSig.C65_fov_sig_forward_partial",
    "Verif.Props.FovSig.C65_fov_sig_oneSided_partial",
    "Verif.Props.FovSig.C65_fov_sig_first",
    "Verif.Props.FovSig.C65_fov_sig_arrays",
    "Verif.Props.FovSig.C65_fov_sig_first_only"
   ],
   "note": "fov_pl_forward in full; fos_pl_sig_forward gives the one-sided directional derivatives if sigbase[0] is not 0 and no switching variable lies within 1e-12 of 0 without being 0; the rest fails (theorems): only the first elements of the result arrays are written and sigbase[0] is used for all switches, fos_pl_sig_reverse and with it directional_active_gradient loses what passes through fabs, the driver writes behind E when n is too small, the signature depends on the length of the direction; fov_pl_sig_forward: same case, all directions get the derivative of the smooth piece of one signature, the first also the one-sided derivative; with sigbase[0] = 0 only the first direction is projected (theorem)"
  },
  {
   "property": "C66",
   "status": "partial",
   "theorems": [
    "Verif.Props.AnfDense.C66_storage",
    "Verif.Props.AnfDense.C66_null",
    "Verif.Props.AnfDense.C66_resize_partial",
    "Verif.Props.AnfDense.C66_resize_moves",
    "Verif.Props.AnfDense.C66_abs_normal_partial",
    "Verif.Props.AnfDense.C66_wrong_shape",
    "Verif.Props.AnfDense.C66_fromTape",
    "Verif.Props.AnfDense.C66_fortran_partial",
    "Verif.Props.AnfDense.C66_equation",
    "Verif.Props.AnfDense.C66_equation_witness",
    "Verif.Props.AnfDense.C66_moved",
    "Verif.Props.AnfDense.C66_empty",
    "Verif.Props.AnfDense.C66_short_x"
   ],
   "note": "for traces with a dependent or a switch, off the points where an operation is not differentiable; the rest fails (theorems): the documented equations do not hold (cy = y - J|z|), resize with another number of columns moves the elements, a moved-from object reports its old dimensions without storage, the length of x is not checked"
  },
  {
   "property": "C67",
   "status": "partial",
   "theorems": [
    "Verif.Props.Doc.C67_listing_partial",
    "Verif.Props.Doc.C67_mismatch",
    "Verif.Props.Doc.C67_pages",
    "Verif.Props.Doc.C67_names",
    "Verif.Props.Doc.C67_unlisted",
    "Verif.Props.Doc.C67_next_is_wrong",
    "Verif.Props.Doc.C67_external_is_wrong",
    "Verif.Props.Doc.C67_external_cells",
    "Verif.Props.Doc.C67_axpy_is_wrong",
    "Verif.Props.Doc.C67_listing_witness",
    "Verif.Props.Doc.C67_unlisted_witness",
    "Verif.Props.Doc.C67_external_witness"
   ],
   "note": "for traces without the 29 operations tape_doc has no case for, vec_axpy and external functions; for those it fails (theorems): the operations are missing and every later line shows wrong operands"
  },
  {
   "property": "C68",
   "status": "partial",
   "theorems": [
    "Verif.Props.ExtBuf.C68_room_partial",
    "Verif.Props.ExtBuf.C68_room_Zp_partial",
    "Verif.Props.ExtBuf.C68_user",
    "Verif.Props.ExtBuf.C68_tables",
    "Verif.Props.ExtBuf.C68_Zp_outside",
    "Verif.Props.ExtBuf.C68_fewer_blocks",
    "Verif.Props.ExtBuf.C68_no_output"
   ],
   "note": "for records whose calls cover one another pairwise in number of blocks and longest block; Zp only if the outputs are enough; the rest fails (theorems): Zp of a function with many inputs and few outputs, a call with fewer but longer blocks between others, a function without outputs"
  },
  {
   "property": "C69",
   "status": "partial",
   "theorems": [
    "Verif.Props.ExtObj.C69_sweep_partial",
    "Verif.Props.ExtObj.C69_call_partial",
    "Verif.Props.ExtObj.C69_numbers",
    "Verif.Props.ExtObj.C69_new",
    "Verif.Props.ExtObj.C69_call_other_tape",
    "Verif.Props.ExtObj.C69_wrong_object",
    "Verif.Props.ExtObj.C69_iArr_call"
   ],
   "note": "sweeps: for objects of the classes EDFobject and EDFobject_v2, any tapes; call: if the two tapes of the object are the same; the rest fails (theorems): with another tape call runs the function of another object or fails, call of an EDFobject_iArr never reaches its function"
  },
  {
   "property": "C70",
   "status": "partial",
   "theorems": [
    "Verif.Props.BitProp.C70_forward_safe_partial",
    "Verif.Props.BitProp.C70_forward_tight_partial",
    "Verif.Props.BitProp.C70_no_base_point",
    "Verif.Props.BitProp.C70_reverse_safe_partial",
    "Verif.Props.BitProp.C70_reverse_tight_partial",
    "Verif.Props.Sparse.C20_forward_tight_condassign",
    "Verif.Props.Sparse.C20_reverse_tight_division"
   ],
   "note": "any seeds, any number of words, any directions and weights; partial: the calls for which the sweeps fail are excluded (two-argument conditional assignments, fmin with several words, constants after a conditional assignment in tight forward, divisions before a value-dependent operation in tight reverse; witnesses among the theorems of C20)"
  },
  {
   "property": "C71",
   "status": "partial",
   "theorems": [
    "Verif.Props.NoMinMax.C71_traceable",
    "Verif.Props.NoMinMax.C71_no_min_op",
    "Verif.Props.NoMinMax.C71_same_meaning",
    "Verif.Props.NoMinMax.C71_while_taping",
    "Verif.Props.NoMinMax.C71_zos_forward",
    "Verif.Props.NoMinMax.C71_fos_forward_partial",
    "Verif.Props.NoMinMax.C71_fos_reverse_partial",
    "Verif.Props.NoMinMax.C71_switching_variables",
    "Verif.Props.NoMinMax.C71_abs_normal",
    "Verif.Props.NoMinMax.C71_mode",
    "Verif.Props.NoMinMax.C71_sweep_rejected",
    "Verif.Props.NoMinMax.C71_enable_while_tracing"
   ],
   "note": "values, traceability, absence of min_op, abs-normal form and the flag in full; derivatives at points of differentiability as in C45 (which names the remaining exceptions)"
  }
 ]
}