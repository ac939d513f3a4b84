#!/usr/bin/env python3
"""Single source for properties.jsonl.  Run: python3 tools/props.py"""
import json, os
P = []
def p(title, statement, quantifier, why, anchors):
    P.append(dict(id="C%02d" % (len(P)+1), title=title, statement=statement,
                  quantifier=quantifier, why_tests_cant=why, anchors=anchors))

p("Live active variables never share a location (block manager)",
  "A location handed out for a new adouble is never the location of another adouble that is still alive, is always inside the current value store, and is not handed out again until it has been freed.",
  "every finite sequence of construct / destroy / ensureContiguousLocations / setStoreManagerControl calls, every GC ratio and GC size threshold, every store size",
  "Aliasing only shows up for particular fragmentation histories of the free list combined with growth and consolidation; there are unboundedly many.",
  ["ADOL-C/src/storemanager.cpp:StoreManagerLocintBlock::next_loc", "ADOL-C/src/storemanager.cpp:StoreManagerLocintBlock::free_loc", "ADOL-C/src/storemanager.cpp:StoreManagerLocintBlock::grow", "ADOL-C/src/storemanager.cpp:StoreManagerLocintBlock::consolidateBlocks", "ADOL-C/src/storemanager.cpp:StoreManagerLocintBlock::ensure_block"])
p("ensureContiguousLocations(n) makes the next n adoubles contiguous",
  "After ensureContiguousLocations(n), the next n adoubles constructed (without intervening frees) occupy n consecutive locations.",
  "every reachable state of the location manager, every n, every GC setting",
  "Depends on the whole fragmentation history and on which of three search strategies fires.",
  ["ADOL-C/src/storemanager.cpp:StoreManagerLocintBlock::ensure_block", "ADOL-C/src/storemanager.cpp:StoreManagerLocintBlock::next_loc", "ADOL-C/include/adolc/tape_interface.h:ensureContiguousLocations"])
p("Growing the value store preserves live values and exact accounting",
  "No allocation, deallocation, block request or growth changes the value of any other live adouble; the reported number of live variables is exactly the number of adoubles constructed minus destroyed, and every location lies below the reported store size.",
  "every history of location manager calls, block and singleton managers",
  "Value loss occurs only when growth coincides with a particular layout.",
  ["ADOL-C/src/storemanager.cpp:grow", "ADOL-C/src/storemanager.cpp:next_loc", "ADOL-C/src/storemanager.cpp:free_loc"])
p("Singleton location manager never aliases and never hands out location 0",
  "With the singleton location manager the location handed out for a new adouble is different from every live location, lies strictly between 0 and the store size, and freed locations are reused before the store grows.",
  "every history of construct / destroy calls",
  "The in-array linked free list can be corrupted only by specific interleavings of free and growth.",
  ["ADOL-C/src/storemanager.cpp:StoreManagerLocint::next_loc", "ADOL-C/src/storemanager.cpp:StoreManagerLocint::free_loc", "ADOL-C/src/storemanager.cpp:StoreManagerLocint::grow"])
p("A recorded trace is read back forward exactly as written",
  "A forward sweep over a finished trace sees exactly the sequence of operations, each with exactly its locations and constants, that were recorded, whatever the operation/location/value buffer sizes and however many blocks were spilled to disk.",
  "every operation sequence, all buffer sizes that hold a single operation and the trace header (at least 3 operations, 43 locations, 5 values), every spill pattern",
  "The block markers interact at buffer boundaries; each combination of boundary positions is a separate case.",
  ["ADOL-C/src/valuetape/tapeinfos.cpp:put_op", "ADOL-C/src/valuetape/tapeinfos.cpp:get_op_block_f", "ADOL-C/src/valuetape/tapeinfos.cpp:get_loc_block_f", "ADOL-C/src/valuetape/tapeinfos.cpp:get_val_block_f", "ADOL-C/include/adolc/valuetape/valuetape.h:prepare_for"])
p("A recorded trace is read back in exact reverse order",
  "A reverse sweep over a finished trace sees exactly the reversed sequence of recorded operations with their own locations and constants, whatever the buffer sizes and spills.",
  "every operation sequence, every buffer size, every spill pattern",
  "Reverse reads rely on padding counters stored inside the spilled blocks; wrong only at particular boundary alignments.",
  ["ADOL-C/src/valuetape/tapeinfos.cpp:get_op_block_r", "ADOL-C/src/valuetape/tapeinfos.cpp:get_loc_block_r", "ADOL-C/src/valuetape/tapeinfos.cpp:get_val_block_r", "ADOL-C/include/adolc/valuetape/valuetape.h:prepare_rev"])
p("Scalar value stack is last-in first-out across spilled blocks",
  "The values saved by a forward sweep with keep are returned to the following reverse sweep in exactly the opposite order, for every Taylor buffer size and number of spilled blocks.",
  "every sequence of saved values, every Taylor buffer size",
  "Fails only when the number of saved values hits a block boundary.",
  ["ADOL-C/include/adolc/valuetape/tapeinfos.h:write_scaylor", "ADOL-C/include/adolc/valuetape/tapeinfos.h:get_taylor", "ADOL-C/src/valuetape/tapeinfos.cpp:get_tay_block_r", "ADOL-C/src/valuetape/valuetape.cpp:taylor_back", "ADOL-C/src/valuetape/valuetape.cpp:taylor_close"])
p("Higher-order value stack restores every saved coefficient row",
  "A row of Taylor coefficients saved by a higher-order forward sweep is restored exactly by the following higher-order reverse sweep, also when the row straddles a spilled block.",
  "every row length, every alignment of the row with respect to the block boundary, every buffer size",
  "Only rows that straddle a block boundary exercise the multi-block path.",
  ["ADOL-C/src/valuetape/tapeinfos.cpp:write_taylor", "ADOL-C/src/valuetape/tapeinfos.cpp:get_taylors", "ADOL-C/src/valuetape/tapeinfos.cpp:write_taylors", "ADOL-C/src/valuetape/tapeinfos.cpp:get_taylors_p"])
p("zos_forward evaluates the traced function",
  "zos_forward at any point x at which all recorded comparisons have their recorded outcome returns the value of the program that was traced, and repeating it gives the same result.",
  "every trace, every point x",
  "Quantifies over all programs and all evaluation points.",
  ["ADOL-C/src/uni5_for.cpp", "ADOL-C/src/adouble.cpp", "ADOL-C/src/zos_forward.cpp"])
p("Branch switches are reported, and return codes only decrease",
  "A forward sweep returns a negative code exactly when some recorded comparison has a different outcome at x; otherwise the returned code is the minimum over the executed operations of their smoothness degree.",
  "every trace, every point",
  "Requires all traces and all points including ties.",
  ["ADOL-C/src/uni5_for.cpp", "ADOL-C/include/adolc/interfaces.h"])
p("fos_forward returns the directional derivative",
  "At every point where the traced elementary operations are differentiable, fos_forward returns F(x) and the directional derivative F'(x)v.",
  "every trace of the modelled operations, every point, every direction",
  "A derivative is a limit; tests compare floats at sample points.",
  ["ADOL-C/src/uni5_for.cpp", "ADOL-C/src/fos_forward.cpp"])
p("Vector forward mode equals scalar forward mode per direction",
  "Column j of the fov_forward result is the fos_forward result for column j of the seed matrix.",
  "every trace, point, number of directions, seed matrix",
  "All numbers of directions and aliasing patterns of locations.",
  ["ADOL-C/src/uni5_for.cpp", "ADOL-C/src/fov_forward.cpp"])
p("fos_reverse returns the vector-Jacobian product",
  "After a forward sweep with keep at x, fos_reverse with weight u returns u^T F'(x), even when locations are overwritten during the computation.",
  "every trace of the modelled operations, every differentiable point, every weight",
  "All programs, including those that overwrite their own arguments.",
  ["ADOL-C/src/fo_rev.cpp", "ADOL-C/src/fos_reverse.cpp"])
p("Vector reverse mode equals scalar reverse mode per weight",
  "Row j of the fov_reverse result equals the fos_reverse result for row j of the weight matrix.",
  "every trace, point, number of weights, weight matrix",
  "All numbers of weights and all programs.",
  ["ADOL-C/src/fo_rev.cpp", "ADOL-C/src/fov_reverse.cpp"])
p("Forward and reverse mode are adjoint",
  "At every point where the elementary operations executed have the derivative the sweeps use, for every u and v, u . (fos_forward direction v) equals (fos_reverse weight u) . v, for every program that computes nothing from a variable after declaring it dependent and declares independents on constants.",
  "every trace, point, u, v (no differentiability needed)",
  "All traces.",
  ["ADOL-C/src/uni5_for.cpp", "ADOL-C/src/fo_rev.cpp"])
p("The reverse sweep sees the values of the forward sweep it follows",
  "During fos_reverse each operation's partial derivatives are evaluated at the argument values the forward sweep had when executing that operation, for any pattern of overwriting, self-assignment and location reuse.",
  "every trace and point",
  "Overwrite patterns such as x = x*x or y = pow(y, c) are unbounded in number.",
  ["ADOL-C/src/fo_rev.cpp", "ADOL-C/src/uni5_for.cpp:IF_KEEP_WRITE_TAYLOR"])
p("hos_forward returns the Taylor coefficients of the composition",
  "For an input curve x(t) = x0 + X1 t + ... + Xd t^d, hos_forward returns the Taylor coefficients up to degree d of F(x(t)) at t = 0.",
  "every trace of the modelled operations, every degree d, every curve through a point in the interior of the operations' domains",
  "All degrees and curves.",
  ["ADOL-C/src/uni5_for.cpp", "ADOL-C/src/hos_forward.cpp"])
p("hos_reverse returns the adjoint Taylor coefficients",
  "After hos_forward with keep = d+1, hos_reverse with weight u returns the Taylor coefficients of u^T F'(x(t)) up to degree d.",
  "every trace of the modelled operations, degree, curve, weight",
  "All degrees, traces.",
  ["ADOL-C/src/ho_rev.cpp", "ADOL-C/src/convolut.cpp"])
p("Temporary elimination does not change the computed function",
  "Recording y = a op b, or y += a*b, through an eliminated temporary yields a trace computing the same values for every live variable as the program with the temporary.",
  "every recorded prefix, every choice of aliased variables",
  "Peephole rewriting of already recorded data is unsafe only for certain alias patterns.",
  ["ADOL-C/include/adolc/valuetape/tapeinfos.h:upd_resloc", "ADOL-C/include/adolc/valuetape/tapeinfos.h:upd_resloc_inc_prod", "ADOL-C/src/adouble.cpp"])
p("The Jacobian sparsity pattern never misses a dependence",
  "jac_pat in safe mode contains every pair (i,j) for which dependent i can depend on independent j for some choice of constants, branches and conditional assignments; in tight mode every pair with a nonzero derivative at the given point.",
  "every trace, every point, both propagation methods (bit pattern and index domains), forward and reverse",
  "Quantifies over all traces and points.",
  ["ADOL-C/src/uni5_for.cpp", "ADOL-C/src/sparse/sparsedrivers.cpp"])
p("The Hessian sparsity pattern never misses a second-order dependence",
  "hess_pat contains every pair (i,j) whose second partial derivative is nonzero at the point (tight) or anywhere on the recorded branch (safe), and is symmetric.",
  "every trace of the modelled operations, every point, all four control flow modes (Safe, Tight, OldSafe, OldTight)",
  "Quantifies over all traces.",
  ["ADOL-C/src/uni5_for.cpp", "ADOL-C/src/sparse/sparsedrivers.cpp:hess_pat"])
p("Checkpoint schedule reverses every step exactly once, in order",
  "Driven with S time steps and c >= 1 snapshots (within the library's limits) the checkpoint scheduler terminates without error, requests a reverse of steps S-1, S-2, ..., 0 exactly once each and in this order, each from the correct state, and never needs more than c stored snapshots.",
  "every S >= 1, every c >= 1 within the limits c <= 1000, S <= binomial(c+1000, c), (S-1)(1000+c) < 2^31; any earlier use of the scheduler",
  "All pairs (S, c).",
  ["ADOL-C/src/revolve.cpp:revolve", "ADOL-C/src/checkpointing.cpp"])
p("Checkpoint schedule does not exceed the predicted number of forward steps",
  "The total number of time steps the scheduler asks to advance equals the number predicted by the binomial formula (numforw), and no schedule with the same number of snapshots needs fewer.",
  "every S, every c within the same limits, and every schedule that stores and restores states in c slots in any order",
  "Optimality quantifies over all schedules.",
  ["ADOL-C/src/revolve.cpp:revolve", "ADOL-C/src/revolve.cpp:numforw"])
p("Checkpointed adjoint equals the adjoint of the unrolled loop",
  "fos_reverse through a checkpointed time loop returns the same adjoint as composing the transposed Jacobians of all time steps at the states of the forward trajectory, and the forward result is the S-fold iterate.",
  "every number of steps and snapshots, every step function, with and without retaping",
  "All schedules.",
  ["ADOL-C/src/checkpointing.cpp:fos_reverse", "ADOL-C/src/checkpointing.cpp:zos_forward", "ADOL-C/src/checkpointing.cpp:revolveForward"])
p("Tensor addressing is a symmetric bijection",
  "tensor_address maps each multiset of at most d indices out of n to a distinct position of the compressed tensor, ignoring index order, and the positions are exactly 0 .. binomi(n+d, d)-1.",
  "every n, every d, every multi-index",
  "All n and d.",
  ["ADOL-C/src/drivers/taylor.cpp:tensor_address", "ADOL-C/src/drivers/taylor.cpp:binomi"])
p("Taylor convolution routines compute truncated series arithmetic",
  "conv, inconv, deconv compute (add, subtract) the truncated product, divide and recipr the truncated quotient, for every truncation order, including the in-place zeroing variants.",
  "every dimension and coefficient arrays, every nonzero leading denominator",
  "All dimensions.",
  ["ADOL-C/src/convolut.cpp"])
p("forode/accode compute the ODE solution's Taylor coefficients and their sensitivities",
  "forode with autonomous right-hand side F returns the Taylor coefficients of the solution of x' = tau F(x) through x0; accode accumulates the total Jacobians of these coefficients.",
  "every trace, degree, scaling tau, initial value",
  "All degrees and right-hand sides.",
  ["ADOL-C/src/drivers/odedriversf.cpp", "ADOL-C/src/drivers/odedrivers.cpp", "ADOL-C/src/interfaces.cpp"])
p("Easy-to-use drivers return the derivative they name",
  "function, gradient, jacobian, large_jacobian, vec_jac, jac_vec, hess_vec, lagra_hess_vec, hessian return the values, gradient, Jacobian, products and Hessian of the traced function at the given point, with a nonnegative code when they succeed and without touching memory outside the arrays passed.",
  "every trace, point, dimension, number of runs",
  "All dimensions and traces.",
  ["ADOL-C/src/drivers/drivers.cpp"])
p("Traceless forward mode returns the derivative",
  "A computation on adtl::adouble yields the value of the same computation on doubles, and getADValue(j) is the derivative of that value in the j-th direction the independents were seeded with (the one-sided derivative along the direction where fabs, fmax or fmin have a kink); directions do not influence each other.",
  "every program over the overloads (operators, functions, in-place operators, condassign, comparisons and branches), every point, every number of independents and directions, every content of uninitialised memory",
  "All programs.",
  ["ADOL-C/include/adolc/adtl.h"])
p("Registered function records keep their identity",
  "Each external or checkpointed function record registered on a tape gets a fresh index, and looking an index up always yields the record registered under it, however many are registered later.",
  "every number of registrations",
  "Block boundaries of the record list.",
  ["ADOL-C/include/adolc/buffer_temp.h", "ADOL-C/src/externfcts.cpp"])
p("Trace parameters survive the trace",
  "The parameter values recorded with a trace are those used by later evaluations until overridden by set_param_vec, and survive writing the trace to disk and reading it back for every number of parameters and value-buffer size.",
  "every number of parameters, every value-buffer size and fill position",
  "Only multi-block parameter tails exercise the chunk loops.",
  ["ADOL-C/src/valuetape/valuetape.cpp:save_params", "ADOL-C/src/valuetape/valuetape.cpp:read_params", "ADOL-C/src/valuetape/valuetape.cpp:set_param_vec", "ADOL-C/src/valuetape/valuetape.cpp:discard_params_r"])

def flush():
    here = os.path.dirname(os.path.abspath(__file__))
    with open(os.path.join(here, "..", "properties.jsonl"), "w") as f:
        for x in P: f.write(json.dumps(x) + "\n")
exec(open(os.path.join(os.path.dirname(os.path.abspath(__file__)), "props_more.py")).read()) if os.path.exists(os.path.join(os.path.dirname(os.path.abspath(__file__)), "props_more.py")) else None
flush()
