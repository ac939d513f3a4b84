p("Values of adoubles while taping are those of the plain computation",
  "While a program is being traced, the value of every live adouble (value(), comparisons, branches taken) is the value the same program computes on plain doubles.",
  "every program on adoubles, every input, every location layout",
  "Every overload has lvalue/rvalue variants with separate value updates; programs combine them without bound.",
  ["ADOL-C/src/adouble.cpp", "ADOL-C/include/adolc/adtb_types.h"])
p("trace_on with keep leaves a value stack fos_reverse can use",
  "After trace_on(tag, 1) ... trace_off(), fos_reverse at the recording point returns u^T F'(x) without an intermediate forward sweep.",
  "every program, every input, every weight vector, every location layout",
  "The value stack must match the trace operation by operation, including rewritten operations, for every program.",
  ["ADOL-C/src/adouble.cpp", "ADOL-C/src/valuetape/valuetape.cpp:keep_stock", "ADOL-C/src/fo_rev.cpp"])
p("trace_on with explicit buffer sizes starts a trace",
  "trace_on(tag, keep, obs, lbs, vbs, tbs, skipCleanup) starts tracing like trace_on(tag, keep), with the given buffer sizes, and returns 0, or reports that the tag is in use.",
  "every tag, every set of buffer sizes, every history of earlier traces on the tag",
  "Depends on the history of the tag: new, recorded before, on disk.",
  ["ADOL-C/src/tape_interface.cpp:trace_on", "ADOL-C/src/valuetape/valuetape.cpp:initNewTape"])
p("External function calls replay on the variables they were called with",
  "When a trace with calls of registered external functions is evaluated, every call reads the variables it was called with while taping and writes the variables that received its results.",
  "every number of calls, every assignment of function records to calls, every location layout",
  "Ranges over all sequences of calls and records.",
  ["ADOL-C/src/externfcts.cpp:call_ext_fct", "ADOL-C/src/uni5_for.cpp", "ADOL-C/src/fo_rev.cpp"])
p("Checkpointed loops do not disturb each other",
  "A program may contain several checkpointed loops; whatever the order of their forward and reverse runs, each reverse run returns the adjoint of its own loop.",
  "every number of loops, every interleaving of forward and reverse runs, all sizes",
  "Interleavings are unbounded; the scheduler keeps hidden state.",
  ["ADOL-C/include/adolc/revolve.h:revolve_numbers", "ADOL-C/src/revolve.cpp:revolve", "ADOL-C/src/checkpointing.cpp"])
p("Nested tracing: every statement goes to the innermost active trace",
  "trace_on/trace_off blocks on different tags may be nested and traces may be evaluated inside; every statement is recorded on the innermost active trace only, and trace_off makes the enclosing trace current again.",
  "every nesting depth, every sequence of blocks, statements and evaluations on any number of tags",
  "Nesting and sequences are unbounded.",
  ["ADOL-C/src/tape_interface.cpp:trace_on", "ADOL-C/src/tape_interface.cpp:trace_off", "ADOL-C/include/adolc/tape_interface.h:setCurrentTape"])
p("A rejected call leaves the session as it was",
  "A call that throws (unknown tag, tag in use, not tracing, wrong number of variables or parameters) leaves the current tape, the nesting of traces and the tape usable as before.",
  "every session state, every call and argument",
  "Ranges over all histories before the rejected call and all calls after it.",
  ["ADOL-C/src/tape_interface.cpp", "ADOL-C/src/valuetape/valuetape.cpp:openTape", "ADOL-C/src/valuetape/valuetape.cpp:set_param_vec"])
p("The numbers stored with a trace are the numbers of independents and dependents",
  "After trace_off the trace reports as many independents as <<= and as many dependents as >>= were executed; sweeps and drivers called with these numbers are accepted, and with any others they throw.",
  "every program, every input, every location layout",
  "The counters are changed while operations are recorded, for every sequence of operations.",
  ["ADOL-C/src/valuetape/valuetape.cpp:close_tape", "ADOL-C/include/adolc/valuetape/valuetape.h:add_num_eq_prod", "ADOL-C/src/adouble.cpp:operator<<=", "ADOL-C/src/uni5_for.cpp"])
p("Several directions at once, higher order: every direction as if alone",
  "hov_forward (and hov_wk_forward with keep) with p directions returns for every direction the Taylor coefficients of F along that direction's curve, the ones hos_forward returns for it, together with the value F(x).",
  "every trace, every number of directions, every degree, all Taylor coefficients of the independents, every keep",
  "Directions share buffers, pointers and loop variables within every operation; ranges over all traces, degrees and numbers of directions.",
  ["ADOL-C/src/uni5_for.cpp (_HOV_, _HOV_WK_)", "ADOL-C/include/adolc/interfaces.h:hov_forward"])
p("Several weight vectors at once, higher order: every row as if alone",
  "hov_reverse and hov_ti_reverse with q weight vectors return for every weight vector the Taylor coefficients of u^T F'(x(t)) that hos_reverse / hos_ti_reverse return for it; an entry 0 of the nonzero pattern means that the row has no coefficients different from 0 for this independent.",
  "every trace, every number of weight vectors, every degree, all weights and curves",
  "Rows share buffers, pointers and loop variables within every operation; ranges over all traces, degrees and numbers of rows.",
  ["ADOL-C/src/ho_rev.cpp (_HOV_)", "ADOL-C/include/adolc/interfaces.h:hov_reverse", "ADOL-C/include/adolc/interfaces.h:hov_ti_reverse"])
p("Several directions at once in higher-order reverse mode: every direction as if alone",
  "After hov_wk_forward in q directions, hos_ov_reverse returns for every direction the Taylor coefficients of u^T F' along that direction's curve.",
  "every trace, every number of directions, every degree, all weights and curves",
  "Directions share buffers, pointers and flags within every operation; ranges over all traces, degrees and numbers of directions.",
  ["ADOL-C/src/ho_rev.cpp (_HOS_OV_)", "ADOL-C/include/adolc/interfaces.h:hos_ov_reverse"])
p("tensor_eval returns all mixed derivatives",
  "tensor_eval of degree d with a seed matrix S of p columns stores at tensor[j][tensor_address(d, multi)] the mixed partial derivative of z -> F_j(x + S z) at z = 0 with respect to the coordinates named by multi, for every multi-index of order at most d, the value F_j(x) at position 0, and writes nothing else; earlier calls with other d and p do not matter. tensor_value returns these entries.",
  "every trace, every degree d >= 0 and number p >= 1 of directions, every seed matrix, every multi-index, every history of earlier calls",
  "The interpolation table, the batches of ten directions and the cache make the result depend on d, p and on earlier calls; no finite set of degrees and directions settles the identity.",
  ["ADOL-C/src/drivers/taylor.cpp:tensor_eval", "ADOL-C/src/drivers/taylor.cpp:coeff", "ADOL-C/src/drivers/taylor.cpp:tensor_value"])
p("jac_solv solves the linear system with the Jacobian",
  "jac_solv in mode 2 replaces b by the solution of F'(x) b' = b, or returns -3 and leaves b alone; calls of modes 0, 1 and 2 at any points before do not matter (the factorisation kept by the tape is used only when it belongs to x).",
  "every trace with as many dependents as independents, every point, right-hand side and history of calls",
  "The tape keeps point, mode, matrix and permutations between calls; histories and dimensions are unbounded.",
  ["ADOL-C/src/drivers/taylor.cpp:jac_solv", "ADOL-C/src/drivers/taylor.cpp:LUFactorization", "ADOL-C/src/drivers/taylor.cpp:GauszSolve"])
p("The program as written: expressions, temporaries and comparisons",
  "For a C++ program on adoubles built from declarations, assignments, compound assignments, all arithmetic operators and elementary functions (also those composed in the header: log10, tan, sinh, cosh, tanh, fmin, fmax, ldexp, pow, atan2) in arbitrarily nested expressions of lvalues and temporaries, conditional assignments and if on comparisons: while tracing it computes what the same program computes on doubles and destroys all its temporaries; zos_forward at a point where all comparisons have the same outcomes returns the program's values there and otherwise -1; fos_forward and fos_reverse return the program's derivatives.",
  "every program, every nesting of expressions, every input, every location layout",
  "Which overload is taken, which temporary holds which value and when it dies depends on the whole expression; programs and nestings are unbounded.",
  ["ADOL-C/include/adolc/adtb_types.h", "ADOL-C/src/adouble.cpp"])
p("The overloaded calls forward and reverse",
  "forward(tag, m, n, d, keep, X, Y) with any degree d >= 0 stores in Y[j][k] the k-th Taylor coefficient of F_j along the curve with coefficients X[i][0..d] (for one dependent also with a one-dimensional Y), writes nothing else and leaves X as it was, also if the call fails; reverse(tag, m, n, d, u, Z) after it returns the Taylor coefficients of u^T F' along the curve; reverse without weights returns those of the Jacobian's rows, whatever calls were made before; with a vector of weights (one dependent) those of the multiples of the gradient.",
  "every trace, every degree, all coefficients, every content of the caller's arrays, every history of earlier calls",
  "The calls choose between three sweeps by d, shift the caller's arrays in place and keep an identity matrix between calls; degrees, dimensions and histories are unbounded.",
  ["ADOL-C/src/interfaces.cpp:forward", "ADOL-C/src/interfaces.cpp:reverse"])
p("Abs-normal form and piecewise linear model",
  "For a traced program (recorded with enableMinMaxUsingAbs) replace the results of its q calls of fabs by inputs w: the outputs y(x, w) and the arguments z(x, w) of fabs form its switching function. At every point with the recorded path, kinks of fabs included, abs_normal returns y, z and the partial derivatives Y = dy/dx, J = dy/dw, Z = dz/dx, L = dz/dw of the switching function at (x, |z|), L strictly lower triangular; fos_pl_forward in direction v returns the solution of dz = Z v + L (|z + dz| - |z|) and dy = Y v + J (|z + dz| - |z|); directional_active_gradient returns an active gradient.",
  "every traced program, every number and nesting of fabs, every point and direction",
  "Switches are counted up in the forward sweep and down in the reverse sweep, over any number of fabs calls and any trace; the derivative claim ranges over all programs and points, in particular measure-zero kinks.",
  ["ADOL-C/src/drivers/psdrivers.cpp:abs_normal", "ADOL-C/src/drivers/psdrivers.cpp:directional_active_gradient", "ADOL-C/src/uni5_for.cpp (_ABS_NORM_)", "ADOL-C/src/fo_rev.cpp (_ABS_NORM_)"])
p("Lie derivatives",
  "For a traced vector field F and traced functions H, covector field W, vector field G, every degree d and every point on the recorded paths: lie_scalar returns in result[j][k] the k-th Lie derivative of H_j along F, lie_gradient in result[j][i][k] its derivative with respect to x_i, lie_covector in result[i][k] component i of the k-th Lie derivative of W along F, lie_bracket in result[i][k] component i of the k-fold bracket ad_F^k G, for all k <= d; earlier calls and the contents of work arrays do not matter.",
  "every pair of traced programs, every dimension, every degree, every point",
  "The recurrences over the Taylor coefficients have to reproduce iterated derivatives of arbitrary order of arbitrary functions; degrees and dimensions are unbounded.",
  ["ADOL-C/src/lie/adolc_lie_c.cpp:lie_scalarcv", "ADOL-C/src/lie/adolc_lie_c.cpp:lie_gradientcv", "ADOL-C/src/lie/adolc_lie_c.cpp:lie_covector", "ADOL-C/src/lie/adolc_lie_c.cpp:lie_bracket"])
p("fixed point iterations",
  "For fp_iteration with a function G(x, u): the value of x_fix is the iterate x <- G(x, u) from x_0 at which the step first becomes smaller than epsilon, and the number returned is that pass, -1 if there is none among the first N_max; for a contraction it is within q/(1-q) epsilon of the fixed point. On the outer trace fos_forward returns the derivative of the fixed point in the given direction and fos_reverse adds x_bar^T dX/du to the adjoints of u and nothing to those of x_0, up to an error that is linear in the tolerances, for every contraction on the recorded path and whatever the work arrays contain.",
  "every traced contraction G, every start, point, tolerance, iteration limit, direction and weight",
  "The number of passes is unbounded and data dependent; the error bounds quantify over all contractions and all contents of uninitialised work memory.",
  ["ADOL-C/src/fixpoint.cpp:fp_iteration", "ADOL-C/src/fixpoint.cpp:iteration", "ADOL-C/src/fixpoint.cpp:fp_zos_forward", "ADOL-C/src/fixpoint.cpp:fp_fos_forward", "ADOL-C/src/fixpoint.cpp:fp_fos_reverse"])
p("Vectors with active subscripts",
  "In a program on an advector v, v[i] with an adouble i reads, or as an adubref writes, element trunc(|i|). A trace of the program evaluates the program at every point: zos_forward returns the values of the program run on doubles at that point, whichever elements the subscripts select there, -1 if a comparison comes out differently, and refuses a subscript out of range. While taping, every live object and every element holds the value the program has on doubles, and every reference refers to the element it was taken from. Where comparisons and selections do not change nearby, fos_forward and fov_forward return the program's directional derivatives and fos_reverse and fov_reverse, after a sweep with keep, its weighted gradients. lookupindex on nondecreasing data counts the elements below a, and refuses other data.",
  "every program with active subscripts (reads, references that live on, all assignments through references), every vector length, every evaluation point, every selection",
  "The operands of the recorded operations depend on the evaluation point; programs, vectors, points and selections are unbounded.",
  ["ADOL-C/src/advector.cpp", "ADOL-C/include/adolc/advector.h", "ADOL-C/src/uni5_for.cpp (subscript, ref_*)", "ADOL-C/src/fo_rev.cpp (subscript, ref_*)"])
p("Traceless sparsity patterns and sparse Jacobians",
  "For a function templated on the scalar type, ADOLC_get_sparse_jacobian with repeat = 0 returns, ordered by row and column, one entry (i, j, dF_i/dx_j) for each position of the pattern, and every partial derivative at another position is zero; neither the caller's matrix, earlier calls nor uninitialised memory matter. The pattern of an adtl_indo::adouble is strictly increasing, lists only independents, and near the point the variable depends on no other independent; its value is that of the program on doubles. With repeat != 0 the values are those at the new point.",
  "every program (expressions, assignments, conditional assignments, branches), every number of independents and dependents, every point, every history of calls, every proper colouring",
  "The pattern merges sorted lists along an arbitrary program; that no dependence is lost ranges over all programs, and that compression loses nothing over all patterns and colourings.",
  ["ADOL-C/include/adolc/adtl_indo.h", "ADOL-C/src/adouble_tl_indo.cpp", "ADOL-C/src/sparse/sparsedrivers.cpp:ADOLC_get_sparse_jacobian", "ADOL-C/src/valuetape/sparseinfos.cpp:recoverColFormat"])
p("sparse_jac on a trace",
  "sparse_jac with repeat = 0 returns a nonnegative code and, ordered by row and column, one entry (i, j, dF_i/dx_j) for each position of a pattern outside of which all partial derivatives at x vanish, whichever pattern method, control flow mode, direction and compression mode is chosen and whatever the tape and the caller's arrays contain; with MemoryHandler::Manual a matrix of the wrong size is refused with -3 and left alone. After any history of calls, repeat != 0 gives the Jacobian at the new point for the current parameters, and before the first call with repeat = 0 it returns -3 and changes nothing. No call is undefined.",
  "every trace, every point and parameters, every method, every proper colouring, every history of calls",
  "Patterns, colourings and call histories are unbounded, and the compressed evaluation loses entries only for particular combinations of pattern, colouring and point.",
  ["ADOL-C/include/adolc/sparse/sparsedrivers.h:sparse_jac", "ADOL-C/include/adolc/sparse/sparsedrivers.h:buildJacPatternAndSeed", "ADOL-C/include/adolc/sparse/sparsedrivers.h:computeSparseJac", "ADOL-C/src/valuetape/sparseinfos.cpp"])
p("sparse_hess on a trace",
  "sparse_hess on a trace with one dependent, with repeat = 0, returns a nonnegative code, sets *nnz to the number of entries and delivers, ordered by row and column, one entry (i, j, d2F/dx_i dx_j) with i <= j for each position of a pattern outside of which all second derivatives at x vanish, for both control flow modes and both recovery methods, whatever the tape holds from earlier calls; in new arrays if the pointers are null, else in the caller's, whose further elements are left alone. After any history of calls, repeat != 0 delivers the Hessian at the new point for the current parameters if *nnz is its number of entries and else returns -3 and changes nothing; before the first call with repeat = 0 it returns -3 and changes nothing.",
  "every trace with one dependent, every point and parameters, both modes and recovery methods, every correct colouring package, every history of calls",
  "Patterns, colourings and call histories are unbounded; the second derivatives of all programs at all points are recovered from a compressed product.",
  ["ADOL-C/include/adolc/sparse/sparsedrivers.h:sparse_hess", "ADOL-C/include/adolc/sparse/sparsedrivers.h:buildHessPatternAndSeed", "ADOL-C/include/adolc/sparse/sparsedrivers.h:computeSparseHess", "ADOL-C/src/valuetape/sparseinfos.cpp"])
p("Traceless higher order derivatives",
  "A program on adtl_hov::adouble has the values of the same program on doubles. If the values and the first degree coefficients of the variables in a direction are those of smooth curves, then after the program row k of every computed variable (getOneADValue(k), k < degree) holds in each direction l < numDir the Taylor coefficient k + 1 of the program's function along the curves, and getADValue(l) its first derivative; seeding row 0 with a direction and the others with zero gives (k+1)! times row k as the derivative of order k + 1 along the line. Assignments copy: no two variables share derivatives.",
  "every program (expressions, assignments, conditional assignments, branches), every degree and number of directions, every smooth curve, whatever uninitialised memory contains",
  "Degrees, directions and programs are unbounded, and the recurrences have to reproduce derivatives of arbitrary order of compositions; uninitialised memory cannot be enumerated.",
  ["ADOL-C/include/adolc/adtl_hov.h", "ADOL-C/src/adouble_tl_hov.cpp", "ADOL-C/examples/traceless_higher_order.cpp"])
p("Taylor polynomials of the inverse function",
  "inverse_Taylor_prop(tag, n, d, Y, X) on a trace of F with n independents and n dependents computes, at the point in X[.][0], the coefficients 1..d of a Taylor polynomial X(t) such that the Taylor coefficients 1..d of F(X(t)) are Y[.][1..d]; if the Jacobian at the point is one to one there is no other one. It returns a nonnegative code, or -3 if the Jacobian cannot be factorised, and changes nothing in X but these coefficients, whatever the caller's coefficients, the calls of jac_solv and inverse_Taylor_prop made before on this trace and what has been done with other traces.",
  "every trace with as many dependents as independents, every point, degree, Y and X, every history of calls of jac_solv and inverse_Taylor_prop",
  "Degrees and histories are unbounded; the function keeps a factorisation, the last point and work arrays in static variables across calls and traces.",
  ["ADOL-C/src/drivers/taylor.cpp:inverse_Taylor_prop", "ADOL-C/src/drivers/taylor.cpp:jac_solv"])
p("Derivative tensors of the inverse function",
  "inverse_tensor_eval(tag, n, d, p, x, tensor, S) on a trace of F with n independents and n dependents leaves in tensor[j][tensor_address(d, multi)] the mixed partial derivative at z = 0, with respect to the coordinates listed in multi, of component j of the function G with F(G(z)) = F(x) + S z and G(0) = x, for every multi-index of length d; it returns a nonnegative code, or -3 if the Jacobian at x cannot be factorised; it writes only the first binomi(p+d, d) entries of the n rows, and earlier calls with any d and p do not matter.",
  "every trace with as many dependents as independents, every point with nonsingular Jacobian, every seed matrix, degree and number of directions, every history of calls",
  "Degrees, numbers of directions and histories are unbounded; the table of interpolation coefficients and the factorisation are kept in static variables across calls.",
  ["ADOL-C/src/drivers/taylor.cpp:inverse_tensor_eval", "ADOL-C/src/drivers/taylor.cpp:inverse_Taylor_prop", "ADOL-C/src/drivers/taylor.cpp:multma2vec1"])
p("The Fortran interface",
  "The Fortran-callable drivers (function_, gradient_, vec_jac_, jacobian_, jac_vec_, hess_vec_, lagra_hess_vec_, hessian_, forodec_, accodec_) and sweeps (zos_forward_ ... hov_reverse_) have the effect of the C functions they are named after, with matrices and tensors in column-major arrays: element (i, k) of an array of leading dimension n is coefficient k of variable i. Nothing behind the result arrays is written, elements that the C function does not write keep their contents, the caller's inputs arrive completely, and no call touches memory that is not allocated.",
  "every trace, every point, weights, directions and coefficients, every degree, numbers of independents, dependents and directions, every contents of the Fortran arrays",
  "Dimensions and contents are unbounded, and a transposed or truncated copy is invisible for square or symmetric data and small degrees.",
  ["ADOL-C/src/fortutils.cpp", "ADOL-C/src/drivers/driversf.cpp", "ADOL-C/src/drivers/odedriversf.cpp", "ADOL-C/src/interfacesf.cpp"])
p("Forward sweeps with partitioned arguments",
  "zos_forward_partx, fos_forward_partx, hos_forward_partx, fov_forward_partx and hov_forward_partx, called with the independents in n blocks of sizes ndim[0..n-1], deliver the values, derivatives and Taylor coefficients of F at the point (and along the directions and curves) obtained by concatenating the blocks; a total that is not the number of independents is refused, and only the documented entries of the result arrays are written.",
  "every trace, every partition into blocks (also empty ones), every point, direction, curve, degree and number of directions",
  "Partitions and dimensions are unbounded; a wrong offset shows only for particular block sizes.",
  ["ADOL-C/src/forward_partx.cpp:zos_forward_partx", "ADOL-C/src/forward_partx.cpp:fos_forward_partx", "ADOL-C/src/forward_partx.cpp:hos_forward_partx", "ADOL-C/src/forward_partx.cpp:fov_forward_partx", "ADOL-C/src/forward_partx.cpp:hov_forward_partx"])
p("Allocation helpers",
  "myalloc2(m, n) and myalloc3(m, n, p) return arrays all of whose entries lie in the allocated block behind the pointer tables and do not overlap, or a null pointer; myallocI2(n) returns rows within its block that form the identity matrix, whose last row pointer is what myfreeI2 has to free.",
  "every size",
  "Sizes are unbounded, and an entry outside the block is usually not noticed by a run.",
  ["ADOL-C/src/adalloc.cpp:myalloc2", "ADOL-C/src/adalloc.cpp:myalloc3", "ADOL-C/src/adalloc.cpp:myallocI2", "ADOL-C/src/adalloc.cpp:populate_dpp", "ADOL-C/src/adalloc.cpp:populate_dppp"])
p("The C interface of the sparse drivers",
  "The C functions jac_pat, hess_pat, sparse_jac and sparse_hess do what the C++ templates do with the options the array stands for (index domains unless options[0] = 1, tight if options[1] = 1, direction options[2], row compression if options[3] = 1; for Hessians control flow mode options[0], direct recovery if options[1] = 1). A successful sparse_jac sets *nnz to the number of entries and leaves the Jacobian in the arrays behind rind, cind, values: in the caller's own arrays if all three are there and *nnz was the number of entries, otherwise in new arrays of exactly that size, the caller's ones deleted. repeat != 0 before any call with repeat = 0 is refused. A negative code means that *nnz, pointers and arrays are as before.",
  "every trace, point, option array, history of calls, and state of the caller's pointers and arrays",
  "Option arrays, histories and states of the caller's memory are unbounded; which array a pointer designates after the call and what has been freed is not seen by comparing values.",
  ["ADOL-C/src/sparse/sparsedrivers_c.cpp", "ADOL-C/include/adolc/sparse/sparsedrivers_c.h"])
p("Retracing a tape id",
  "However often a tape id is traced and in whatever order sweeps follow, in memory or on disk (trace_off(1), or buffers that were full), with or without keep: every forward and reverse sweep sees the numbers of variables and exactly the operations of the latest trace of this id.",
  "every history of trace_on ... trace_off and sweeps of a tape id, every trace, buffer size and file state",
  "Histories are unbounded; what a sweep reads depends on which streams of which earlier trace were on disk.",
  ["ADOL-C/src/valuetape/valuetape.cpp:initNewTape", "ADOL-C/src/valuetape/valuetape.cpp:openTape", "ADOL-C/src/valuetape/valuetape.cpp:close_tape", "ADOL-C/src/valuetape/valuetape.cpp:read_tape_stats", "ADOL-C/include/adolc/valuetape/tapeinfos.h:openFile", "ADOL-C/include/adolc/valuetape/valuetape.h:prepare_for", "ADOL-C/include/adolc/valuetape/valuetape.h:prepare_rev"])
p("Tape ids and tape files of all threads",
  "createNewTape() makes a new tape and returns an id that designates this tape in the calling thread from then on, whatever other tapes this and other threads make; an id that was not returned is refused; the first tape of a thread is its current tape; cachedTraceTags lists the ids in order of creation; no two files of any tapes of any threads have the same name.",
  "every interleaving of any number of createNewTape calls by any number of threads",
  "Interleavings and numbers of tapes are unbounded; the id is a 16 bit integer.",
  ["ADOL-C/include/adolc/tape_interface.h:createNewTape", "ADOL-C/include/adolc/tape_interface.h:findTape", "ADOL-C/src/tape_interface.cpp:cachedTraceTags", "ADOL-C/src/valuetape/persistanttapeinfos.cpp:createFileName", "ADOL-C/src/valuetape/persistanttapeinfos.cpp:getThreadIndex"])
p("The configuration file",
  "Lines of the form \"VARIABLE\" = \"VALUE\" in .adolcrc configure every tape made afterwards: the sizes of the operation, location, value and Taylor buffers (reported by tapestats after trace_on), the directory of its files, the room for live variables. Of several lines for a variable the last one counts; variables not set have their defaults; lines of any other form change nothing. Numbers may be decimal, octal or hexadecimal.",
  "every file contents (order, number and spacing of lines, digits, trailing text) and every set of existing directories",
  "Files are unbounded text; what a line does depends on its length, its digits and everything before it.",
  ["ADOL-C/src/valuetape/valuetape.cpp:readConfigFile", "ADOL-C/include/adolc/valuetape/globaltapevarscl.h:checkInitialStoreSize", "ADOL-C/src/valuetape/valuetape.cpp:initNewTape", "ADOL-C/doc/adolc-manual.tex"])
p("Sparse abs-normal form",
  "sparse_jac(tag, m, n, q, repeat, x, A) with a SparseANF object A, on a trace recorded with enableMinMaxUsingAbs that has m dependents, n independents and q switching variables, returns a nonnegative code and leaves in A the values y and z of dependents and switching variables, the four blocks Y, J, Z, L with exactly one entry for every nonzero partial derivative of y and z with respect to x and |z| (and each stored value being the derivative), and the shifts cy = y - J|z|, cz = z - L|z|: at every point, kinks included, with the memory mode the user chose, and whatever was computed before. Wrong counts are refused.",
  "every trace, every point including the kinks, both memory modes, every history of calls, every earlier contents of A",
  "Numbers of variables and switches and the contents of A are unbounded; a misplaced block boundary or a lost index is seen only by particular sparsity patterns.",
  ["ADOL-C/include/adolc/sparse/sparsedrivers.h:sparse_jac", "ADOL-C/src/valuetape/sparseinfos.cpp", "ADOL-C/include/adolc/sparse/sparsematrix.h:SparseANF", "ADOL-C/src/uni5_for.cpp"])
p("Signed sweeps and directional active gradient",
  "fov_pl_forward returns the values y and z, for every direction the increments of the piecewise linear model, and as signature for each switching variable its sign or, if it is zero, the sign of its first nonzero increment. fos_pl_sig_forward with the signatures of base point and direction returns, also at kinks, the one-sided directional derivative and writes all entries of swargs, swtaylors and sigsw. fos_pl_sig_reverse with a signature without zeros returns the gradient of the smooth function selected by the signature. directional_active_gradient returns a signature without zeros that is active in the direction d and the gradient of the selected function, the ordinary gradient where the function is smooth, or reports that five directions did not suffice.",
  "every trace recorded with enableMinMaxUsingAbs, every point including kinks, every direction and signature, any numbers of independents and switches",
  "Numbers of switches and directions are unbounded, and a lost contribution or a stuck counter is invisible in examples with one switch away from the kink.",
  ["ADOL-C/src/drivers/psdrivers.cpp:directional_active_gradient", "ADOL-C/src/uni5_for.cpp:fov_pl_forward", "ADOL-C/src/uni5_for.cpp:fos_pl_sig_forward", "ADOL-C/src/uni5_for.cpp:firstsign", "ADOL-C/src/uni5_for.cpp:ext_firstsign", "ADOL-C/src/fo_rev.cpp:fos_pl_sig_reverse"])
p("The abs-normal form object",
  "Whatever an AbsNormalForm has been through (constructed, resized, cleared, moved and assigned again, written to, used before), its blocks Y, J, Z, L are matrices of the sizes dims() reports with elements that do not overlap; resize keeps the elements that remain and zeroes new ones. ADOLC::abs_normal<True> leaves in it the values y, z, the partial derivatives of y and z with respect to x and |z| (L strictly lower triangular) and the constant terms, independently of the earlier contents; <False> leaves the constant terms alone; an object of the wrong shape is refused. The object satisfies the documented equations y = cy + Y x + J|z|, z = cz + Z x + L|z|. abs_normal_ returns the same in column-major arrays.",
  "every history of the object, every dimension (zero included), every trace recorded with enableMinMaxUsingAbs, every point including kinks",
  "Histories and dimensions are unbounded; stale entries and overlapping rows show only for particular sequences of shapes.",
  ["ADOL-C/include/adolc/drivers/absnormalform.h", "ADOL-C/src/drivers/absnormalform.cpp", "ADOL-C/src/drivers/psdrivers.cpp:abs_normal", "ADOL-C/src/drivers/psdriversf.cpp:abs_normal_"])
p("The listing of a trace",
  "tape_doc, called with the trace's numbers of dependents and independents, writes a table whose lines are the operations of the trace, one each and in the order in which they were recorded (first the values live at trace_on), each with its position from the start and from the end, opcode, name, all its operands in the order recorded and its constants, in ten columns, at most 101 lines on a page; with other numbers it fails and writes nothing.",
  "every trace (any length, any buffer sizes, in memory or on disk, all operations)",
  "A listing that loses track of the operands is wrong only after particular operations or at particular buffer boundaries; traces are unbounded.",
  ["ADOL-C/src/tapedoc/tapedoc.cpp:tape_doc", "ADOL-C/src/tapedoc/tapedoc.cpp:filewrite", "ADOL-C/include/adolc/oplate.h"])
p("Working buffers of block-structured external functions",
  "Every call of an external function of the second interface (several input and output blocks), and every sweep that replays it, finds in the function's record buffers with an entry for each variable of each block, all inside the allocated memory, none shared between two entries or with a pointer table; buffers the user supplies are left alone.",
  "every sequence of calls of one record, every number of blocks, every block length",
  "The buffers are resized by comparing with the largest sizes so far; whether they suffice depends on the whole history of shapes, and an entry outside the block is usually not noticed by a run.",
  ["ADOL-C/src/externfcts2.cpp:update_ext_fct_memory", "ADOL-C/src/externfcts2.cpp:call_ext_fct", "ADOL-C/src/adalloc.cpp:populate_dpp", "ADOL-C/src/adalloc.cpp:populate_dppp_nodata", "ADOL-C/include/adolc/externfcts2.h"])
p("External function objects receive their own calls",
  "call of an object derived from EDFobject, EDFobject_iArr or EDFobject_v2 runs the object's own function, and a sweep over a trace runs the derivative methods of the objects called while it was taped, in this order (backwards for a reverse sweep), whatever tapes the objects were constructed with.",
  "every history of tapes, constructions, calls and sweeps (also nested ones made by callbacks), every number of objects and tapes",
  "Objects are found through an index kept on a tape; which object is found depends on all calls and sweeps before.",
  ["ADOL-C/include/adolc/edfclasses.h", "ADOL-C/src/externfcts.cpp:EDFobject::init_edf", "ADOL-C/src/externfcts.cpp:EDFobject_iArr::init_edf", "ADOL-C/src/externfcts2.cpp:EDFobject_v2::init_edf", "ADOL-C/src/uni5_for.cpp", "ADOL-C/src/fo_rev.cpp"])
p("Bit pattern propagation with the user's seeds",
  "ADOLC::Sparse::forward and reverse propagate any packed seeds: a bit that no seed contains appears nowhere in the result, and if a dependent changes to first order along a direction whose independents all carry a bit, that bit is set in the dependent's pattern (reverse: the same for weighted sums of dependents and the independents they change with). In safe mode for every point and independently of former contents of the result arrays.",
  "every recorded program, every number of words, every seed matrix, every point, direction and weight vector",
  "A lost bit shows only for particular combinations of operations, seeds and words; the seeds range over all bit matrices.",
  ["ADOL-C/include/adolc/sparse/sparse_fo_rev.h:forward", "ADOL-C/include/adolc/sparse/sparse_fo_rev.h:reverse", "ADOL-C/src/uni5_for.cpp:int_forward_safe", "ADOL-C/src/uni5_for.cpp:int_forward_tight", "ADOL-C/src/fo_rev.cpp:int_reverse_safe", "ADOL-C/src/fo_rev.cpp:int_reverse_tight"])
p("fmin and fmax recorded through fabs",
  "On a tape recorded after enableMinMaxUsingAbs a program with fmin, fmax, min, max computes the same values, zos_forward, fos_forward and fos_reverse return its values and derivatives, there is no min_op on the trace, and abs_normal returns its abs-normal form at every point where the other functions are differentiable, ties of fmin and fmax included. Whether a trace is recorded in this way is decided by the last enable or disable before its trace_on.",
  "every well-formed program with expressions of any depth over lvalues and temporaries, every point, every history of enable, disable, trace_on, trace_off and sweeps",
  "fmin has three overloads and fmax four on top of them; expressions nest without bound, and the flag is state that outlives traces.",
  ["ADOL-C/src/adouble.cpp:fmin", "ADOL-C/include/adolc/adtb_types.h:fmax", "ADOL-C/include/adolc/valuetape/valuetape.h:enableMinMaxUsingAbs", "ADOL-C/src/tape_interface.cpp:trace_on"])
