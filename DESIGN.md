# A Lean 4 model of ADOL-C

Source: `/repo/ADOL-C` (read as text; never built or run). Lean 4.33.0, Mathlib.
All modules are under `lean/Verif/`. Model files contain definitions (each citing
file:lines), `Spec` sections contain small independent specifications, and
`Props/*.lean` contain the property theorems (nothing else is claimed).

## Trusted base

* Lean's kernel, and the axioms `propext`, `Classical.choice`, `Quot.sound`
  (no axiom of our own, no compiled-code tactic).
* The reading of the C++ text into Lean definitions (the citation beside each
  definition). The C++ itself is never executed.
* `double` arithmetic is modelled by an exact field: `ℝ` where derivatives appear,
  an arbitrary commutative ring / field elsewhere. Rounding, NaN, infinities,
  signed zeros are NOT modelled, so every numerical theorem says "in exact
  arithmetic".
* `size_t`/`locint` are `Nat` except where a property is about wrap-around or
  C `int` overflow (the checkpoint scheduler), where overflow is a distinct
  outcome.
* Memory: arrays are functions/lists; out-of-bounds accesses and null
  dereferences are modelled as a distinct failure outcome (`none`) where the
  code can reach them.
* Not modelled at all: AMPI/MeDiPack, CUDA, SWIG bindings,
  OpenMP parallel regions, ColPack (external graph colouring), the operating
  system's file semantics beyond "a file is a list of elements, read returns
  what was written".

ColPack (colouring of patterns) is an external library: its result is a parameter, and its contract (`ColumnColouring`, `RowColouring` in `Sparse/Recover`) is a hypothesis of the theorems on sparse Jacobians (C51, C52); for Hessians colouring and recovery are a parameter with the contract `HColPack.Correct` (C53).

## Plan per property

| id | model | proof method |
|----|-------|--------------|
| C01, C02, C03 | `StoreBlock`: free list of blocks, `next_loc`, `free_loc`, `grow`, `consolidateBlocks`, `ensure_block`, store array | invariant (blocks pairwise disjoint, disjoint from live set, in range, no empty block) by induction over the operation list |
| C04 | `StoreSingle`: index array with embedded linked list | invariant: the list from `head` is a duplicate-free path covering exactly the dead locations |
| C05, C06 | `TapeIO`: three buffers + three files, `put_op`/`put_loc`/`put_val`/`close_tape`, forward and reverse readers | simulation invariant between (buffers, files) and the abstract list of records |
| C07, C08 | `TayStack`: value stack with spilled blocks | refinement to a list stack; boundary cases found wrong in the code are proved wrong with witnesses |
| C09-C12 | `Tape`, `Forward`: opcode semantics of `uni5_for.cpp` (ZOS/FOS/FOV) | refinement to a straight-line program semantics; `HasDerivAt` induction over the trace |
| C13-C16 | `Reverse`: `fo_rev.cpp` with the value stack | adjoint invariant by induction over the trace |
| C17 | `Taylor`: HOS rules of `uni5_for.cpp` | induction over the trace with per-op lemma on Taylor coefficients of smooth functions |
| C18 | `HOReverse`: `ho_rev.cpp` | truncated power-series algebra |
| C19 | `Recorder`: `adouble.cpp` recording with `upd_resloc*` | simulation |
| C20, C21 | `Sparsity`: INT_FOR / INDOPRO / NONLIND propagation | soundness w.r.t. dependence / derivatives |
| C22-C24 | `Revolve`, `Checkpoint` | invariant on the scheduler state, measure for termination; cost equality by induction |
| C25 | `TensorAddr` | combinatorial number system |
| C26 | `Convolut` | equality with truncated `PowerSeries` arithmetic |
| C27 | `Ode` | induction on degree |
| C28 | `Drivers` | from C11, C13, C18 |
| C29 | `Traceless` | as C11 |
| C30 | `BufferTemp` | invariant |
| C31 | `Params` | chunk-loop induction; the reverse discard loop is wrong in the code: witness |
| C32, C33 | `Record*`: values while taping; the value stack left by `trace_on(tag, keep)` | simulation of the recorder by the trace evaluator, state by state |
| C34, C37, C38 | `Session`: tapes, current tape, tape stack, modes | induction over nested program parts; state equality after a throwing call |
| C40 | `HigherVec`: HOV/HOV_WK rules of `uni5_for.cpp` | simulation with `hos_forward` per direction: every operation's loops touch only the row of their direction |
| C41, C42 | `HoRevVec`: `hov_ti_reverse`, `hos_ov_reverse` of `ho_rev.cpp` | simulation with `hos_ti_reverse` per row/direction |
| C43 | `coeff`, `convert`, `tensor_eval` with its static cache and batches, `tensor_value` (`taylor.cpp`) | the table equals the interpolation coefficients (closed form), Vandermonde identity, symmetry of iterated derivatives; loop invariant over batches |
| C44 | `LUFactorization`, `GauszSolve`, `jac_solv` with the state it keeps on the tape (`taylor.cpp`) | invariant of the elimination (permuted product of the factors plus remaining block), substitution by induction, invariant over histories of calls |
| C45 | `AD/Api`: C++ expressions and statements compiled to the calls of `Record` (choice of overload by value category, temporaries and their destruction, the inline functions of `adtb_types.h`, comparisons) | the compiled calls compute the meaning of the expression and leave no objects behind (induction over expressions), then C09–C13 |
| C46 | `Drivers/Interfaces`: the overloads `forward(…, X, Y)` and `reverse(…)` of `interfaces.cpp` with their in-place shifts of the caller's arrays, the static identity | closed form of the loops, then C09, C11, C17, C18, C41 |
| C47 | `AD/AbsNormal`: `abs_val` in `zos_pl_forward`, `fos_pl_forward`, `fos_pl_reverse`, `fov_pl_reverse`, `fos_pl_sig_reverse`; `abs_normal` | specification: the program with the results of `fabs` replaced by inputs; tangent sweep of that program along `(v, dw)`, reverse sweep dual to it (`AbsPair`), derivative of the switching function (`AbsLin`, `AbsMain`) |
| C48 | `Drivers/Lie`: `lie_scalarcv`, `lie_gradientcv`, `lie_covector`, `lie_bracket` with `accodeout`, `accadj`, `acccov`, `accbrac` | specification by iterated directional derivatives (`lieD`, `lieW`, `lieAd`); a solution of the ODE and of its (adjoint) variational equation exists; Lie derivatives are its Taylor coefficients times `k!` (`Drivers/LieMath`), which the recurrences compute |
| C49 | `Drivers/FixPoint`: `iteration`, `fp_zos_forward`, `fp_fos_forward`, `fp_fos_reverse`, `fpi_stack`; arbitrary (semi)norms, arbitrary contents of `new double[]` | induction over the passes: the loops are iterates of `x ↦ G(x,u)`, `v ↦ G'(v,w)`, `ξ ↦ x̄ + ξᵀG_x`; a posteriori contraction estimates; the derivative of a branch of fixed points solves the linearised equation (`implicit`); witness theorems for the defects |
| C50 | `AD/Advector`: recorder for `advector`/`adubref`, operations whose operand is found at run time, scalar sweeps over them (`AD/AdvVec`: vector sweeps) | at a fixed point each operation is one of the operations of C09–C16 (`AOp.resolve`); a ghost recording with the resolved operations is the recording of an ordinary program with the selected elements (`AD/AdvRec`–`AD/AdvProg`), to which C09, C11, C13 apply (`AD/AdvMain`, `AD/AdvDeriv`); values while taping by a simulation with the program on numbers (`AD/AdvValues`); witness theorems for the defects |
| C51 | `Traceless/Indo`: the index sets of `adtl_indo::adouble`, `Traceless/IndoDriver`: `ADOLC_get_sparse_jacobian`, `Sparse/Recover`: recovery from the compressed Jacobian | along the program: near the point each variable is a function of the listed independents alone (`Traceless/IndoDep`), hence zero partial derivatives elsewhere; a proper colouring makes every compressed entry a sum with one nonzero term (`C51_numeric`), C29 gives the compressed Jacobian; witness theorems for the defects |
| C52 | `Sparse/SparseJac`: `buildJacPatternAndSeed`, `computeSparseJac`, `recover`, `sparse_jac` with the data a tape keeps between calls (`SparseJacInfos`), null rows included | C20 gives patterns that cover the derivatives; C12/C14 with C11/C13 give the compressed Jacobian, a proper colouring separates the entries; invariant over histories of calls (`history_inv`); witness theorems for the defects |
| C53 | `Sparse/SparseHess`: `hess_pat`, `buildHessPatternAndSeed`, `computeSparseHess`, `sparse_hess` in all four control flow modes, `setHP`, `getHP`, with the data a tape keeps between calls (`SparseHessInfos`) and the caller's arrays | C21 gives a symmetric pattern that covers the second derivatives; C42 with `hessOv_spec` gives the product with the seed; ColPack's contract recovers the entries (met by star colourings: `star_direct`); invariant over histories of calls (`hhistory_inv`); witness theorems for the defects |
| C54 | `Traceless/Hov`: the objects of `adtl_hov::adouble` (value, first derivatives, rows of coefficients that are pointers into a heap), every operator and function, assignment, accessors | `HovOps`: each loop computes the Taylor coefficients (`tc`) of the operation (`un_rel`, `bin_rel`); `HovRun`: statements under the invariant that no two rows share memory (`Holds`), induction on the program; witness theorems for the defects |
| C55 | `Drivers/InvTaylor`: `inverse_Taylor_prop` with its static variables, the halving list `dd`, the loops, the calls of `jac_solv`; `AD/HoRevLin`: the flag 1 (linear) of `hov_reverse` means that the derivative is constant along the curve | `InvMath`: Taylor coefficients of `g` along two curves that agree up to order `a` (`tc_perturb`); `Props/InvTaylor`: invariant of the outer loop (`Known`), of the inner loop (`Inner`), induction on the halving list, then on the history |
| C56 | `Drivers/InvTensor`: `inverse_tensor_eval` with its static table | each pass solves the problem whose only solution is the Taylor polynomial of `G` along a line (`inverse_solves`, C55), then the combinatorics of C43; `G` exists by the inverse function theorem |
| C57 | `Drivers/Fortran`: `spread1`…`pack3` as loops over the flat array, the Fortran drivers and sweeps on top of the C ones; `Props/Alloc`: the allocations of `forodec_`, `accodec_` | closed form of the copying loops, then C09–C18, C28, C40, C41 |
| C58 | `Drivers/Fortran`: the five `*_forward_partx` functions | closed form of the concatenating loops (`concat_eq`), then C09, C11, C12, C17, C40 |
| C59 | `Drivers/Alloc`: `populate_dpp`, `populate_dppp`, `myalloc2`, `myalloc3`, `myallocI2` with byte addresses and `size_t` arithmetic | closed form of the pointer loops |
| C60 | `Sparse/SparseC`: option parsing and dispatch, `writeJacToBuffers` with blocks that have an identity, the C functions `jac_pat`, `hess_pat`, `sparse_jac`, `sparse_hess` | case analysis of the dispatch against the table of options (`JacOpt`, `HessOpt`); delivery in place or in new blocks; C52 and C53 for the result, invariant over histories of C calls |
| C61 | `IO/Life`: what a tape id keeps between traces (statistics with the sticky file flags, files, buffers), `initNewTape`, `close_tape`, `openTape`, `read_tape_stats`, `openFile`, sweeps that find the shapes of operations themselves | C05 and C06 lifted to sweeps with a decoder; the state after a trace on a clean id is explicit, induction over histories; the failures as theorems for all traces |
| C62 | `Session/Registry`: `createNewTape`, `findTape`, thread numbers, `createFileName` with decimal numbers, `cachedTraceTags` | invariant over interleavings of calls by any threads; injectivity of the file names |
| C63 | `Session/Config`: `readConfigFile` (`fgets` pieces, four quotation marks, `strtoul` with its prefixes, signs and saturation), `checkInitialStoreSize` on the store model of C01, `initNewTape`'s buffer sizes | the text of every well-formed file is cut into its lines again; fold over the lines with the effect of each, the last setting of a variable wins |
| C64 | `Sparse/SparseANF`: index-domain sweep with switches (`anStep`), pattern of the extended Jacobian, `SparseJacInfos` build and cache, row-compressed vector reverse sweep, splitting into the blocks `Y`, `J`, `Z`, `L`, memory modes, `cy`, `cz` | coverage of the extended derivative by the sweep (C47's linear-in-`|z|` derivatives), vector sweep = scalar sweeps, recovery by the colouring contract, split of the entries by position |
| C65 | `AD/PlSig`: sweeps with signature `fov_pl_forward` (`fovPlRun`), `fos_pl_sig_forward` (`fosSigRun`), `fos_pl_sig_reverse` (`plSigRevRun`), `fov_pl_sig_forward` (`AD/FovSig`), the driver loop of `directional_active_gradient` | columns of the vector sweep are scalar sweeps (C47's piecewise linear model); one-sided derivatives: curve of the results of `fabs` built switch by switch, chain rule, strict lower triangularity; reverse sweep = `fos_pl_reverse` with zero weights |
| C66 | `Drivers/AnfDense`: the object with row pointers and flat storages (`Anf`; `resize`, `clear`, move), `abs_normal<...>` writing through the row pointers into arrays with old contents (`absNormalInto`, `AD/AbsFrom`: what the sweep does not read is overwritten), `updateCy/Cz`, `abs_normal_` | invariant of the object over all histories; C47 for the values; loops by invariants; C57's layout for the Fortran arrays |
| C67 | `IO/Doc`: `tape_doc` as a forward sweep over the modelled tape streams printing a table (every case of the switch, `filewrite`, page breaks, counters); `IO/DocSpec`: recorded shapes of all operations, the ten cells of a line | simulation of the writer's events by the loop, as for C05; page length by an invariant of the loop for arbitrary streams; the operations without a case: theorems about the next line |
| C68 | `Ext/Buf`: `update_ext_fct_memory` with the ten arrays laid out by address in one block, `size_t` size computation, the four maxima; history of calls | closed form of the layout; invariant: the block is that of the largest call so far; counterexamples for `Zp`, for call histories and for functions without outputs |
| C69 | `Ext/Obj`: tapes with two registries, `ext_diff_fct_index`, the three `init_edf`, wrappers, `call`, replay by a sweep; any history of actions | invariant: an object's record is where it was appended, the calls on a trace are the objects called; characterisation of `call` for different tapes |
| C70 | `Sparse/BitProp`: `ADOLC::Sparse::forward<Safe/Tight>`, `reverse<Safe/Tight>` over the four bit pattern sweeps of C20; seeds, number of words, directions and weights arbitrary | coupling of every bit with a tangent or adjoint sweep (as C20), new invariant: a bit that no seed contains is nowhere in the reverse sweeps |
| C71 | `AD/NoMinMax`: the three `fmin(a, b)` with `no_min_max()` (`Ex.absForm`, a source transformation under the compilation of C45), flag and statistics (`MM`); `AD/Kinks`: the switching variables read off the program (`Src.kinks`: arguments of fabs, and `a - b` of each `fmin(a, b)`, in evaluation order) | meaning, scoping, discipline and differentiability conditions carry over (induction on expressions), then C45 and C47; no `min_op`: every call emitted, then `emits_tape`; flag: induction on histories |
| C39 | `Counts`: counters changed by each recorded operation | induction over the trace, with the recorder theorem C09 |
| C35 | `Ext`: external function records, location tape of their calls, their cases in the sweeps | reader inverts writer; adjoint by the duality of the callbacks |
| C36 | `Rev/Driver`: two checkpointed loops share the scheduler's global variable | sequential use proved, interleaved use refuted |

`properties.jsonl` has the full English statements, `MANIFEST.json` the status and theorem names.
A property with status *partial* is one for which the full statement is false of the code (a witness
theorem shows it) or not yet proved in full; the theorem with suffix `_partial` then has explicit hypotheses
that exclude exactly the listed cases, and the note in the manifest says which.

## How the model is organised

| directory | contents | code modelled |
|-----------|----------|---------------|
| `StoreBlock`, `StoreSingle`, `StoreClient` | the two location managers and a client creating and destroying adoubles | `storemanager.cpp`, `storemanager.h` |
| `IO/` | operation/location/value tapes with buffers and files; parameters; value stack | `valuetape/tapeinfos.cpp`, `valuetape/valuetape.cpp`, `infotype.h` |
| `AD/Tape`, `AD/Forward`, `AD/ForwardVec` | trace operations; `zos_forward`, `fos_forward`, `fov_forward` | `uni5_for.cpp` |
| `AD/Reverse`, `AD/ReverseVec` | `fos_reverse`, `fov_reverse` | `fo_rev.cpp` |
| `AD/HigherOrder`, `AD/HigherVec`, `AD/HoRev`, `AD/HoRevVec` | `hos_forward`, `hov_forward`, `hov_wk_forward`, `hos_reverse`, `hos_ti_reverse`, `hov_reverse`, `hov_ti_reverse`, `hos_ov_reverse` | `uni5_for.cpp`, `ho_rev.cpp` |
| `AD/Record*` | the overloaded operators recording a trace, with temporaries and in-place results | `adouble.cpp`, `adtb_types.h`, `pdouble.cpp` |
| `AD/Api*` | the user's program: expressions, overload choice, temporaries, composed functions (`tan`, `sinh`, `fmax`, `pow`, `atan2`, …), comparisons | `adtb_types.h`, `adouble.cpp` |
| `AD/Advector`, `AD/Adv*` | active subscripts: recorder, sweeps, proofs | `advector.cpp`, `advector.h`, `uni5_for.cpp`, `fo_rev.cpp` |
| `Traceless/Indo*`, `Sparse/Recover` | traceless sparsity patterns, sparse Jacobian from a colouring | `adtl_indo.h`, `adouble_tl_indo.cpp`, `sparsedrivers.cpp`, `sparseinfos.cpp` |
| `Sparse/SparseJac`, `AD/FovRc` | `sparse_jac` | `sparsedrivers.h`, `sparseinfos.cpp` |
| `Sparse/SparseHess`, `AD/HovRc` | `sparse_hess`, `setHP`, `getHP` | `sparsedrivers.h`, `sparseinfos.cpp`, `tape_interface.h` |
| `Sparse/SparseC` | C interface of the sparse drivers | `sparsedrivers_c.cpp` |
| `IO/Life` | histories of traces and sweeps of one tape id | `valuetape/valuetape.cpp`, `valuetape.h`, `tapeinfos.h` |
| `Session/Registry` | tapes of all threads, ids, file names | `tape_interface.h/.cpp`, `persistanttapeinfos.cpp` |
| `Session/Config` | the configuration file | `valuetape.cpp:678-804`, `globaltapevarscl.h` |
| `Sparse/SparseANF`, `Sparse/AnfCov`, `Sparse/AnfRecover` | `sparse_jac` for `SparseANF` | `sparsedrivers.h`, `sparseinfos.h/.cpp`, `sparsematrix.h`, `uni5_for.cpp` (index domains with `_ABS_NORM_`) |
| `AD/AbsNormal`, `AD/AbsLin`, `AD/AbsPair`, `AD/AbsProg`, `AD/AbsMain` | piecewise linear sweeps, `abs_normal` | `uni5_for.cpp`, `fo_rev.cpp` (`_ABS_NORM_`), `drivers/psdrivers.cpp` |
| `AD/PlSig`, `AD/PlSigCol`, `AD/PlSigMain`, `AD/FovSig` | sweeps with signature, `directional_active_gradient` | `uni5_for.cpp`, `fo_rev.cpp` (`_ABS_NORM_SIG_`), `drivers/psdrivers.cpp` |
| `Drivers/AnfDense`, `AD/AbsFrom` | the abs-normal form object, `ADOLC::abs_normal<...>`, `abs_normal_` | `absnormalform.h/.cpp`, `psdrivers.cpp:166-190`, `psdriversf.cpp` |
| `IO/Doc`, `IO/DocSpec`, `IO/DocProofs` | the LaTeX listing of a trace (without `ADOLC_TAPE_DOC_VALUES`, AMPI, MEDIPACK) | `tapedoc.cpp` |
| `Ext/Buf`, `Ext/BufProofs` | working buffers of the second interface of external functions | `externfcts2.cpp`, `adalloc.cpp` |
| `Ext/Obj`, `Ext/ObjProofs` | external function objects and their wrappers | `edfclasses.h`, `externfcts.cpp`, `externfcts2.cpp` |
| `Sparse/BitProp` | bit pattern propagation with the user's seeds | `sparse_fo_rev.h` |
| `AD/NoMinMax` | fmin, fmax recorded through fabs; the flag | `adouble.cpp` (fmin), `valuetape.h`, `tape_interface.cpp` (trace_on) |
| `AD/Kinks` | specification of the switching variables of a source program, and proof that the calls it makes have them | — (specification) |
| `AD/Jet`, `AD/Tangent`, `AD/RevPair`, `AD/RevRun`, `AD/Smooth*`, `AD/Hos*`, `AD/HoRev*`, `AD/Hov*`, `AD/Hvr*` | proofs | |
| `Sparse/HessOld*`, `Sparse/HessAbs` | Hessian pattern, control flow modes OldSafe and OldTight | `uni5_for.cpp` |
| `Sparse/` | bit patterns (safe and tight, forward and reverse), index domains, Hessian pattern, drivers for the bit patterns | `uni5_for.cpp`, `fo_rev.cpp`, `sparsedrivers.h/.cpp` |
| `Rev/` | `revolve`, schedule, checkpointing driver | `revolve.cpp`, `checkpointing.cpp` |
| `Drivers/` | easy-to-use drivers, ODE drivers, `tensor_eval`, Lie derivatives, fixed point iterations | `drivers/drivers.cpp`, `drivers/odedrivers.cpp`, `drivers/taylor.cpp`, `interfaces.cpp`, `lie/adolc_lie_c.cpp` |
| `Drivers/Fortran` | the Fortran interface, the sweeps with partitioned arguments | `fortutils.cpp`, `drivers/driversf.cpp`, `drivers/odedriversf.cpp`, `interfacesf.cpp`, `forward_partx.cpp` |
| `Drivers/Alloc` | allocation helpers | `adalloc.cpp` |
| `Drivers/InvTaylor`, `Drivers/InvMath`, `AD/HoRevLin` | `inverse_Taylor_prop` and the linearity flag it uses | `drivers/taylor.cpp`, `ho_rev.cpp` |
| `Num/` | convolutions, tensor addressing, interpolation table, record buffer | `convolut.cpp`, `drivers/taylor.cpp`, `buffer_temp.h` |
| `Session/`, `Ext/` | tapes of a thread; external functions | `tape_interface.*`, `externfcts*.cpp` |
| `Traceless/` | `adtl::adouble` | `adtl.h` |
| `Traceless/Hov*` | `adtl_hov::adouble` | `adtl_hov.h` |
| `Props/` | the property theorems, each with an `example` meeting its hypotheses | |

Semantics used in the statements: the *specification* of a program (`AD/Record.lean`, `Stmt`, `Prog`,
`spec`) is the plain computation on real numbers (or any ordered field with the elementary
functions), independent of locations, traces and temporaries.  Derivatives are Mathlib's (`HasDerivAt`,
`fderiv`, `iteratedDeriv`), Taylor coefficients are `iteratedDeriv k f 0 / k!`.

## Simplifications that matter

* Exact arithmetic (above). `nan` and `inf` are arbitrary field elements, so a theorem that mentions them
  claims only which of the two the code stores.
* The sweeps work on decoded operations (`Base`); that the bytes on the tapes decode to the recorded
  operations is C05/C06.  The value stack is a list of numbers (rows) in the sweeps; that the stack on disk
  behaves like one is C07/C08 (with the exceptions found there).
* The recorder model covers all overloads of `adouble`/`pdouble` as programs of primitive statements
  (rvalue and lvalue cases); `advector`/`adubref` subscripting is recorded by `AD/Advector`; the vector operations and external functions
  are not recorded (the sweeps' cases for vector operations are modelled). Subscripts in higher-order and sparsity sweeps, and `>>=` of an `adubref`, are not modelled.
* Locations stored as numbers (`adubref`) are exact: `trunc(fabs((double) l)) = l`.
* C++ programs (`AD/Api`): operands are evaluated from left to right; passive branches and values inside the composed functions are parameters;
  loops, functions and containers of `adouble` appear as the straight-line code or branches they execute.
* AMPI operations, `ext_diff` in vector and higher-order sweeps are not modelled.
* Allocation never fails; file system calls succeed.

## Findings

Defects of the code met while modelling.  (P) = a theorem in `Props/` shows it, (R) = found by reading.

Value store, tapes, value stack
1. (P, C08) `TapeInfos::get_taylors`: a row straddling two blocks is restored one position off.
2. (P, C07) a value stack with exactly `TBUFSIZE` entries is read from a file that was never opened.
3. (P, C06/C31) `discard_params_r` uses the enum constant 12 instead of the value buffer size.
4. (P, C31) more parameters than the value buffer holds: `capacity - NUM_PARAM` wraps around.
5. (P, C31) `set_param_vec` on a trace on disk is lost unless a sweep with keep follows.
6. (P, C08) a row longer than the value stack buffer overruns it.
7. (R) `get_op_block_f` subtracts `remain` instead of `number`; `readRemaining`; only for blocks of 2^30 bytes.
8. (R) `openFile` closes twice; `put_op` underflows for tiny buffer sizes; `GlobalTapeVarsCL` move
   constructor leaves dangling references; buffers are kept across retaping while sizes change.

Sweeps
9. (P, C11) `asin`, `acos`, `acosh`, `atanh` recorded in place: the test for ±1 reads the result.
10. (P, C12/C40) `fov_forward`, `hov_forward`: `log` at 0 leaves nan in all later columns; `hov_forward`: `pow` at base 0
    writes the rows of other directions.
11. (P, C13) `fos_reverse`: `pow(x, 1.0)` at `x = 0` has adjoint 0.
12. (P, C13) a variable used after `>>=`: the adjoint is overwritten (`=` instead of `+=`).
13. (P, C16) `vec_copy`, `vec_axpy` in reverse sweeps pop the values in the wrong order.
14. (R) `vec_axpy` reverse does not clear the adjoint of the result; doubled for `res == arg2`.
15. (P, C17) `pow` at base 0 in higher order: `floor(coval != 0.0)`; `cbrt` not implemented.
16. (P, C18) higher order reverse: `ceil` writes through an unset pointer, `floor` clears only one
    coefficient, `pow` near 0 wrong, `cbrt` not implemented.
16a. (P, C41) `hov_reverse`: for `abs` the arrays `x`, `jj` have one entry but are read for every row; `a*x+y` of vectors propagates
    the first row only; (R) `floor` misaligns later rows.
16b. (P, C42) `hos_ov_reverse`: `a += b*c` into a dead sum restores the polynomials of the first direction repeatedly and the
    others not at all (wrong Hessians from `hessian2`, `hess_mat`); `fmin` with a tie is not implemented.
17. (R) `defined(_ABS_NORN_SIG_)` is a misspelled macro: `++switchnum` is not executed there.
18. (R) `assign_ind` reverse does not clear the adjoint; `floor` reverse tests a stale location.

Recording
19. (P, C32) `fmin(const adouble&, const adouble&)` stores a location number as value.
20. (R) `adolc_vec_copy`/`adolc_vec_axpy` with keep write wrong values to the value stack.
21. (P, C39) `add_num_eq_prod` adds to the number of dependents: after `adolc_vec_dot` or `adolc_vec_axpy` every
    driver call with the true number fails.
21a. (P, C45) `atan2(0, b)` with `b < 0` is -π (C's is π); `pow(a, b)` at a negative base uses the exponent of the recording; (R) reverse mode of
    `atan2(0, b)` meets `0 * inf`; `frexp(adouble &&)` overwrites the stored value without recording it, `frexp(const adouble &)` records a constant;
    `operator==(double, adouble)` and `operator<=(double, adouble)` are defined `inline` in `adouble.cpp` only (not available to users).
22. (R) `x += std::move(x)`; contiguity of vector arguments is only checked at the end points.

Sparsity
23. (P, C20) `int_forward_safe`: `min_op` only word 0; two-argument condassign loses bits; `int_forward_tight`
    reads two values for a conditional assignment, so later constants are wrong; `int_reverse_safe` moves the patterns of a two-argument
    condassign always; `int_reverse_tight` does not fetch the values of divisions (and of `c / x`, `pow(x, c)` in place).
24. (P, C20) `combine_2_index_domains` with result = second argument loses the second domain (`x/(expr)`).
25. (P, C20) more than 1920 independents: null dereference in `extract`.
26. (P, C20/C21) tight index sweeps: two-argument condassign does not update values; `take_stock` writes one
    location only.
27. (P, C21) `nonl_ind` sweeps: uninitialised node for `fmin` and condassign (safe), two-argument
    condassign, node array overrun for vector operations; (R) exponential traversals.
28. (R) old Hessian sweep: dangling pointer for more than 20 indices.

Drivers, ODE, tensors
29. (P, C25) `tensor_address` passes over the indices only once.
29a. (P, C43) `tensor_value` sorts the multi-index into ascending order, the one order its `tensor_address` call does not handle:
    `(2, 1)` returns the entry of `(2, 0)`; (R) it also overwrites the caller's `multi`.
29b. (P, C44) `jac_solv` in modes 1, 0, 2 at one point solves with the unfactored matrix; after `-3` the same call repeated returns 3.
    (R) It also keeps the old factorisation when parameters change or the tag is retaped.
29c. (P, C46) `forward(tag, m, n, d, keep, X, Y)` with `d ≥ 2` shifts the caller's `X` before the sweep; if the sweep throws (wrong counts, `cbrt`), `X[i][0]` is lost.
29d. (P, C47) `fos_pl_sig_reverse` (fo_rev.cpp:1631-1634) sets the adjoint of the result of `fabs` to 0 before multiplying with it: `directional_active_gradient` loses everything that passes through `fabs`.  In the forward sweeps with prescribed signature `switchnum` never advances (uni5_for.cpp:3990 tests the undefined macro `_ABS_NORN_SIG_`).
29e. (P, C47) `abs_normal` ignores the return code of `zos_pl_forward`; after a branch switch it starts the reverse sweep on a truncated value stack and returns 0.
29f. (P, C48) for `d = 1`, `lie_gradient` and `lie_covector` do not shift the solution's coefficients (adolc_lie_c.cpp:303-311, 398-403): `hos_forward` runs in direction `x0` instead of `F(x0)`, and `lie_covector` uses the uninitialised `yp` (409-416).
29g. (P, C48) `int Fak` overflows for `d ≥ 13` in `lie_covector` and `lie_bracket` (adolc_lie_c.cpp:66-74, 139-147).
29h. (P, C49) `fp_fos_reverse` starts from the uninitialised `U` and makes `N_max_deriv - 1` passes; for `N_max_deriv ≤ 1` it adds uninitialised memory to the adjoints (fixpoint.cpp:172-204). `fp_fos_forward` makes `max(N_max, N_max_deriv) - 1` passes: for 1 it does not set `x_fix`.
29i. (P, C49) the callbacks search `fpi_stack` (global) for the index of the external function in its tape: the second tape with a fixed point iteration finds the first tape's data (fixpoint.cpp:79-84).
29j. (P, C49) `fp_zos_forward` does not run the sub-tape: `zos_forward(keep = 1)` and `fos_reverse` at a new point differentiate the fixed point at the point of the recording.
29k. (P, C50) `fov_reverse`, case `subscript` (fo_rev.cpp:2028-2029) does not advance the pointer of the result: the rows after the first get nothing.
29l. (P, C50) `adubref::operator=(const adouble&)` compares `loc_`, its own cell, instead of `refloc_` with the right hand side (advector.cpp:69): `v[i] = v[k]` with `i = k` loses the adjoint.
29m. (P, C50) `v[0] = <rvalue>` moves the element to the rvalue's location; the recorded `subscript` computes `data_[0].loc() + index`. Same for `advector(const std::vector<adouble>&)`, whose comment says so.
29n. (P, C50) `advector::nondecreasing` never updates `last` (advector.cpp:438-444).
29o. (R) forward bit pattern sweeps read the value tape twice for `ref_cond_assign`.
30. (P, C27) `accode` in place, its output pattern, and its reuse.
31. (P, C28) `vec_jac` with repeat always returns a negative code; `large_jacobian` writes outside the matrix.
32. (R) memory leaks for negative return codes; `myallocI2(0)`.

Checkpointing, sessions, external functions
33. (P, C36) the scheduler's state is one global shared by all loops.
34. (P, C34) `trace_on` with buffer sizes never starts tracing.
35. (P, C38) `trace_on` on a busy tag, sweeps with wrong counts, `set_param_vec` with a wrong count change
    the session although they throw.
36. (P, C35) records of external functions keep one pair of locations; (R) the `EDFobject` wrapper looks up
    the wrong registry when tapes differ; overlapping argument and result arrays.
37. (R) `range*(reps+ds)` overflows before the check against `REPSUP`; `Buffer`'s defaulted move
    constructor frees twice.

Traceless mode
38. (P, C29) `atan2(a, b)` has zero derivatives at `b = 0`; `adouble d;` leaves derivatives
    uninitialised; (R) `pow(x, 0)` at 0 and `pow(negative, adouble)` give nan.
39. (P, C51) assigning an `adtl_indo::adouble` to itself (also by `condassign`) clears its pattern before reading it (adtl_indo.h:727-733): `y = x; y = y;` has an empty sparse Jacobian.
40. (P, C51) `ADOLC_get_sparse_jacobian` with `repeat != 0` uses the pattern of the point of the last `repeat = 0` call, of whatever function it was (`sJInfos` is one global, sparsedrivers.cpp:93): `fmax(x0, x1)` loses its derivative when the other argument becomes larger.
41. (P, C52) `sparse_jac` with forward bit patterns (the default for `m >= n/2`) dereferences a null pointer if a dependent depends on no independent (sparsedrivers.h:730, `JP_[i][0]`; `extract` allocates a row only for nonempty patterns).
42. (P, C52) a call of `sparse_jac` with tight index domains that returns -1 has replaced the rows of the kept pattern by null pointers but kept the colouring: the next call with `repeat = 1` crashes instead of returning -3.
43. (P, C52) `sparse_jac` with `repeat = 1` after a tight pattern of another point loses derivatives (`fmin(x0, x1)`), with a nonnegative code; (R) with the other compression mode it uses colours of the wrong vertices.
44. (P, C53) a call of `sparse_hess` with tight control flow that returns -1 has replaced the rows of the kept pattern by null pointers but kept graph and `nnzIn_`: the next call with `repeat = 1` dereferences them.
45. (P, C53) `sparse_hess` with `repeat = 0` writes `*nnz` before looking at it, so that arrays of the caller that are too short are overrun; (R) the code of `hov_wk_forward` is not looked at before `hos_ov_reverse` is called (sparsedrivers.h:1350).
46. (P, C54) `adtl_hov`: `cos(a)` returns the companion variable of its recurrence, with value `-sin(a)` (adtl_hov.h:1073); `cosh(a)` has the value `a*sinh(a)` (1407-1408).
47. (P, C54) `adtl_hov`: `d *= a` multiplies the value twice, `d /= a` leaves the value 0 (2193-2212, 2252-2265); `pow(a, v)` at `a = 0` has the coefficients `Gamma(v+1)/(k+1)` (1213-1224).
48. (P, C54) `adtl_hov`: `erf`, `erfc` and `fabs` do not compute the higher coefficients; `fabs` multiplies uninitialised memory by the sign of uninitialised memory, reads the uninitialised `found`, and (R) its array `leading_sgn` has `degree` elements but is indexed by `l < numDir` (1583-1622).
49. (P, C54) `adtl_hov`: `a + 1.0` aborts, `1.0 + a` and `a - 1.0` throw, `tan`, `asin`, ... exit; `setOneADValue` stores the caller's pointer, so that two variables seeded with the same array change each other; (R) the rows allocated by a constructor are never freed (484-493).
50. (P, C21) control flow modes OldSafe/OldTight: `extend_nonlinearity_domain_binary_step` gives back a list that is empty and too short and stores the new one in a local variable only (uni5_for.cpp:6148-6152): for more than 20 independents the sweep uses freed memory.
51. (P, C21) the same modes lose interactions when the result of an operation is its second argument (`x0 / (x1*x2)`), as in C20.
52. (P, C56) `inverse_tensor_eval`: when `d` or `p` differs from the call before, `dim` is overwritten by the size of the old table (taylor.cpp:646-652); the new table is allocated with this size and the loop runs over the old number of directions.
53. (R, C56) `inverse_tensor_eval` returns `-3` without freeing `X`, `Y`, `jm`, `y`, `it` (679-680, 704-705).
54. (P, C57) `hessian_`: the comment promises that the upper half of the matrix is left unchanged (driversf.cpp:153-154); `pack2` overwrites it with zeros.
55. (P, C57) `forodec_` copies only `Y[i][0]` from the Fortran array: with `dol > 0` the coefficients the caller passes are lost (odedriversf.cpp:31-51).
56. (P, C57) `forodec_`, `accodec_` call `free` on interior pointers of the single block `myalloc2`/`myalloc3` return (48, 72).
57. (P, C57) `accodec_` allocates `A`, `B` with `deg` instead of `deg+1` entries per row: `accodec` writes behind the block for every size, and `B[i][j][deg]` is `B[i][j+1][0]`.
58. (P, C59) `myalloc2`, `myalloc3`: the number of bytes may overflow `size_t`; the block is then too small.
59. (R, C57) after a failing sweep the Fortran functions still copy their (zero) C arrays to the results.
60. (P, C53) `setHP`, documented as the way to skip the computation of a Hessian's pattern, drops the graph: `repeat = 1` returns -3 afterwards and `repeat = 0` computes the pattern anyway; (R) `getHP` gives the full pattern with indices from 0, documented as upper triangle with indices from 1.
61. (P, C60) the C function `sparse_jac` allows for `nnz == nullptr` at its beginning, but dereferences it when it allocates the arrays.
62. (P, C61) the entries `OP/LOC/VAL_FILE_ACCESS` of the statistics are never cleared: after a trace to disk, a second trace of the same id that stays in memory is ignored by every sweep, which evaluates the first function (old statistics and files; with `keep`, new statistics and old files).
63. (P, C61) `openFile` closes an existing file and leaves the closed handle to its owner, whose `reset` closes it again: every second trace to disk of an id, and every trace to disk where a file of that name was left, is undefined behaviour.
64. (P, C62) ids are 16 bit: the 65537th `createNewTape()` of a thread returns 0 again (documented: no duplicates) and its tape cannot be reached; `cachedTraceTags` does not resize the vector if there is no tape.
65. (R) `skipFileCleanup` is only set by the seven-argument `trace_on`, which never starts (34): tape files are removed at the end of the thread even after `trace_off(1)`, which the manual says saves them.  `duplicatestr` does not terminate its copy.
66. (P, C63) `.adolcrc`: a `TAPE_DIR` that begins with a digit is taken for a number and ignored; a line of 100 or more characters ends parsing, so all later settings are lost; `"0"` is refused; `"12k"` is 12 and `"-1"` is 2^64 - 1.
67. (P, C64) Manual memory: `sparse_jac` for a `SparseANF` compares `dims()` with the numbers of entries, not the sizes of the four blocks, so an object whose blocks have the right sizes without `SparseANF::resize` is refused.
68. (P, C64) the tape has one cache for both overloads of `sparse_jac`: `repeat = 1` for a `SparseANF` after a first call for a `SparseMatrix` uses a seed of the wrong width (assertion, or reads behind the rows).
69. (P, C65) `fos_pl_sig_forward`: because of `_ABS_NORN_SIG_` (29d) `swargs`, `swtaylors`, `sigsw` are written at index 0 only and `sigbase[0]`, `sigdir[0]` are used for every switch: with `sigbase[0] = 0` every switching variable is set to 0.
70. (P, C65) `directional_active_gradient` allocates `E` with `n` columns but writes `E[j][k]` for `k` up to 5: for `n = 1`, or whenever `n < 6` directions leave a sign undetermined, it writes behind `E` instead of reporting `DIRGRAD_NOT_ENOUGH_DIRS` (which needs `n >= 6`).
71. (P, C65) the signature depends on the length of the direction: it is taken from the increments of the piecewise linear model for step length 1, not from its behaviour near the point.  The return codes of the three sweeps are ignored.
72. (P, C66) `AbsNormalForm` is documented by `y = cy + Y x + J|z|`, `z = cz + Z x + L|z|`, but `updateCy`, `updateCz` compute `cy = y - J|z|`, `cz = z - L|z|`: the documented equations hold only where `Y x = 0`, `Z x = 0`.
73. (P, C66) a moved-from `AbsNormalForm` keeps its dimensions (`dims()`, `empty()`) without storage; `abs_normal` on it writes through null pointers.
74. (P, C66) `ADOLC::abs_normal` takes a `std::span` for `x` but does not look at its length.
75. (P, C67) `tape_doc` has no case for 29 of the recorded operations (`condeqassign`, `subscript` and `ref_…` of `advector`, `assign_p`, the comparisons of two `adouble`s): they are missing from the listing, and, since their locations and values are not skipped, every later line shows wrong operands.
76. (P, C67) For `ext_diff` and `ext_diff_iArr` `tape_doc` reads six locations after the index part, but since the locations of arguments and results are kept in the `edf` object only three are recorded; every later line of a trace with an external function or a checkpointed loop is wrong, and the reader may run past the recorded data. Their line also has nine cells in a table of ten columns.
77. (P, C67) For `vec_axpy` `loc_a[1]` is written twice; the location of the scalar is not shown. `assign_d` is listed as "assigne d".
78. (P, C68) `update_ext_fct_memory` reserves `q*(nin+nout)` pointers (`q = nout*m_osz`) where `Up`, `Zp` need `nin*m_isz + nout*m_osz`: for a function of ten variables with one result `fov_reverse` writes `Zp[0][…]` behind the block.
79. (P, C68) It allocates for the sizes of the current call, not for the maxima it compares with: three blocks of 2, then one block of 5, leaves the record without rows for the second and third block; later calls and the sweeps over the earlier call use a pointer read from behind the table.
80. (P, C68) Without output variables (`q = 0`) the pointers of `Zp` themselves are written behind the block.
81. (P, C69) The wrappers of `EDFobject` and `EDFobject_v2` look up the object on the tape whose id they are passed; while taping this is `extTapeId`, on which `ext_diff_fct_index` was not set: another object's `function` runs, or the lookup fails.
82. (P, C69) `EDFobject_iArr::init_edf` sets `function` instead of `function_iArr` and leaves `tapeId` 0: every `call` throws (`edfoo_iarr_wrapper_function` is unused).
83. (P, C65) `fov_pl_sig_forward`: as 69; besides, `ext_firstsign` projects the tangent of the first direction only, so with `sigbase = 0`, `sigdir = 1` the reported sign can be -1 and two equal directions get different results.
84. (by reading, C70) The entry points of `sparse_fo_rev.h` with a `mode` argument are declared, but `src/sparse/sparse_fo_rev.cpp` is not in the CMake build; its `reverse` passes `&Uv` where the template takes a reference, and returns -1 in every case. Not modelled.
85. (C71) `enableMinMaxUsingAbs` and `disableMinMaxUsingAbs` called while a trace is written are accepted silently; the error whose message describes this case ("change … during tracing …, not changing behaviour now") is raised only during sweeps (`C71_enable_while_tracing`).  The running trace is not affected, the next one is.

## Seeded bugs

`seeded/LOG.jsonl`: one line per edited definition (scratch copy of the project, edit, `lake build`).  Where an
edit survived, the theorem was tightened or the entry says why the edited program still satisfies the claim.
