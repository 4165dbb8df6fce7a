# Formal model of SMACK: design

Subject: smackers/smack at the pinned commit in /repo (C++ translator, C runtime library, Python driver).
Model and proofs: Lean 4, Lake project in `lean/`.

## Layout

Each area has its own directory `lean/Verif/<Area>/` with

* `Model.lean`  definitions that follow the code function by function. Every definition cites file and lines in /repo.
* `Spec.lean`   a small independent specification (what the English sentence says), written without the model helpers.
  Small specifications are at the head of `Props.lean` instead.
* `Lemmas.lean` and other helper files (only where needed).
* `Props.lean`, `*Props.lean`  the theorems named in MANIFEST.json, with an `example` that meets the hypotheses of each.

Theorem names start with the property id in lower case (`c01_...`). The suffix `_partial` marks a theorem that
proves only part of the property. The suffix `_fails` marks a proved negation: the code at this commit does not have the
property in full, and the theorem gives a witness or a general refutation.

`seeded/LOG.jsonl` records the wrong programs tried: which definition was edited, how, the claim it breaks and the theorems
that stopped proving.
The log is not complete: from the earlier rounds, edits that did not compile and edits that turned out to be equivalent to the original (or that
broke no claim) were left out. Entries with an empty `theorems_failed` are edits that no theorem noticed; their text says why.

## Trusted base

* The Lean 4.33.0 kernel.
* Axioms: at most `propext`, `Classical.choice`, `Quot.sound`. The section "Axioms per theorem" lists them for each theorem.
  No own axioms, no `sorry`, no `native_decide`, no `bv_decide`.
* That the definitions in the `Model.lean` files say what the cited lines of /repo do. They were written by reading;
  nothing was compiled or run.
* The reading of the languages involved:
  * Boogie: `goto` is a nondeterministic choice; `assume` blocks; `havoc` picks any value; a failing `assert` is an error
    outcome; a procedure without body havocs its modified globals and assumes its `ensures`; uninterpreted functions
    range over all interpretations that satisfy the emitted axioms.
  * SMT-LIB: `div` and `mod` on Int are Euclidean and arbitrary at divisor 0; bit-vector operators are Lean's `BitVec`
    operators, with division by zero as SMT-LIB defines it where it matters.
  * LLVM: integers are `BitVec w`; poison and undefined behaviour are outside the hypotheses (`Option.none`).
    Aggregates are trees; data layouts are arbitrary parameters with the usual well-formedness conditions.
  * C: undefined behaviour is the outcome `none`; `char` is signed; two's complement; clang -O0 code for C expressions.
  * Python: the string and regular-expression operations used by the driver (ASCII classes only).
* Not modelled at all: LLVM itself (parser, LowerSwitch, mem2reg, loop information, sea-dsa and their results are inputs of
  the model), Boogie, Corral and Z3, clang, the operating system, floating-point arithmetic beyond the value of literals,
  the comparison predicates and the operations that math.c calls (area Math).

## What is modelled, area by area

| Area | Properties | Code modelled | Simplified or left out |
|------|-----------|---------------|------------------------|
| IntOps | C01-C06 | Prelude.cpp 480-880 (integer functions), SmackRep.cpp 612-648 (literals), 796-1004 (integer expressions) | widths are arbitrary naturals (the code declares a fixed list); only integer operands |
| FloatLit | C07 | SmackRep.cpp 651-706, BoogieAst.cpp 454-461, Prelude.cpp 180-181 | printed digits as numbers |
| Bytes | C08 | Prelude.cpp 175-247, 930-1000 | one region |
| Regions | C09-C11 | Regions.cpp, Regions.h | sea-dsa nodes are numbers with flags; offsets and lengths are 32-bit as in the code |
| Bitwise | C12-C14 | RewriteBitwiseOps.cpp, smack.c 57-1405 | the unrolled C code of the library as loops |
| Overflow | C15 | IntegerOverflowChecker.cpp, smack.c 1407-1410 | instructions as expression trees |
| Globals | C16 | SmackRep.cpp 102-109, 1262-1325, Prelude.cpp 1126-1175 | initialisers are in Aggr |
| MemIntr | C17 | SmackRep.cpp 301-348, 1330-1476 | one or two regions |
| Alloc | C18-C21 | smack.c 1610-1892 | integer pointers; each operation is one step |
| Naming | C22, C23, C59, C62 | Naming.cpp, SmackOptions.cpp 104-122, RustFixes.cpp 21-43 | strings are lists of characters |
| Printer | C24, C25 | BoogieAst.h 58-265, BoogieAst.cpp 284-515, SmackRep.cpp 1124-1184 | CodeExpr left out |
| Cfg | C26-C29, C60 | SmackInstGenerator.cpp 148-333, NormalizeLoops.cpp, AnnotateLoopExits.cpp | straight-line instructions are opaque operations |
| Intrinsics | C30-C33 | SmackInstGenerator.cpp 979-1112 | flag handling of `conditionalModel` left out |
| FpPred | C34 | Prelude.cpp 1403-1548, SmackRep.cpp 963-984, Naming.cpp 134-147 | one floating-point type at a time |
| Aggr | C35-C39 | SmackInstGenerator.cpp 417-467, SimplifyExtractValue.cpp, SimplifyInsertValue.cpp, SplitAggregateValue.cpp, CodifyStaticInits.cpp | vectors inside aggregates are scalars |
| Devirt | C40, C41 | Devirt.cpp | vector types and address spaces left out |
| Gep | C42, C43, C45, C63 | MergeGEP.cpp, SmackRep.cpp 544-794, Prelude.cpp 1007-1045, 1183-1260 | |
| TypeSafe | C44 | DSAWrapper.cpp 121-197 | |
| Graphs | C46, C47 | VerifierCodeMetadata.cpp, RemoveDeadDefs.cpp | instructions as nodes with operands and users |
| Driver | C48-C51 | top.py 81-96, 801-901, svcomp/utils.py, errtrace.py | regular expressions with their own matcher, proved correct; file handling left out |
| Pthread | C52, C53 | pthread.c 53-93, 126-196, 254-287 | one mutex; sequential consistency; spawned threads only |
| CString | C54 | string.c 8-192 | addresses do not wrap; strtok and strerror in StdLib |
| CAlloc | C55 | stdlib.c 26-46 | integer pointers |
| Nondet | C56 | smack.c 1415-1596, smack-rust.c 18-30 | floating-point functions left out |
| Vec | C57 | VectorOperations.cpp | printed names separately; vector constants by lanes |
| Atomics | C58 | SmackInstGenerator.cpp 546-572, Naming.cpp 149-154, Prelude.cpp 472-580 | memory orderings ignored (as in the code); for the interleaving theorem, Corral may switch threads between any two statements outside an atomic section |
| Init | C61 | SmackModuleGenerator.cpp 36-118, SmackRep.cpp 102-109, 1015-1094, 1231-1250, frontend.py 490-492 | statements other than calls are opaque |
| MemSafe | C64 | MemorySafetyChecker.cpp | casts of address and length, debug metadata; instructions by their memory access |
| MemSplit | C65 | Regions.cpp (attributes), SmackRep.cpp memType/load/store, load/store functions of the prelude | points-to facts are hypotheses on the execution; integer and pointer accesses only |
| E2E | C66 | SmackRep.cpp lit/expr on operands of phi nodes, branches, returns; smack.c assert/assume; composition of Cfg, IntOps and Nondet | one function on integers; no memory, calls, exceptions |
| E2EBv | C67 | SmackRep.cpp bop/cast/cmp/select/lit in bit-vector mode; `$alloc`, `$malloc`, `$free` and `$$alloc` of smack.c (no-reuse-impls) on bit-vectors; composition of Cfg, Gep, MemSplit and Nondet | one function; no calls, exceptions, floating point, memory safety checks, end of stack frames |
| `Calls` | C68 | `findCallers`, `procName`, `type`, `procedure` (both), `call`, names in `valueAnnotation`/`returnValueAnnotation` (SmackRep.cpp:23-50, 161-244, 350-450, 1015-1122) | bodies of `malloc`/`free_` wrappers, attributes of value annotations, `DECLARATIONS_PROC`, the pointer casts stripped by `valueAnnotation` (they do not change the Boogie type); procedures of SMACK's prelude are not among the declarations |
| `E2EMod` | C69 | calls between the generated procedures: `visitCallInst` for functions with definition, `call`, `procedure`, with `Cfg`, `E2E` and `E2EBv` for the bodies | indirect calls, functions without definition, variadic functions, exceptions, stack memory; Boogie's calls execute the body of the procedure called |
| `Exn` | C70 | `visitReturnInst`, `visitInvokeInst`, `visitResumeInst`, `visitCallInst` (no check), `visitLandingPadInst` (SmackInstGenerator.cpp:240-248, 305-327, 633-815, 867-874) on top of `Cfg` and `E2EMod` | landing pad clauses and selector values, personality functions; the result variable of an invoke that unwinds is given a fixed value (it is not used on that path) |
| `PreludeTy` | C71, C73 | all of Prelude.cpp: type declarations, constants, axioms, every function declaration with its body or attribute in every mode; `indexedName`, `intType`, `pointerType`, `bitConversion`, `pointerToInteger`, `integerToPointer`, literals (SmackRep.cpp:57-73, 154-192, 571-614) | comments; memory variables and `$global_allocations` (other areas); user-visible procedures of the prelude (`$alloc` etc.: Alloc). Boogie's type checker and SMT-LIB's signatures are the specification |
| `Emit` | C72 | `type`, `expr`, `cast`, `bop`, `cmp`, `select`, literals, `ptrArith`, `load`, `store`, memory types, casts of pointers (SmackRep.cpp:216-300, 491-1004, 1188-1222); the visitors for all instructions translated to expressions and the intrinsic table (SmackInstGenerator.cpp:240-632, 890-1220) | vectors, calls, memory intrinsics, annotations, recorded values, inline assembly. Values with a name in Boogie (registers, globals, undef) are variables declared with the type of the value; well-formed LLVM (LangRef) is a hypothesis |
| `RustVec` | C74 | the Rust memory functions, `sized_realloc`, `RawVec`, `Vec`, `RawValIter`, `IntoIter`, `vec!`, `Box` (smack.rs:152-612) | unwinding, alignment, `Drop` of elements other than which and in which order, `verifier_*` macros, nondet values. Heap of separate blocks (C18), arbitrary contents of fresh blocks, out-of-block accesses undefined; `copies` says whether the undefined function `__VERIFIER_memcpy` copies |
| `Math` | C75 | math.c except `sqrt`, fenv.c, the constants of math.h and fenv.h, the SMT-LIB operations they call (`fp.abs`, `fp.add`, `fp.sub`, `fp.rem`, `fp.roundToIntegral`, `fp.min`, `fp.max`, `fp.lt`, the predicates, `to_fp` of a bit-vector, `fp.to_sbv`) | `sqrt`, exceptions, errno. Formats are any IEEE formats; numbers are counted in units of the smallest positive number; rounding of inexact sums is any function that keeps representable numbers and signs; what SMT-LIB leaves open is arbitrary |
| `Dispatch` | C76, C77 | visitCallInst and visitInvokeInst (which kind of statement is generated), isExternal, RustFixes.cpp | texts and expressions of the statements (C24, C68), valueAnnotation, the regular expression for global declarations, attributes and debug locations; functions without name; failures of `cast` and missing replacement functions |
| `StdLib` | C78, C79 | string.c 169-201 (strtok, strerror), stdlib.c 8-24 and 48-97 | `base` and `name` arguments (ignored by the code); errno.c; pointers in memory are kept apart from bytes; writing to the string literal of getenv and strerror is permitted |
| `Contracts` | C80 | ExtractContracts.cpp; SmackInstGenerator.cpp 728-757; BoogieAst.cpp 256-282 (the returned value) | phi nodes; LLVM's CodeExtractor (single entry and exit is the hypothesis `Extractable`); parameters for memory maps; blocks are named by a number and the number of the split |
| `OvfPass` | C81 | IntegerOverflowChecker.cpp 119-210 on whole functions, the new instructions and the two SMACK library calls | what the name patterns match (a table says what each operation is); LLVM's types of values other than integers; `replaceAllUsesWith` of the void call of a UBSan handler by an i1 (an assertion in debug builds of LLVM, no effect otherwise) |
| Options | C82, C83 | `top.py` 98-198, 489-500, 640-641, 700-829 (the parts that depend on `--check`), `frontend.py` 106-139, `svcomp/utils.py` 51-89 | `--check` parsing, flags, annotation of procedures, injected assertions |
| BwPass | C84 | `RewriteBitwiseOps.cpp` 46-158 | the pass on whole functions (the arithmetic of the replacements is in Bitwise) |
| Witness | C85, C86, C87 | `errtrace.py` 6-36, 67-167, `svcomp/toSVCOMPformat.py` 68-219, `replay.py` 67-142 | the steps of Corral traces, the graph of the witness (not its XML text), the values of the replay; the regular expression that splits the output into steps is not modelled, floating-point constants are a parameter |
| PreSem | C88, C89 | `Prelude.cpp` (all), `SmackRep.cpp` 491-1004 through the models PreludeTy and Emit | the meaning of the generated text: values, evaluation, models of the prelude; floating-point operators are a parameter |
| PreSem | C90 | `SmackInstGenerator.cpp` 240-632, 919-1207, `SmackRep.cpp` 491-542, `Prelude.cpp` 939-1061 through the models PreludeTy and Emit | executions of the emitted statements |
| PreSem | C91 | `Prelude.cpp` 1183-1311, 1599-1816, `SmackRep.cpp` 491-542, `SmackInstGenerator.cpp` 1188-1222 through the models PreludeTy and Emit | pointers and floating-point values in memory |
| Run | C92 | `top.py` 225-265, 638-770, 785-855, 904-1012, `frontend.py`, `utils.py`, `svcomp/utils.py` 12-176 | whole runs of the driver over an arbitrary machine: commands, files, signals, exit status |
| Run | C93 | same, `utils.py` 11-33 | files before and after a run |
| Run | C94 | same, `top.py` 640-770, 911-1012, `frontend.py` 62-142, 206-268, 430-476 | contents of the Boogie file of a run as a function of inputs and options |
| Tool | C95 | `llvm2bpl.cpp` 54-80, 123-281, `SmackOptions.cpp` 11-106, `Debug.cpp` 41-66, `top.py` 712-765 | llvm2bpl's options, its list of passes, the globals kept; LLVM's command line library by its documentation |
| Warn | C96 | `SmackWarnings.cpp` 14-107, `SmackWarnings.h` 22-28, `SmackInstGenerator.cpp` 339-348, 890-912, 942-1226, `SmackRep.cpp` 900-911 | warnings, when and with which text; which intrinsics have a model in which mode (the statements of the models are C30-C33) |
| Printer | C97 | `BoogieAst.cpp` 517-676, `BoogieAst.h` 266-660 | statements, blocks, declarations, programs; left out: CodeStmt, CodeDecl, CodeExpr and the prelude, whose texts are printed as they are; local declarations are variables |
| Annot | C98 | `AddTiming.cpp` 40-260, `SmackInstGenerator.cpp` 93-165, `VerifierCodeMetadata.cpp` 72-81, `BoogieAst.cpp` 134-173 | metadata, source locations and timing; the cost model is a function of the question; texts of instructions are given; left out: AddTiming::print, the other statements of a block |
| Extern | C99 | `tools/externalizer/ExternalizePass.cpp` 16-67 | functions with identities and references; left out: what code does otherwise, metadata of functions, name clashes of the temporary name |
| JsonDb | C100 | `share/smack/frontend.py` 277-311 | the substitutions by regular expressions, str.split, the list of commands; ASCII word characters, blanks as the only white space; left out: failing commands, the call of the translator |
| Cargo | C101 | `share/smack/frontend.py` 314-377 | manifests by package and library name; the directory after the build is given; left out: failing commands, reading of the manifest |
| BTrace | C102 | `share/smack/errtrace.py` 51-63, 75-89, 94, 104-122, 159-166 | lines of files are texts; ASCII word characters; left out: the expression for the places in Boogie's output |
| Harness | C103 | `share/smack/replay.py` 4-7, 50-64, 99-162 | the parts of the harness by the names they define and the values they return, not their C text; the order of iteration over the set is arbitrary; left out: the commands for the replay |

Not modelled in /repo:

* Files of the translator without a model: SimplifyLibCalls.cpp, BplPrinter.cpp, BplFilePrinter.cpp, Contracts.cpp and
  Slicing.cpp (these two are not compiled), DSAWrapper.cpp outside 121-197, extern-statics.cpp (the main function of the externalizer).
* Files of the driver without a model: doctor.py, reach.py, svcomp/token_replace.py, rise4fun/smack_server.py; of replay.py the commands
  for the replay (10-47); of the other Python files the lines that no area cites.
* Files of the library without a model: errno.c, smack.cpp, smack.f90, smack.di, gthr-default.h, build.rs; `sqrt` of math.c; of smack.rs
  the parts outside 152-612.
* Conversions between floating-point and integer types in the prelude: their declarations are modelled (PreludeTy), their meaning is a
  parameter.
* What the last column of the table leaves out.

## Where code and property disagree

Each line names the theorem that proves the negation.

### Integer encoding

* `c01_select_fails`: `select` compares the condition with 1 without normalising it, so an i1 represented by another odd number selects the wrong operand.
* `c02_sdiv_fails`: `$sdiv` is SMT `div`, which rounds towards minus infinity for negative dividends; LLVM rounds towards zero.
* `c05_sext_i1_fails`: `$sext.i1` of a set bit is 1, not -1.
* `c05_overflow_disagrees`: in the unbounded encoding an overflowing addition differs from LLVM's (documented for that encoding).
* `c06_lit_wide_fails`: constants above 64 bits in an unsigned context can abort.
* `c07_x86_fp80_fails`, `c07_x86_fp80_inf_fails`: x86_fp80 literals have another value (explicit integer bit counted as fraction); infinity is printed as NaN.
* `c12_right_shift_fails`, `c12_large_amount_fails`: `ashr`/`lshr` by a constant are rewritten to `sdiv`, wrong for negative operands; an amount not below the width (no value in LLVM) becomes a division by zero.
* `c14_and32_fails`, `c14_and64_fails`, `c14_or32_fails`, `c14_or_fails`, `c14_unbounded_fails`: the library's and/or for 32 and 64 bits are wrong.
* `c15_unbounded_value_fails`: in the unbounded encoding the result after an overflow is not wrapped.
* `c33_bv_one_fails`, `c33_wrapped_one_fails`, `c33_wide_fails`: ctpop of i1 and of widths above 64.
* `c31_other_width_fails`: bswap of widths that are not a multiple of 16 (rejected by LLVM).

### Memory

* `c08_width33_fails`, `c08_unaligned_width_fails`: bytewise stores of widths that are not a multiple of 8 lose bits.
* `c09_unknown_length_fails`, `c11_unknown_length_fails`: accesses of unknown length at non-zero offsets wrap in 32 bits and are separated from aliases.
* `c10_zero_length_fails`: accesses of length 0 add a region at every lookup.
* `c16_extern_size_fails`, `c16_wrap_fails`: declared externals reserve too little space; sizes near 2^32 wrap.
* `c17_truncated_length_fails`: constant memcpy/memset lengths are truncated to 32 bits. `c17_memset_element_fails`: memset writes the byte to every element of a wider region.
* `c18_reuse_null_free_fails`: free(NULL) havocs `$Alloc` in the REUSE model. `c19_reuse_zero_blocks_fails`: a second malloc(0) blocks.
* `c20_null_free_fails`, `c20_use_after_return_fails`, `c20_negative_length_fails`, `c20_empty_access_fails`: accesses the safety check accepts or rejects wrongly.
* `c21_stack_free_fails`, `c21_leak_hidden_fails`, `c21_malloc_zero_fails`: free of stack storage is accepted and hides a leak; free(malloc(0)) may be rejected.
* `c35_finite_fails`: with bit-vector pointers some insertvalue has no result, so its assumption blocks the execution.
* `c37_repeated_fails`, `c37_base_fails`: SimplifyInsertValue reverses repeated insertions and drops the base aggregate.
* `c42_narrow_fails`: MergeGEP adds narrow indices before sign extension. `c43_narrow_fails`: GEP zero-extends narrow negative indices. `c43_stride_fails`: the stride is the store size, cut to 32 bits.
* `c44_wrap_fails`, `c44_empty_fails`: isTypeSafe wraps in 32 bits; an empty field inside another one makes both unsafe.
* `c45_bvInt_fails`: with bit-vector integers and integer pointers, round trips fail outside the signed range. `c63_int_fails`: unsigned comparison of a global's (negative) address.
* `c55_calloc_overflow_fails`: calloc ignores overflow of num*size. `c55_realloc_fails`: realloc does not copy the contents.

### Names and text

* `c22_escape_fails`, `c22_keyword_fails`, `c22_dollar_fails`, `c22_parameter_hides_global_fails`: distinct values can get the same Boogie name.
* `c23_other_characters_fails`, `c23_digit_fails`: some names are not legal Boogie identifiers.
* `c24_fails`: an argument whose text contains '@' captures the next argument. `c25_string_fails`, `c25_rmode_fails`, `c25_neg_subscript_fails`: ambiguous printed forms.
* `c59_record_entry_fails`: the entry-point record compares the escaped name. `c62_bare_prefix_fails`: the table of Rust allocation functions also accepts the bare prefix without a hash.

### Control flow and calls

* `c26_unnormalised_fails`: without NormalizeLoops a phi node can read a clobbered value. `c26_invoke_fails`: phi nodes in invoke destinations are not assigned.
* `c27_no_phi_fails`: loop headers without phi nodes are not split.
* `c28_unique_fails`, `c28_function_fails`, `c28_phi_fails`: a conditional branch with equal targets blocks. `c29_always_default_fails`, `c29_function_fails`: visitSwitchInst goes to the default block only (masked by LowerSwitch).
* `c60_inner_fails`: exits of inner loops are not annotated.
* `c40_vararg_fails`, `c40_return_type_fails`, `c41_cast_fails`: bounce functions drop variadic arguments, return uncast results, and are reused for another type.
* `c46_effect_fails`: effects of user code are marked as verifier code. `c47_verifier_fails`: unused `__VERIFIER_` functions are removed.
* `c61_variadic_fails`, `c61_recursion_fails`, `c61_memory_model_fails`: initialisation order and repetition.

### Driver

* `c48_mixed_fails`: mixing memory-safety sub-properties with other checks loses assertions.
* `c49_inconclusive_fails`, `c49_success_wins_fails`: inconclusive or contradictory outputs are reported as verified.
* `c50_timeout_fails`, `c50_memsafety_fails`: SV-COMP: timeouts above recursion bound 13 count as verified; memory safety means valid-deref only.
* `c51_other_fields_fails`, `c51_transform_fails`: merged trace steps lose fields; `transform` drops what follows a second '='.

### Library

* `c52_tid_zero_fails`, `c52_no_asserts_fails`: thread id 0 equals UNLOCKED; unlock by a non-owner. `c53_return_value_fails`, `c53_exit_returns_fails`, `c53_main_exit_fails`: join and pthread_exit.
* `c54_strncat_fails`, `c54_strcmp_fails`, `c54_strncmp_fails`, `c54_strncmp_ub_fails`, `c54_strchr_nul_fails`, `c54_strchr_conv_fails`, `c54_strstr_fails`: string functions.
* `c56_short_int_fails`: `__VERIFIER_nondet_short_int` has no body.

### Vectors and atomics

* `c57_binary_float_fails`, `c57_cmp_fails`, `c57_shuffle_undef_fails`, `c57_index_bv_fails`, `c57_memory_fails`, `c57_memory_singleton_fails`, `c57_cast_axioms_fails`, `c57_cast_fails`, `c57_cast_single_type_fails`: vector operations.
* `c58_rmw_bitwise_fails`, `c58_rmw_unbounded_umax_fails`, `c58_rmw_float_fails`, `c58_cmpxchg_representatives_fails`, `c58_cmpxchg_result_fails`, `c58_cmpxchg_type_fails`, `c58_atomicity_fails`: atomic instructions.

### Instrumentation

* `c64_atomic_fails`: atomicrmw and cmpxchg are not checked for memory safety.

### Memory regions

* `c65_int_overlap_fails`: in integer mode accesses of different sizes to the same bytes do not see each other. `c65_no_inference_fails`: `--bit-precise --no-byte-access-inference` declares the variable of a scalar global as a map and uses it as a scalar. `c65_no_split_fails`: `--bit-precise --no-memory-splitting` changes the type of the only region during the translation, so earlier statements do not type-check.

### Whole functions

* `c66_unreduced_assert_fails`, `c66_unreduced_assume_fails`: `__VERIFIER_assert` and `__VERIFIER_assume` compare their argument with 0 without reducing it, so with wrapped integers a product that wraps to 0 counts as true.

### Variadic invokes and other undeclared procedures (SmackRep.cpp:199-214, 1069-1094)

* `c68_invoke_fails`, `c68_name_clash_fails`, `c68_cast_fails`, `c68_return_value_fails`, `c68_params_fails`: `procName(F, U)` drops only the last operand, so for an invoke the normal and unwind destinations (of label type, printed `ref`) become part of the name, while `findCallers` does not consider invokes: an invoke of a variadic function calls a procedure that is not declared, or one of two more parameters. A function named `f.i32` clashes with the version of variadic `f` for one `i32`. A non-variadic function called through a cast with other arguments is declared by its own signature only. `__SMACK_return_value` without any use of `__SMACK_value` calls an undeclared procedure. A fixed parameter named `p.1` clashes with the generated parameter.

### Exceptions are lost or invented (SmackInstGenerator.cpp:305-320, 633-815, 867-874)

* `c70_call_fails`, `c70_external_fails`, `c70_handler_fails`: only invokes look at `$exn`. After a plain call of a function that throws, the generated code goes on with the next instruction, and the return resets `$exn`, so the exception is lost. A procedure without body (any function without definition, such as `__cxa_throw`) does not change `$exn`, so the invoke takes the edge of the last return or resume: a throw is missed, or a handler runs although nothing was thrown. A landing pad that is not a cleanup (every plain `catch`) leaves `$exn` true, so an invoke of a function without definition inside a handler continues at its unwind destination.

### The prelude is not well-typed in two modes (Prelude.cpp:175, 606-717, 930-1000)

* `c71_load33_fails`, `c71_wrapped_pointer_eq_fails`: in bit-vector mode the body of `$load.bytes.bv33` concatenates four bytes, a 32-bit value, in a function that returns 33 bits. With `--integer-encoding=wrapped-integer --pointer-encoding=bit-vector`, `$eq.bvN.bool` and `$ne.bvN.bool` apply `$tou.iN`, a function on integers, to bit-vectors: the table gives the equality of bit-vectors the body of the equality of integers.

### Two built-in functions stand for the wrong SMT operator (Prelude.cpp:478-544, 1323-1401)

* `c73_bvidiv_fails`, `c73_frem_fails`: `$idiv.bvN` is declared as the SMT operator `bvidiv`, which does not exist (the function is not called by generated code in bit-vector mode). `$frem` is `fp.rem`, the remainder of the nearest quotient; LLVM's `frem` is C's `fmod`. For 5 and 3 they give -1 and 2; they differ whenever the remainder is more than half of the divisor.

### Generated code uses functions that the prelude does not declare (SmackRep.cpp:216-300, 520-640; Prelude.cpp)

* `c72_type_names_fails`, `c72_width_fails`, `c72_ptrtoint_fails`, `c72_bitcast_fails`: integer widths outside the prelude's list (e.g. i7, i72), `ptrtoint`/`inttoptr` at widths other than 8, 16, 32, 64 (e.g. i128), and bit casts from an integer or floating-point type to itself give Boogie programs that do not resolve.

### Memory variables whose declared type does not match their use (SmackRep.cpp:265-300; Regions.cpp:77-137)

* `c72_first_lookup_fails`, `c72_no_inference_fails`, `c72_collapsed_pointer_fails`, `c72_collapsed_scalar_fails`: with `--no-byte-access-inference` in bit-vector mode a region of a single scalar is declared as a map and used as a scalar. A region of a single scalar accessed at two types of one size is declared as one byte. When only pointers are bit-vectors, a region accessed at several types is declared `[ref] i8` and pointers are loaded from it with `$load.ref`, which needs `[ref] ref`. A region made of a single byte-wise access keeps its type until its first lookup; since every access is looked up before memory is declared, this has no effect.

### `cmpxchg`, `llvm.sqrt`, `llvm.fma` and `llvm.ctpop.i1` are translated to ill-typed statements (SmackInstGenerator.cpp:520-560, 1000-1220)

* `c72_cmpxchg_fails`, `c72_rounding_mode_fails`, `c72_ctpop_fails`: the result of `cmpxchg`, a pair, is declared `ref` but is assigned the loaded integer; with `--float` the calls of `$sqrt` and `$fma` lack the rounding mode; `llvm.ctpop.i1` with bit-vectors uses `$zext.bv1.bv1`, which is not declared.

### Growing a Rust vector loses its elements (smack.rs:20, 212-218, 289-300)

* `c74_grow_fails`, `c74_leak_fails`: `sized_realloc` copies with `__VERIFIER_memcpy`, which is declared but defined nowhere in the repository, so that after the 33rd push all former elements are arbitrary (test/rust/failing/vec_resize.rs is a known failing regression). The old block is never freed, so with memory-safety checking every vector that grew is reported as a leak.

### `Vec::with_capacity(0)` (smack.rs:283-300, 343-353)

* `c74_zero_capacity_fails`: doubling a capacity of 0 gives 0, so the first push stores outside the block.

### Order and number of evaluations and drops in the Rust library (smack.rs:444-449, 567-576, 590-612)

* `c74_drop_order_fails`, `c74_repeat_fails`, `c74_box_fails`: a vector drops its elements from the last to the first (std: first to last); `vec![val; count]` evaluates `val` for every element (std: once, then clones) and `count` before every round; `Box` has no `Drop`, so the value is not dropped and the block stays allocated.

### `__smack_rust_std_alloc_zeroed` does not zero, `realloc` does not keep the contents (smack.rs:157-160, 192-202; stdlib.c:39-46)

* `c74_alloc_zeroed_fails`, `c74_realloc_fails`: the layout-based zeroing allocator calls the plain allocator, so zero-initialised Rust memory is arbitrary; reallocation frees and allocates without copying.

### LLVM `frem` is the IEEE remainder (Naming.cpp:128, Prelude.cpp:1334)

* `c75_frem_fails`, `c73_frem_fails`: `frem` truncates the quotient, `fp.rem` rounds it to nearest; they agree iff the quotient is not rounded up. C programs are affected through the compiler turning calls of `fmod` into `frem`; math.c's own `fmod` corrects for it.

### Signs in math.c (math.c:114-122, 157-161; Prelude.cpp:1619-1620, 1680)

* `c75_nan_sign_fails`, `c75_encoding_fails`: the sign is read from the bits of the number. With the integer encoding these bits are an uninterpreted function, so `signbit`, `copysign`, `fmod` and `modf` can give anything; with bit-vectors they are right except for NaNs, which SMT-LIB does not distinguish.

### `fdim` may return -0 (math.c:13-20)

* `c75_fdim_fails`: C requires +0 whenever x <= y; the model takes `fp.max(+0, x - y)` and SMT-LIB lets the maximum of zeros of different sign be either.

### `long double` has a 65-bit significand (Prelude.cpp:181)

* `c75_long_double_fails`: `float65e15` has 64 fraction bits plus a hidden one; the x87 format has 64 significand bits in all. 2^64 + 1 is exact in the model and rounded on the machine.

### Special functions are recognised by substring (SmackInstGenerator.cpp:662-690)

* `c76_substring_fails`: every function whose name contains `__SMACK_code`, `__SMACK_mod`, … anywhere (needed for mangled names) is translated to an annotation and never called, even when defined in the program.

### Calls of functions named `$expr…` disappear (SmackInstGenerator.cpp:691)

* `c76_expr_fails`: `$` is legal in C identifiers for clang; such a call generates no statement at all.

### `invoke` has no dispatch (SmackInstGenerator.cpp:305-311)

* `c76_invoke_fails`, `c77_invoke_fails`, `c77_smack_name_fails`: annotations, contracts and the function filter are ignored when the function is invoked; RustFixes handles only `CallInst`, so a panic in a function with a landing pad (any Rust function with values to drop, as panic=unwind is in effect) is a call of a procedure without body followed by `assume false` – it is not reported.

### Panic functions outside the list (Naming.cpp:68-71)

* `c77_unlisted_fails`: `Result::unwrap`, `Option::expect`, slice ranges and capacity overflow panic through library functions that are not in the list of five names; calls of them are ordinary calls.

### Undefined functions never return null (SmackInstGenerator.cpp:805-810, Prelude.cpp:1152-1158)

* `c76_external_null_fails`: the pointer returned by an undefined function is assumed to be below `$EXTERNS_BOTTOM`, so null, globals and heap memory are excluded and a missing null check is not found.

### Inline assembly (SmackInstGenerator.cpp:636-641)

* `c76_asm`: the statement is `skip` (with a warning); results are not assigned, so in a loop the same value is read every time, and memory operands are unchanged.

### strtok continues a stale string (string.c:170-183)

* `c78_stale_fails`: when the new string has only delimiters, null is returned but `olds` still points into the earlier string, so the next `strtok(NULL, d)` returns a token of the earlier string (in C: undefined at worst, null in practice).

### Short environment values and messages (stdlib.c:88-97, string.c:196-201)

* `c79_getenv_long_fails`, `c79_strerror_fails`: the buffer is the literal "xx"; no value of more than two bytes is ever returned, so overflows caused by long environment values are not found. Both functions write to a string literal.

### Numeric conversions (stdlib.c:48-86)

* `c79_strto_long_fails`: the offset of `*endptr` is an `unsigned`; errno is never set to ERANGE, so code for out-of-range numbers is unreachable. errno.c has one errno for all threads.

### Code before a contract call loses its effects (ExtractContracts.cpp:228-252)

* `c80_effects_fails`: every instruction before the last `requires`/`ensures` is moved to the expression function, so stores before it are lost to the function.

### Invariants are asserted before the header instructions (SmackInstGenerator.cpp:751-757)

* `c80_invariant_fails`: an invariant over a value computed in the header is evaluated with the old value.

### Invariants in the header of a loop (ExtractContracts.cpp:58-69)

* `c80_header_fails`: the call in a `do … while` header is not converted, and the rest of the loop body is put in the region and removed.

### Two invariants in one loop (ExtractContracts.cpp:95-96)

* `c80_two_invariants_fails`: the blocks made by splitting come last in the list of the loop, so the region contains later code and has two entries.

### A loop before requires or ensures (ExtractContracts.cpp:42-51, 112)

* `c80_loop_before_fails`: invariants of the loop become clauses outside of the loop.

### Contract expressions with bit vectors (BoogieAst.cpp:262-264)

* `c80_code_type_fails`: the result of a code expression is compared with the integer 0, ill typed for bit-vector integers.

### Functions with `__SMACK_` in their name are not checked (IntegerOverflowChecker.cpp:126, Naming.cpp:163)

* `c81_smack_name_fails`: the pattern matches anywhere in the name, so user functions with such names are skipped whatever the options.

### UBSan handlers in unchecked functions (IntegerOverflowChecker.cpp:139-147)

* `c81_ubsan_unchecked_fails`: the blocking assume is added although no check is, so executions are lost silently.

### Pairs with other uses (IntegerOverflowChecker.cpp:183-208)

* `c81_erased_use_fails`: the result of an intrinsic that is returned, stored or passed on is erased although it has uses.

### Driver: `--check` through the tools

* `c82_mixed_fails`: `--check assertions valid-deref` (any property that is no memory-safety property together with one or two memory-safety properties): the assertions of the former are replaced by `assert true`, for every such command line.

### Driver: `--check memory-safety` with current Python

* `c82_group_rejected_fails`: `choices=list(VProperty)` no longer contains the combined member since Python 3.11, so the documented argument is rejected.

### Competition mode: error function in memory-safety tasks

* `c82_svcomp_deref_fails`: `svcomp_check_property` selects VALID_DEREF only, `verify_bpl_svcomp` tests for MEMORY_SAFETY, so `assert false` is put before every call of `reach_error` in memory-safety tasks.

### Annotation of procedures

* `c83_prefix_fails`, `c83_renamed_fails`: in modular verification a function whose name extends the name of a support procedure is inlined instead of verified; an entry point whose name is changed for Boogie (e.g. `type`) gets no `{:entrypoint}`.

### RewriteBitwiseOps on whole functions

* `c84_differs_fails`, `c84_and32_fails`, `c84_vector_fails`: a function `return x & y` on `int` returns 0 after the pass for all arguments; every instance described by `Differs` changes the value; an `and` or `or` of vectors fails the assertion in `cast<IntegerType>`.

### Witnesses, traces and replay

* `c85_violation_fails`, `c85_pthread_fails`, `c85_call_name_fails`: the witness of the competition mode never has a violation node, because `json_output` drops every token with `ASSERTION` and `smackJsonToXmlGraph` adds the node when it sees such a token; programs with threads get a graph with one node; returning from a function such as `CALLBACK` raises "Call/Return dismatch".
* `c86_done_fails`: values of variables whose name contains `Done` (such as `nDone`) are missing from traces.
* `c87_two_fails`, `c87_bv_fails`, `c87_wide_fails`: `(smack:ext:f = 5, x = 7)` is read as the value 7 of a function `f = 5, x`; bit-vector values `5bv32` are copied into the C table; values outside `int` are changed by the table's type.

### Meaning of the generated text

* `c89_narrow_index_fails`: in bit-vector mode the address emitted for `p[i]` with a negative index of less than pointer width is too large by `2 ^ w` elements, because `integerToPointer` extends with `$zext` (the same as C43, here for the generated text).

### Pointers in regions accessed by bytes (Prelude.cpp 1183-1311)

* `c91_pointer_fails`: bit-vector integers with pointers as integers. The load of a pointer reads its bytes as a signed number, so an address of at least 2^(n-1) comes back negative.

### Assumptions that accompany floating-point stores (SmackRep.cpp 491-542)

* `c91_no_assume_fails`: a stored value whose `$bitcast` is not assumed to be invertible (static initialisers) may be read back as another value; the solver may report errors that do not exist.

### Floating-point values in untyped regions (Prelude.cpp 1599-1816)

* `c91_unsafe_fails`: with integers and --float the functions for untyped regions are uninterpreted; a load after a store may yield any value.
* `c91_one_byte_fails`, `c91_read_byte_fails`: with bit-vectors and without --float a store of a double changes one byte only and a load depends on one byte only; the other bytes of a union keep their old values, so errors that depend on them are missed.
* `c91_x87_fails`: the bytes of the long double 1.0 are read as 1.5.

### Exit status (top.py 976-1012, utils.py 42-106)

* `c92_sigterm_fails`: SIGTERM ends the run with status 0, the status of a verified program.
* `c92_usage_fails`: a wrong command line ends with status 2, the status of an invalid pointer dereference.
* `c92_one_fails`: a source file that does not compile ends with status 1, the status of an assertion failure; so does every failing command and every uncaught exception.
* `c92_symbooglix_fails`: with --verifier symbooglix the exit status of all commands is ignored, also of compiler, linker and translator; the Boogie file of an earlier run may be verified instead.

### --language (top.py 338-340, 685-686)

* `c92_language_fails`: the choices are the names of the front ends, but the value is looked up as a file extension; cxx, objc, llvm, boogie, fortran, rust and cargo raise KeyError, with the status of an assertion failure.

### --modular with the default verifier (top.py 911-956, 861-901)

* `c92_modular_fails`: Boogie is run but its output is read as Corral's; the kinds of errors (statuses 2 to 6) are reported as plain assertion failures.

### Temporary files of the Fortran front end (frontend.py 167-201)

* `c93_fortran_fails`: llvm-as makes a .bc file out of the temporary .ll file; its name is computed by the driver and never registered, so it stays behind, and so does smack.mod.

### Boogie inputs (frontend.py 261-268)

* `c94_boogie_fails`: the file named by --bpl is opened for appending; if it exists the input goes after its old contents and both are verified.

### --solver (top.py 946-952)

* `c94_solver_fails`: with --verifier symbooglix the option is ignored.

### Reserved words (Naming.cpp 130-163)

* `c23_extends_fails`: `extends`, a reserved word of Boogie 2, is not on the list of words to be renamed. Newer releases of Boogie have dropped the word.

### Debugging options in a build with NDEBUG (Debug.cpp 41-83, top.py 727-730)

* `c95_debug_fails`: -debug and -debug-only are declared only without NDEBUG; in other builds llvm2bpl rejects the command line of smack --debug, and the run fails.

### Warnings (SmackRep.cpp 908-911)

* `c96_frem_fails`: isFpArithOp leaves out frem, so that the floating-point remainder is over-approximated without --float and without a warning. The same holds for comparisons and conversions, which are not modelled.

### Bitwise operations on vectors (SmackInstGenerator.cpp 341)

* `c96_vector_fails`: getIntegerBitWidth is asked for the width of a vector type and fails its assertion.

### Comments (BoogieAst.cpp 557, SmackWarnings.cpp 90)

* `c97_comment_fails`, `c97_nested_comment_fails`: the text of a comment is not checked; with `*/` in it the rest is read as statements, with `/*` in it the rest of the file is read as a comment. Names of source files get into comments with the warnings.

### Timing and other annotations (SmackInstGenerator.cpp 93-165, AddTiming.cpp)

* `c98_entry_fails`: visitBasicBlock annotates the first located instruction of the entry block with all its metadata, and processInstruction does so again; its timing cost counts twice. `c98_quote_fails`: strings are printed without escapes, the text of an instruction with a quotation mark (inline assembly, quoted names) makes the annotation unreadable. `c98_large_fails`: integers from 2^63 on are printed as negative numbers. `c98_minus_one_fails`: a cost of -1 is taken for missing information.

### Static entry points in several files (ExternalizePass.cpp 54-67, frontend.py 89-103)

* `c99_link_fails`: the tool runs on each bitcode file; if two files have a static (or weak, or inline) function with the name of an entry point, both become external and llvm-link reports a duplicate symbol, although the program was fine.

### JSON compilation databases (frontend.py 283-308)

* `c100_size_fails`: only levels that are digits are replaced, `-Os`, `-Oz`, `-O` and `-Ofast` stay. `c100_blanks_fails`: the output is only found after exactly one blank. `c100_quotes_fails`: the command is split at blanks without regard to quotes.

### Cargo packages with a named library and a program (frontend.py 325-332)

* `c101_binary_fails`: find_target takes the name of the library if the manifest gives one; the bitcode of the package's program, with its main function, is not linked.

### Error traces of Boogie (errtrace.py 94, 104-122)

* `c102_name_fails`: file names are matched by a class without blanks, `+`, `@`, `:` and others; steps in such files are dropped from the trace. `c102_other_fails`: the search for an annotation goes ten lines on without regard to the ends of blocks and procedures, so that a step can be shown at a place in another procedure.

### The harness of a replay (replay.py 144-160)

* `c103_entries_fails`: for a trace with several entry points only a warning is printed, and the harness defines `smack_replay_main` and `_smack_replay_main` once for each of them, which no compiler accepts; the replay fails. `c103_wrapper_fails`: the same for a missing function with the name of a wrapper. `c103_quote_fails` (replay.py 55): the names of missing functions are read from `repr` of the output; if it has a double quote anywhere, `repr` escapes single quotes, names get a backslash at their end, and the stubs have wrong names.

## Axioms per theorem

Output of `#print axioms`, grouped.

### No axioms

`c11_unknown_length_fails` `c14_or_fails` `c25_rmode_fails` `c49_codes_distinct` `c57_memory_fails`

### propext

`c06_lit_wide_fails` `c08_addr_assoc_bv` `c101_target` `c102_merged` `c12_right_shift_fails` `c16_wrap_fails` `c17_truncated_length_fails` `c21_malloc_zero_fails` `c25_string_fails` `c26_invoke_fails` `c29_function_fails` `c34_fcmp` `c34_nan` `c40_return_type_fails` `c43_args` `c44_wrap_fails` `c45_int` `c52_errorcheck_codes` `c52_misuse_reported` `c52_tid_zero_fails` `c52_no_asserts_fails` `c53_join_partial` `c53_join_self` `c53_join_blocks` `c53_return_value_fails` `c53_exit_returns_fails` `c53_main_exit_fails` `c55_calloc_int_partial` `c55_calloc_bv_partial` `c55_realloc_partial` `c55_realloc_contents` `c57_cmp_fails` `c57_memory_partial` `c58_rmw_float_fails` `c58_cmpxchg_result_fails` `c58_cmpxchg_type_fails` `c60_inner_fails` `c63_bv` `c72_first_lookup_fails` `c75_remainder_special` `c75_fabs`

### propext, Quot.sound

`c01_select_fails` `c04_tou` `c05_overflow_disagrees` `c05_sext_i1_fails` `c06_integerLit` `c08_spread_int` `c08_spread_bv` `c08_addr_assoc_int` `c102_line` `c102_name_fails` `c12_large_amount_fails` `c12_ashr_encoded_unbounded` `c14_unbounded_fails` `c15_value` `c15_unbounded_value_fails` `c16_every_global_placed` `c16_registered_block` `c16_extern_size_fails` `c17_one_post_bv` `c24_substitution` `c24_too_many` `c24_fails` `c27_no_phi_fails` `c30_bitreverse` `c30_involution` `c31_bswap` `c31_other_width_fails` `c32_unique` `c33_bv_partial` `c33_bv_one_fails` `c33_unbounded_partial` `c33_wrapped_one_fails` `c33_wide_fails` `c35_insert` `c35_exists` `c35_extract` `c37_repeated_fails` `c37_base_fails` `c38_load` `c41_reuse_partial` `c41_cast_fails` `c43_narrow_fails` `c44_empty_fails` `c45_int_wide` `c45_bv` `c45_intBv` `c52_exclusion_partial` `c52_owner` `c52_handover` `c54_strncmp_fails` `c54_strncmp_ub_fails` `c55_calloc_overflow_fails` `c55_realloc_fails` `c57_binary` `c57_binary_accepted_partial` `c57_binary_float_fails` `c57_cmp_partial` `c57_shuffle_partial` `c57_shuffle_undef_fails` `c57_insert` `c57_extract` `c57_cast_fails` `c58_rmw_bool_partial` `c58_rmw_unbounded_umax_fails` `c58_cmpxchg_bv_partial` `c58_cmpxchg_int_partial` `c59_should_check` `c59_entry_point` `c66_unreduced_assert_fails` `c66_unreduced_assume_fails` `c72_type_names` `c72_type_names_fails` `c74_grow_fails` `c74_zero_capacity_fails` `c74_repeat_partial` `c74_repeat_fails` `c74_alloc_zeroed_fails` `c74_box` `c74_box_fails` `c75_fmin_fmax` `c75_fdim_partial` `c75_fpclassify` `c75_fenv` `c75_long_double_fails` `c78_tokens_exist` `c79_getenv_possible_partial` `c79_getenv_long_fails` `c79_strerror_fails` `c79_exit` `c80_split` `c80_split_last` `c80_expr` `c80_clauses` `c80_kinds` `c80_extracted_partial` `c80_effects_fails` `c80_invariant_partial` `c80_invariant_fails` `c80_header_fails` `c80_two_invariants_fails` `c80_loop_before_fails` `c80_code_type_partial` `c80_code_type_fails` `c81_smack_name_fails` `c81_erased_use_fails` `c84_smack_name` `c84_vector_fails` `c87_int` `c90_preserved` `c95_order` `c98_block_partial` `c98_entry_fails`

### propext, Classical.choice, Quot.sound

`c01_wrapped_congruent` `c01_total` `c01_wrapped_congruent_sdiv_exact` `c02_sdiv_iff_partial` `c02_sdiv_unbounded_iff_partial` `c02_srem` `c02_srem_unbounded` `c02_sdiv_fails` `c03_pred_icmp` `c04_tos` `c04_idempotent` `c05_unbounded_exact` `c06_lit_congruent` `c06_lit_signed_exact` `c06_litBv_exact` `c06_lit_total` `c07_literal_exact_partial` `c07_literal_exact_generic` `c07_x86_fp80_fails` `c07_x86_fp80_inf_fails` `c08_round_trip_partial` `c08_frame` `c08_little_endian` `c08_narrow_load` `c08_width33_fails` `c08_unaligned_width_fails` `c09_regions_disjoint_partial` `c09_alias_same_region_partial` `c09_lookup_contains` `c09_unknown_length_fails` `c10_lookup_stable_partial` `c10_index_valid_partial` `c10_zero_length_fails` `c100_command` `c100_commands` `c100_linked` `c100_size_fails` `c100_blanks_fails` `c100_quotes_fails` `c101_selected` `c101_commands` `c101_binary_fails` `c101_stops` `c102_trace` `c102_other_fails` `c102_text` `c103_accepted` `c103_linked` `c103_calls` `c103_missing_partial` `c103_entries_fails` `c103_wrapper_fails` `c103_quote_fails` `c11_range_covers_partial` `c11_attributes` `c12_shl_preserved` `c12_ashr_iff_partial` `c12_lshr_iff_partial` `c12_ashr_encoded` `c13_mask_preserved` `c13_mask_applies` `c14_and8` `c14_and16` `c14_and32_fails` `c14_and64_fails` `c14_or32_bits_partial` `c14_or64_bits_partial` `c14_or16_bits_partial` `c14_or8_bits_partial` `c14_or32_fails` `c15_flag` `c15_flag_defined` `c15_value_machine` `c15_check_encoded` `c15_check_unbounded` `c15_assertion` `c16_defined_disjoint` `c16_defined_negative` `c16_externs_below` `c16_externs_disjoint_partial` `c16_isExternal` `c17_memcpy_int` `c17_memcpy_bv` `c17_memset_int` `c17_memset_bv` `c17_one_post_int` `c17_memset_element_fails` `c18_live_disjoint_partial` `c18_never_reused` `c18_reuse_null_free_fails` `c19_malloc_possible` `c19_reuse_malloc_possible_partial` `c19_reuse_zero_blocks_fails` `c20_inside_passes_partial` `c20_check_exact_partial` `c20_bad_access_reported` `c20_null_free_fails` `c20_use_after_return_fails` `c20_negative_length_fails` `c20_empty_access_fails` `c21_free_accepted_partial` `c21_double_free_rejected` `c21_global_free_rejected` `c21_leak_check_partial` `c21_stack_free_fails` `c21_leak_hidden_fails` `c22_stable` `c22_named_collision_iff` `c22_distinct_partial` `c22_escape_fails` `c22_keyword_fails` `c22_dollar_fails` `c22_parameter_hides_global_fails` `c23_escaped` `c23_legal_partial` `c23_other_characters_fails` `c23_digit_fails` `c23_reserved` `c23_extends_fails` `c24_printed_args` `c25_parse_print` `c25_injective` `c25_prefix_free` `c25_neg_subscript_fails` `c26_executions` `c26_normalised_executions` `c26_unnormalised_fails` `c27_preserves` `c27_split_partial` `c27_normalised` `c28_unique_fails` `c28_function_fails` `c28_other_pred_partial` `c28_phi_fails` `c29_always_default_fails` `c29_no_match_partial` `c32_ctlz` `c32_cttz` `c32_zero` `c33_wrapped_partial` `c34_formats` `c35_int_rich` `c35_finite_fails` `c36_step` `c36_pass` `c36_total` `c37_undef_partial` `c37_complete_partial` `c38_store` `c38_leaves` `c38_inserted` `c39_static_init` `c40_dispatch_partial` `c40_no_target` `c40_devirt_partial` `c40_vararg_fails` `c42_merge_partial` `c42_narrow_fails` `c43_int_partial` `c43_bv_partial` `c43_mod_partial` `c43_stride_fails` `c44_sound_partial` `c44_complete_partial` `c45_bvInt_partial` `c45_bvInt_fails` `c45_conv` `c46_exact` `c46_terminates` `c46_marked_partial` `c46_effect_fails` `c47_protected_partial` `c47_used` `c47_reach` `c47_global` `c47_fixpoint` `c47_verifier_fails` `c48_selection_exact` `c48_selection_lines` `c48_requested_kept_partial` `c48_other_lines_kept` `c48_unrequested_disabled` `c48_mixed_fails` `c49_verified_exact` `c49_timeout_exact` `c49_error_only_on_failure` `c49_failure_is_error` `c49_unknown` `c49_corral_kind` `c49_corral_plain` `c49_boogie_kind` `c49_no_errors_message` `c49_messages_distinct` `c49_error_message` `c49_boogie_summary_verified` `c49_boogie_summary_errors` `c49_inconclusive_fails` `c49_success_wins_fails` `c50_verdict_exact` `c50_verified_partial` `c50_timeout_fails` `c50_below_bar` `c50_memsafety_fails` `c51_merge` `c51_no_loss` `c51_idempotent` `c51_other_fields_fails` `c51_transform` `c51_transform_fails` `c54_strlen` `c54_strcpy` `c54_strncpy` `c54_strcat` `c54_strncat_partial` `c54_strncat_fails` `c54_memcmp` `c54_strcmp_signed` `c54_strcmp_partial` `c54_strcmp_fails` `c54_strncmp_partial` `c54_strchr_partial` `c54_strrchr_partial` `c54_strchr_nul_fails` `c54_strchr_conv_fails` `c54_strspn` `c54_strcspn` `c54_strpbrk` `c54_strstr_partial` `c54_strstr_fails` `c56_unbounded_partial` `c56_wrapped` `c56_bitvector` `c56_short_int_fails` `c56_bool` `c56_rust_unbounded` `c57_index_int` `c57_index_bv_fails` `c57_memory_singleton_fails` `c57_type_names` `c57_shuffle_names` `c57_cast_axioms_fails` `c57_axioms_int` `c57_bitcast_axioms_bv` `c57_cast_single` `c57_cast_single_type_fails` `c58_rmw_bv` `c58_rmw_int_partial` `c58_rmw_bitwise_fails` `c58_bytes_lawful` `c58_cmpxchg_representatives_fails` `c58_atomicity_fails` `c59_record_entry` `c59_record_entry_fails` `c60_top_partial` `c61_contents_partial` `c61_each_once_partial` `c61_order` `c61_once_partial` `c61_variadic_fails` `c61_recursion_fails` `c61_memory_model_fails` `c62_panic_iff` `c62_alloc_iff` `c62_alloc_unique` `c62_bare_prefix_fails` `c63_int_partial` `c63_int_fails` `c64_selected` `c64_function_partial` `c64_module_partial` `c64_heap_partial` `c64_boogie_partial` `c64_atomic_fails` `c65_forward_partial` `c65_backward_partial` `c65_int_overlap_fails` `c65_no_inference_fails` `c65_no_split_fails` `c66_forward_partial` `c66_backward_partial` `c67_forward_partial` `c67_backward_partial` `c68_terminates` `c68_callers` `c68_names` `c68_distinct` `c68_calls_partial` `c68_value` `c68_params_partial` `c68_invoke_fails` `c68_name_clash_fails` `c68_cast_fails` `c68_return_value_fails` `c68_params_fails` `c69_forward_partial` `c69_backward_partial` `c69_forward_int_partial` `c69_backward_int_partial` `c70_forward_partial` `c70_backward_partial` `c70_calm_partial` `c70_call_fails` `c70_external_fails` `c70_handler_fails` `c71_well_typed_partial` `c71_integer_mode` `c71_load33_fails` `c71_wrapped_pointer_eq_fails` `c71_axioms_typed` `c71_unique_names` `c71_names_injective` `c71_type_names` `c71_not_recursive` `c72_expressions` `c72_width_fails` `c72_ptrtoint_fails` `c72_bitcast_fails` `c72_regions` `c72_instructions_partial` `c72_integer_mode` `c72_cmpxchg_fails` `c72_rounding_mode_fails` `c72_ctpop_fails` `c72_no_inference_fails` `c72_collapsed_pointer_fails` `c72_collapsed_scalar_fails` `c73_builtins_partial` `c73_bvidiv_fails` `c73_only_bvidiv` `c73_frem_fails` `c74_program_partial` `c74_panic_partial` `c74_no_leak_partial` `c74_drop_order_fails` `c74_leak_fails` `c74_alloc` `c74_realloc_fails` `c75_values` `c75_unit_exists` `c75_rounding` `c75_rint` `c75_lround` `c75_remainder` `c75_fmod` `c75_fmod_special` `c75_frem_fails` `c75_modf` `c75_fdim_fails` `c75_sign` `c75_nan_sign_fails` `c75_encoding_fails` `c75_classes` `c75_fesetround` `c76_annotations` `c76_contracts` `c76_abort_iff` `c76_called` `c76_not_called` `c76_ordinary_partial` `c76_substring_fails` `c76_expr_fails` `c76_assertion` `c76_invoke_fails` `c76_asm` `c76_external_iff` `c76_record_iff` `c76_external_null_fails` `c77_function` `c77_deterministic` `c77_panics_partial` `c77_only_marker` `c77_only_panics` `c77_invoke_fails` `c77_smack_name_fails` `c77_unlisted_fails` `c77_unaffected` `c78_tokens_partial` `c78_call` `c78_null` `c78_stale_fails` `c79_strto_possible_partial` `c79_strto_sound` `c79_strto_defined` `c79_strto_long_fails` `c81_defined` `c81_complete_partial` `c81_sound_partial` `c81_off` `c81_reported_partial` `c81_ubsan_unchecked_fails` `c82_parse` `c82_group_rejected_fails` `c82_lines` `c82_requested_partial` `c82_unrequested_off` `c82_other_lines` `c82_mixed_fails` `c82_svcomp_reach` `c82_svcomp_other` `c82_svcomp_deref_fails` `c83_lines` `c83_entry` `c83_bound` `c83_modular_support` `c83_unmarked` `c83_prefix_fails` `c83_renamed_fails` `c84_complete_partial` `c84_sound_partial` `c84_differs_fails` `c84_replaced` `c84_defined` `c84_and32_fails` `c85_path` `c85_violation_fails` `c85_witness_partial` `c85_pthread_fails` `c85_call_name_fails` `c86_steps_partial` `c86_failsAt` `c86_done_fails` `c87_values_partial` `c87_no_entry` `c87_two_fails` `c87_bv_fails` `c87_wide_fails` `c88_consistent` `c88_extends` `c88_determined` `c89_bitvector` `c89_address_partial` `c89_narrow_index_fails` `c89_integer` `c89_wrapped_partial` `c89_unbounded_partial` `c90_result` `c90_control` `c90_address` `c90_load` `c90_store` `c90_rmw` `c90_cmpxchg_partial` `c90_store_load` `c91_cell` `c91_pointer_store` `c91_pointer_load` `c91_pointer_fails` `c91_float_store` `c91_float_load` `c91_float_store_load` `c91_not_blocking` `c91_no_assume_fails` `c91_unsafe_fails` `c91_one_byte_fails` `c91_read_byte_fails` `c91_x87_fails` `c92_verdict` `c92_zero` `c92_error` `c92_svcomp` `c92_slow` `c92_failed_command` `c92_sigterm_fails` `c92_usage_fails` `c92_language_fails` `c92_modular_fails` `c92_one_fails` `c92_symbooglix_fails` `c93_files` `c93_fortran_fails` `c94_translation` `c94_translator` `c94_translator_only` `c94_compiler` `c94_threads` `c94_boogie` `c94_boogie_fails` `c94_report` `c94_platform` `c94_names` `c94_bounds` `c94_solver` `c94_solver_fails` `c95_options` `c95_passes` `c95_final` `c95_visible` `c95_debug_fails` `c96_message` `c96_hint` `c96_binary_partial` `c96_binary_text` `c96_frem_fails` `c96_vector_fails` `c96_intrinsic` `c96_levels` `c96_comment` `c97_statement` `c97_injective` `c97_declaration` `c97_program` `c97_program_injective` `c97_comment_fails` `c97_nested_comment_fails` `c98_debug` `c98_metadata` `c98_location` `c98_only` `c98_stops` `c98_large_fails` `c98_readable` `c98_quote_fails` `c98_own_functions` `c98_timing` `c98_minus_one_fails` `c99_view` `c99_wellformed` `c99_changed` `c99_idempotent` `c99_link_fails`
