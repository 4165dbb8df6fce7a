{
 "claims": [
  {
   "property": "C01",
   "status": "proved",
   "theorems": [
    "Smack.IntOps.c01_wrapped_congruent",
    "Smack.IntOps.c01_total",
    "Smack.IntOps.c01_wrapped_congruent_sdiv_exact",
    "Smack.IntOps.c01_select_fails"
   ],
   "note": "Covers all integer operators except sdiv (not in the claim), plus select and i1 connectives on truth values. c01_select_fails: select compares an unnormalised i1 with 1."
  },
  {
   "property": "C02",
   "status": "partial",
   "theorems": [
    "Smack.IntOps.c02_sdiv_iff_partial",
    "Smack.IntOps.c02_sdiv_unbounded_iff_partial",
    "Smack.IntOps.c02_srem",
    "Smack.IntOps.c02_srem_unbounded",
    "Smack.IntOps.c02_sdiv_fails"
   ],
   "note": "The claim is false for negative dividends with inexact quotients (c02_sdiv_fails); the exact set of correct inputs is characterised; srem is proved in full."
  },
  {
   "property": "C03",
   "status": "proved",
   "theorems": [
    "Smack.IntOps.c03_pred_icmp"
   ],
   "note": ""
  },
  {
   "property": "C04",
   "status": "proved",
   "theorems": [
    "Smack.IntOps.c04_tos",
    "Smack.IntOps.c04_tou",
    "Smack.IntOps.c04_idempotent"
   ],
   "note": ""
  },
  {
   "property": "C05",
   "status": "proved",
   "theorems": [
    "Smack.IntOps.c05_unbounded_exact",
    "Smack.IntOps.c05_overflow_disagrees",
    "Smack.IntOps.c05_sext_i1_fails"
   ],
   "note": "Truth values read as 0/1. Sign extension of a set i1 is excluded from 'free of overflow'; c05_sext_i1_fails shows the disagreement."
  },
  {
   "property": "C06",
   "status": "proved",
   "theorems": [
    "Smack.IntOps.c06_lit_congruent",
    "Smack.IntOps.c06_lit_signed_exact",
    "Smack.IntOps.c06_litBv_exact",
    "Smack.IntOps.c06_lit_total",
    "Smack.IntOps.c06_lit_wide_fails",
    "Smack.IntOps.c06_integerLit"
   ],
   "note": "A literal is printed for every constant up to 64 bits; wider constants in an unsigned context can trip an LLVM assertion (c06_lit_wide_fails)."
  },
  {
   "property": "C07",
   "status": "partial",
   "theorems": [
    "Smack.FloatLit.c07_literal_exact_partial",
    "Smack.FloatLit.c07_literal_exact_generic",
    "Smack.FloatLit.c07_x86_fp80_fails",
    "Smack.FloatLit.c07_x86_fp80_inf_fails"
   ],
   "note": "Proved for every bit pattern of half, float and double (and every IEEE format with 3 <= e, 5 <= s). For x86_fp80 the statement is false: every finite non-zero literal denotes another value, and infinity is printed as NaN; both negations are proved."
  },
  {
   "property": "C08",
   "status": "partial",
   "theorems": [
    "Smack.Bytes.c08_round_trip_partial",
    "Smack.Bytes.c08_frame",
    "Smack.Bytes.c08_little_endian",
    "Smack.Bytes.c08_narrow_load",
    "Smack.Bytes.c08_spread_int",
    "Smack.Bytes.c08_spread_bv",
    "Smack.Bytes.c08_addr_assoc_int",
    "Smack.Bytes.c08_addr_assoc_bv",
    "Smack.Bytes.c08_width33_fails",
    "Smack.Bytes.c08_unaligned_width_fails"
   ],
   "note": "Proved for every width that is a multiple of 8 and for widths below 8, over unbounded integer and bit-vector pointers. For wider widths that are not a multiple of 8 (33 is one) the statement is false; the negation is proved."
  },
  {
   "property": "C09",
   "status": "partial",
   "theorems": [
    "Smack.Regions.c09_regions_disjoint_partial",
    "Smack.Regions.c09_alias_same_region_partial",
    "Smack.Regions.c09_lookup_contains",
    "Smack.Regions.c09_unknown_length_fails"
   ],
   "note": "Proved for all histories of accesses whose end offset fits 32 bits. Accesses of unknown length at a non-zero offset wrap and are separated from aliasing accesses (negation proved)."
  },
  {
   "property": "C10",
   "status": "partial",
   "theorems": [
    "Smack.Regions.c10_lookup_stable_partial",
    "Smack.Regions.c10_index_valid_partial",
    "Smack.Regions.c10_zero_length_fails"
   ],
   "note": "Proved for accesses of at least one byte. Accesses of length 0 add a region at every lookup (negation proved)."
  },
  {
   "property": "C100",
   "status": "partial",
   "theorems": [
    "Smack.JsonDb.c100_command",
    "Smack.JsonDb.c100_commands",
    "Smack.JsonDb.c100_linked",
    "Smack.JsonDb.c100_size_fails",
    "Smack.JsonDb.c100_blanks_fails",
    "Smack.JsonDb.c100_quotes_fails"
   ],
   "note": "The regular expressions are modelled at the level of characters. Hypotheses of c100_command: words separated by single blanks; -o and -O1 to -O9 occur only as words of their own; -o is followed by an output, which ends with .o or has no .o in it. Negations: -Os, -Oz and -Ofast are kept; an output after two blanks is not renamed; quoted words with blanks are taken apart. Linking runs in the current directory and compilation in that of the entry (c100_commands), so that relative names need not mean the same file."
  },
  {
   "property": "C101",
   "status": "partial",
   "theorems": [
    "Smack.Cargo.c101_target",
    "Smack.Cargo.c101_selected",
    "Smack.Cargo.c101_commands",
    "Smack.Cargo.c101_binary_fails",
    "Smack.Cargo.c101_stops"
   ],
   "note": "Hypotheses on what Cargo writes: names of files are crate-hash.extension, without dashes in the names of crates and without dots in extensions. Negation of the last sentence: if the manifest names the library, the bitcode of a program of the package is not linked although it is built. Failing commands are left out here (see C92)."
  },
  {
   "property": "C102",
   "status": "partial",
   "theorems": [
    "Smack.BTrace.c102_line",
    "Smack.BTrace.c102_name_fails",
    "Smack.BTrace.c102_trace",
    "Smack.BTrace.c102_other_fails",
    "Smack.BTrace.c102_merged",
    "Smack.BTrace.c102_text"
   ],
   "note": "The regular expression for annotations is modelled at the level of characters and tied to the printer of annotations (C97, C98); the places in Boogie's output are given. Lines and columns below 2^31. Negations: names of files with other characters, such as blanks, are not understood and the step is not shown; a step in a block without annotation gets a place from what follows in the file, also from another procedure."
  },
  {
   "property": "C103",
   "status": "partial",
   "theorems": [
    "Smack.Harness.c103_accepted",
    "Smack.Harness.c103_linked",
    "Smack.Harness.c103_calls",
    "Smack.Harness.c103_missing_partial",
    "Smack.Harness.c103_entries_fails",
    "Smack.Harness.c103_wrapper_fails",
    "Smack.Harness.c103_quote_fails"
   ],
   "note": "Acceptance is that no name is defined twice; it is proved for at most one entry point in the trace and for missing functions without a dollar sign in their names and not named like a wrapper. Negations: with several entry points the wrappers are defined several times, and a missing function named like a wrapper is defined twice. Conversion of values to C is in C87; the missing functions are read from outputs of the GNU linker in printable characters without backslashes and double quotes. Negation: with a double quote in the output the names are read with a backslash at their end."
  },
  {
   "property": "C11",
   "status": "partial",
   "theorems": [
    "Smack.Regions.c11_range_covers_partial",
    "Smack.Regions.c11_attributes",
    "Smack.Regions.c11_unknown_length_fails"
   ],
   "note": "Proved for accesses whose end fits 32 bits; unknown lengths at a non-zero offset are lost in merging (negation proved)."
  },
  {
   "property": "C12",
   "status": "partial",
   "theorems": [
    "Smack.Bitwise.c12_shl_preserved",
    "Smack.Bitwise.c12_ashr_iff_partial",
    "Smack.Bitwise.c12_lshr_iff_partial",
    "Smack.Bitwise.c12_large_amount_fails",
    "Smack.Bitwise.c12_right_shift_fails",
    "Smack.Bitwise.c12_ashr_encoded",
    "Smack.Bitwise.c12_ashr_encoded_unbounded"
   ],
   "note": "shl proved. Right shifts: exact characterisation of the operands for which the replacement preserves the value; false for negative operands (witness proved). Combined with the rounding of the generated division, ashr is right end to end (c12_ashr_encoded)."
  },
  {
   "property": "C13",
   "status": "proved",
   "theorems": [
    "Smack.Bitwise.c13_mask_preserved",
    "Smack.Bitwise.c13_mask_applies"
   ],
   "note": ""
  },
  {
   "property": "C14",
   "status": "partial",
   "theorems": [
    "Smack.Bitwise.c14_and8",
    "Smack.Bitwise.c14_and16",
    "Smack.Bitwise.c14_and32_fails",
    "Smack.Bitwise.c14_and64_fails",
    "Smack.Bitwise.c14_or32_bits_partial",
    "Smack.Bitwise.c14_or64_bits_partial",
    "Smack.Bitwise.c14_or16_bits_partial",
    "Smack.Bitwise.c14_or8_bits_partial",
    "Smack.Bitwise.c14_or32_fails",
    "Smack.Bitwise.c14_or_fails",
    "Smack.Bitwise.c14_unbounded_fails"
   ],
   "note": "and8 and and16 proved (two's complement). and32 and and64 return 0 for all arguments, the or functions lose the lowest set bit of each argument, and in the unbounded encoding the and functions return 0 for non-negative arguments (negations proved)."
  },
  {
   "property": "C15",
   "status": "proved",
   "theorems": [
    "Smack.Overflow.c15_flag",
    "Smack.Overflow.c15_flag_defined",
    "Smack.Overflow.c15_value",
    "Smack.Overflow.c15_value_machine",
    "Smack.Overflow.c15_check_encoded",
    "Smack.Overflow.c15_check_unbounded",
    "Smack.Overflow.c15_assertion",
    "Smack.Overflow.c15_unbounded_value_fails"
   ],
   "note": "LLVM level for every width and operand; both integer encodings of flag and assertion. In the unbounded encoding the value after an overflow is not wrapped (c15_unbounded_value_fails), as documented for that encoding."
  },
  {
   "property": "C16",
   "status": "partial",
   "theorems": [
    "Smack.Globals.c16_every_global_placed",
    "Smack.Globals.c16_defined_disjoint",
    "Smack.Globals.c16_defined_negative",
    "Smack.Globals.c16_externs_below",
    "Smack.Globals.c16_externs_disjoint_partial",
    "Smack.Globals.c16_isExternal",
    "Smack.Globals.c16_registered_block",
    "Smack.Globals.c16_extern_size_fails",
    "Smack.Globals.c16_wrap_fails"
   ],
   "note": "Defined globals proved in full for sizes below 2^32-1024. Declared externals only reserve a pointer's alignment, so larger ones overlap (negation proved for every size above 8)."
  },
  {
   "property": "C17",
   "status": "partial",
   "theorems": [
    "Smack.MemIntr.c17_memcpy_int",
    "Smack.MemIntr.c17_memcpy_bv",
    "Smack.MemIntr.c17_memset_int",
    "Smack.MemIntr.c17_memset_bv",
    "Smack.MemIntr.c17_one_post_int",
    "Smack.MemIntr.c17_one_post_bv",
    "Smack.MemIntr.c17_truncated_length_fails",
    "Smack.MemIntr.c17_memset_element_fails"
   ],
   "note": "Proved for both representations of pointers, unrolled and quantified form. Fails for constant lengths that are multiples of 2^32, and for memset of regions with wider elements in the integer encodings (negations proved)."
  },
  {
   "property": "C18",
   "status": "partial",
   "theorems": [
    "Smack.Alloc.c18_live_disjoint_partial",
    "Smack.Alloc.c18_never_reused",
    "Smack.Alloc.c18_reuse_null_free_fails"
   ],
   "note": "All histories of all six allocator variants, except REUSE with memory safety after free(NULL), where the contract havocs $Alloc (negation proved)."
  },
  {
   "property": "C19",
   "status": "partial",
   "theorems": [
    "Smack.Alloc.c19_malloc_possible",
    "Smack.Alloc.c19_reuse_malloc_possible_partial",
    "Smack.Alloc.c19_reuse_zero_blocks_fails"
   ],
   "note": "Proved for the two no-reuse models. REUSE: positive sizes proved (memory safety, empty initial $Alloc); a second malloc(0) always blocks (negation proved)."
  },
  {
   "property": "C20",
   "status": "partial",
   "theorems": [
    "Smack.Alloc.c20_inside_passes_partial",
    "Smack.Alloc.c20_check_exact_partial",
    "Smack.Alloc.c20_bad_access_reported",
    "Smack.Alloc.c20_null_free_fails",
    "Smack.Alloc.c20_use_after_return_fails",
    "Smack.Alloc.c20_negative_length_fails",
    "Smack.Alloc.c20_empty_access_fails"
   ],
   "note": "Exactness for accesses of at least one byte, without free(NULL) in the contract models and without returned stack frames; negations proved for the excluded cases."
  },
  {
   "property": "C21",
   "status": "partial",
   "theorems": [
    "Smack.Alloc.c21_free_accepted_partial",
    "Smack.Alloc.c21_double_free_rejected",
    "Smack.Alloc.c21_global_free_rejected",
    "Smack.Alloc.c21_leak_check_partial",
    "Smack.Alloc.c21_stack_free_fails",
    "Smack.Alloc.c21_leak_hidden_fails",
    "Smack.Alloc.c21_malloc_zero_fails"
   ],
   "note": "free of stack storage is accepted and decrements the leak counter; free(malloc(0)) can be rejected in the default model (negations proved)."
  },
  {
   "property": "C22",
   "status": "partial",
   "theorems": [
    "Smack.Naming.c22_stable",
    "Smack.Naming.c22_named_collision_iff",
    "Smack.Naming.c22_distinct_partial",
    "Smack.Naming.c22_escape_fails",
    "Smack.Naming.c22_keyword_fails",
    "Smack.Naming.c22_dollar_fails",
    "Smack.Naming.c22_parameter_hides_global_fails"
   ],
   "note": "Stability proved. Distinctness for values whose names are not merged by escaping and do not start with $; the collisions are characterised exactly and witnessed."
  },
  {
   "property": "C23",
   "status": "partial",
   "theorems": [
    "Smack.Naming.c23_escaped",
    "Smack.Naming.c23_legal_partial",
    "Smack.Naming.c23_other_characters_fails",
    "Smack.Naming.c23_digit_fails",
    "Smack.Naming.c23_reserved",
    "Smack.Naming.c23_extends_fails"
   ],
   "note": "Legal for names of letters, digits and the punctuation handled by escape; other characters and leading digits are kept (negations proved)."
  },
  {
   "property": "C24",
   "status": "proved",
   "theorems": [
    "Smack.Printer.c24_substitution",
    "Smack.Printer.c24_too_many",
    "Smack.Printer.c24_printed_args",
    "Smack.Printer.c24_fails"
   ],
   "note": "Holds for argument texts without '@', which every printed expression without string literals satisfies (c24_printed_args). c24_fails: an argument text containing '@' captures the next argument. The single pass over the value list and the string search of the code are modelled; Boogie inline code itself is not parsed."
  },
  {
   "property": "C25",
   "status": "partial",
   "theorems": [
    "Smack.Printer.c25_parse_print",
    "Smack.Printer.c25_injective",
    "Smack.Printer.c25_prefix_free",
    "Smack.Printer.c25_string_fails",
    "Smack.Printer.c25_rmode_fails",
    "Smack.Printer.c25_neg_subscript_fails"
   ],
   "note": "Proved for expressions with legal, non-reserved identifiers and string literals without quotes; negations are not subscripted. Bound variables have identifier types (no map types). CodeExpr is not modelled. The negations show what breaks without these hypotheses."
  },
  {
   "property": "C26",
   "status": "partial",
   "theorems": [
    "Smack.Cfg.c26_executions",
    "Smack.Cfg.c26_normalised_executions",
    "Smack.Cfg.c26_unnormalised_fails",
    "Smack.Cfg.c26_invoke_fails"
   ],
   "note": "Exact outcome equivalence (returns and failing operations, any number of iterations) for SSA functions without switches, without duplicate successors and without phi nodes in invoke destinations; with NormalizeLoops composed. The two negations show what goes wrong without normalisation and for invoke destinations with phi nodes."
  },
  {
   "property": "C27",
   "status": "partial",
   "theorems": [
    "Smack.Cfg.c27_preserves",
    "Smack.Cfg.c27_split_partial",
    "Smack.Cfg.c27_normalised",
    "Smack.Cfg.c27_no_phi_fails"
   ],
   "note": "Behaviour and SSA form are preserved for any loop information. The structural part holds for headers with phi nodes; headers without phi nodes are not split (negation proved)."
  },
  {
   "property": "C28",
   "status": "partial",
   "theorems": [
    "Smack.Cfg.c28_unique_fails",
    "Smack.Cfg.c28_function_fails",
    "Smack.Cfg.c28_other_pred_partial",
    "Smack.Cfg.c28_phi_fails"
   ],
   "note": "False: with the branching block as unique predecessor both conditions are assumed and the path is blocked (proved for every such function). Holds when the target has another predecessor and no phi nodes."
  },
  {
   "property": "C29",
   "status": "partial",
   "theorems": [
    "Smack.Cfg.c29_always_default_fails",
    "Smack.Cfg.c29_no_match_partial",
    "Smack.Cfg.c29_function_fails"
   ],
   "note": "False of visitSwitchInst itself: its case loop never iterates, so every switch goes to the default block (proved in general). llvm2bpl runs LowerSwitch first, which masks this; LowerSwitch is LLVM code and not modelled."
  },
  {
   "property": "C30",
   "status": "proved",
   "theorems": [
    "Smack.Intrinsics.c30_bitreverse",
    "Smack.Intrinsics.c30_involution"
   ],
   "note": "All widths; the generated concatenation of bit extracts."
  },
  {
   "property": "C31",
   "status": "proved",
   "theorems": [
    "Smack.Intrinsics.c31_bswap",
    "Smack.Intrinsics.c31_other_width_fails"
   ],
   "note": "All widths that are multiples of 16 (LLVM's domain for llvm.bswap). For other widths the generated code is wrong; LLVM rejects those."
  },
  {
   "property": "C32",
   "status": "proved",
   "theorems": [
    "Smack.Intrinsics.c32_ctlz",
    "Smack.Intrinsics.c32_cttz",
    "Smack.Intrinsics.c32_unique",
    "Smack.Intrinsics.c32_zero"
   ],
   "note": "All widths, including the zero input with the is_zero_undef flag unset."
  },
  {
   "property": "C33",
   "status": "partial",
   "theorems": [
    "Smack.Intrinsics.c33_bv_partial",
    "Smack.Intrinsics.c33_bv_one_fails",
    "Smack.Intrinsics.c33_unbounded_partial",
    "Smack.Intrinsics.c33_wrapped_partial",
    "Smack.Intrinsics.c33_wrapped_one_fails",
    "Smack.Intrinsics.c33_wide_fails"
   ],
   "note": "Correct for widths 2..64 (bit vectors: all widths from 2). Width 1 fails in bit-vector and wrapped mode and widths above 64 shift a 64-bit constant out of range (negations proved)."
  },
  {
   "property": "C34",
   "status": "proved",
   "theorems": [
    "Smack.FpPred.c34_fcmp",
    "Smack.FpPred.c34_formats",
    "Smack.FpPred.c34_nan"
   ],
   "note": "All sixteen fcmp predicates, for every interpretation of the SMT-LIB functions obeying IEEE-754; instantiated for bit encodings of every format."
  },
  {
   "property": "C35",
   "status": "partial",
   "theorems": [
    "Smack.Aggr.c35_insert",
    "Smack.Aggr.c35_exists",
    "Smack.Aggr.c35_int_rich",
    "Smack.Aggr.c35_finite_fails",
    "Smack.Aggr.c35_extract"
   ],
   "note": "The value part holds for every interpretation, type and path. Existence of a result holds for infinite ref sorts (integer encodings); with bit-vector pointers it is false for every interpretation of $extractvalue (negation proved)."
  },
  {
   "property": "C36",
   "status": "proved",
   "theorems": [
    "Smack.Aggr.c36_step",
    "Smack.Aggr.c36_pass",
    "Smack.Aggr.c36_total"
   ],
   "note": "Every rule, any number of rewrites at any position."
  },
  {
   "property": "C37",
   "status": "partial",
   "theorems": [
    "Smack.Aggr.c37_undef_partial",
    "Smack.Aggr.c37_complete_partial",
    "Smack.Aggr.c37_repeated_fails",
    "Smack.Aggr.c37_base_fails"
   ],
   "note": "Holds for chains from undef (or covering all leaves) at pairwise incomparable paths; false for repeated indices and for other bases (both negations proved in general)."
  },
  {
   "property": "C38",
   "status": "proved",
   "theorems": [
    "Smack.Aggr.c38_load",
    "Smack.Aggr.c38_store",
    "Smack.Aggr.c38_leaves",
    "Smack.Aggr.c38_inserted"
   ],
   "note": "All layouts satisfying WF (elements inside the aggregate, no overlap). Vectors inside aggregates are treated as scalars by the model; the pass rejects them."
  },
  {
   "property": "C39",
   "status": "proved",
   "theorems": [
    "Smack.Aggr.c39_static_init"
   ],
   "note": "All lists of globals with well-typed initialisers at disjoint addresses; termination of the work list included."
  },
  {
   "property": "C40",
   "status": "partial",
   "theorems": [
    "Smack.Devirt.c40_dispatch_partial",
    "Smack.Devirt.c40_no_target",
    "Smack.Devirt.c40_devirt_partial",
    "Smack.Devirt.c40_vararg_fails",
    "Smack.Devirt.c40_return_type_fails"
   ],
   "note": "Any list of targets, any history of earlier call sites, new or reused bounce function. Missing: arguments beyond the fixed parameters of a variadic target are dropped and a bitcastable result is returned uncast (both negations proved)."
  },
  {
   "property": "C41",
   "status": "partial",
   "theorems": [
    "Smack.Devirt.c41_reuse_partial",
    "Smack.Devirt.c41_cast_fails"
   ],
   "note": "Any history. Holds when the called operand is not a pointer cast; otherwise the stripped type is compared and an incompatible bounce function can be reused (negation proved)."
  },
  {
   "property": "C42",
   "status": "partial",
   "theorems": [
    "Smack.Gep.c42_merge_partial",
    "Smack.Gep.c42_narrow_fails"
   ],
   "note": "All types, index lists and bases. False for indices narrower than a pointer whose sum overflows (negation proved in general)."
  },
  {
   "property": "C43",
   "status": "partial",
   "theorems": [
    "Smack.Gep.c43_int_partial",
    "Smack.Gep.c43_bv_partial",
    "Smack.Gep.c43_mod_partial",
    "Smack.Gep.c43_args",
    "Smack.Gep.c43_narrow_fails",
    "Smack.Gep.c43_stride_fails"
   ],
   "note": "All paths, all four encodings. False for negative dynamic indices narrower than a pointer, which are zero-extended, and for element types whose store size is not the allocation size or needs more than 32 bits (negations proved)."
  },
  {
   "property": "C44",
   "status": "partial",
   "theorems": [
    "Smack.TypeSafe.c44_sound_partial",
    "Smack.TypeSafe.c44_complete_partial",
    "Smack.TypeSafe.c44_wrap_fails",
    "Smack.TypeSafe.c44_empty_fails"
   ],
   "note": "All nodes whose fields end below 4 GiB; beyond, the unsigned sum wraps and an overlapping field is called safe (negation proved). The converse additionally needs non-empty types (negation proved)."
  },
  {
   "property": "C45",
   "status": "partial",
   "theorems": [
    "Smack.Gep.c45_int",
    "Smack.Gep.c45_int_wide",
    "Smack.Gep.c45_bv",
    "Smack.Gep.c45_bvInt_partial",
    "Smack.Gep.c45_bvInt_fails",
    "Smack.Gep.c45_intBv",
    "Smack.Gep.c45_conv"
   ],
   "note": "Proved for pure integer and pure bit-vector encodings and for bit-vector pointers with integers. With bit-vector integers and integer pointers it holds exactly for pointers in the signed range (both directions proved)."
  },
  {
   "property": "C46",
   "status": "partial",
   "theorems": [
    "Smack.Graphs.c46_exact",
    "Smack.Graphs.c46_terminates",
    "Smack.Graphs.c46_marked_partial",
    "Smack.Graphs.c46_effect_fails"
   ],
   "note": "The marking is characterised exactly (least fixpoint), with termination. The conclusion that no effect of user code is marked is false: invokes and side-effecting non-calls are marked (negation proved)."
  },
  {
   "property": "C47",
   "status": "partial",
   "theorems": [
    "Smack.Graphs.c47_protected_partial",
    "Smack.Graphs.c47_used",
    "Smack.Graphs.c47_reach",
    "Smack.Graphs.c47_global",
    "Smack.Graphs.c47_fixpoint",
    "Smack.Graphs.c47_verifier_fails"
   ],
   "note": "All call graphs. Of the verifier functions only __VERIFIER_assume is protected by name; other unused __VERIFIER_ functions are removed (negation proved)."
  },
  {
   "property": "C48",
   "status": "partial",
   "theorems": [
    "Smack.Driver.c48_selection_exact",
    "Smack.Driver.c48_selection_lines",
    "Smack.Driver.c48_requested_kept_partial",
    "Smack.Driver.c48_other_lines_kept",
    "Smack.Driver.c48_unrequested_disabled",
    "Smack.Driver.c48_mixed_fails"
   ],
   "note": "The selection is characterised exactly for every one-line assertion. It keeps requested memory-safety sub-properties; user, overflow and panic assertions requested together with one or two sub-properties are replaced by assert true (negation proved in general)."
  },
  {
   "property": "C49",
   "status": "partial",
   "theorems": [
    "Smack.Driver.c49_verified_exact",
    "Smack.Driver.c49_timeout_exact",
    "Smack.Driver.c49_error_only_on_failure",
    "Smack.Driver.c49_failure_is_error",
    "Smack.Driver.c49_unknown",
    "Smack.Driver.c49_corral_kind",
    "Smack.Driver.c49_corral_plain",
    "Smack.Driver.c49_boogie_kind",
    "Smack.Driver.c49_codes_distinct",
    "Smack.Driver.c49_no_errors_message",
    "Smack.Driver.c49_messages_distinct",
    "Smack.Driver.c49_error_message",
    "Smack.Driver.c49_boogie_summary_verified",
    "Smack.Driver.c49_boogie_summary_errors",
    "Smack.Driver.c49_inconclusive_fails",
    "Smack.Driver.c49_success_wins_fails"
   ],
   "note": "The classification is characterised exactly for all outputs (regular expressions proved correct against their language). Inconclusive procedures behind '0 errors' and contradictory outputs are reported as verified (negations proved)."
  },
  {
   "property": "C50",
   "status": "partial",
   "theorems": [
    "Smack.Driver.c50_verdict_exact",
    "Smack.Driver.c50_verified_partial",
    "Smack.Driver.c50_timeout_fails",
    "Smack.Driver.c50_below_bar",
    "Smack.Driver.c50_memsafety_fails"
   ],
   "note": "Exact verdict for all outputs. Runs that time out after recursion bound 13 are reported verified, and the memory-safety property selects the dereference check only (negations proved)."
  },
  {
   "property": "C51",
   "status": "partial",
   "theorems": [
    "Smack.Driver.c51_merge",
    "Smack.Driver.c51_no_loss",
    "Smack.Driver.c51_idempotent",
    "Smack.Driver.c51_other_fields_fails",
    "Smack.Driver.c51_transform",
    "Smack.Driver.c51_transform_fails"
   ],
   "note": "Merging proved for all traces. Thread and assumption of merged steps are lost, and transform drops what follows a second equals sign (negations proved)."
  },
  {
   "property": "C52",
   "status": "partial",
   "theorems": [
    "Smack.Pthread.c52_exclusion_partial",
    "Smack.Pthread.c52_owner",
    "Smack.Pthread.c52_handover",
    "Smack.Pthread.c52_errorcheck_codes",
    "Smack.Pthread.c52_misuse_reported",
    "Smack.Pthread.c52_tid_zero_fails",
    "Smack.Pthread.c52_no_asserts_fails"
   ],
   "note": "Every schedule of any number of threads with distinct nonzero ids. Thread id 0 (equal to UNLOCKED) and unlock by a non-owner with the assertions compiled out break exclusion (negations proved)."
  },
  {
   "property": "C53",
   "status": "partial",
   "theorems": [
    "Smack.Pthread.c53_join_partial",
    "Smack.Pthread.c53_join_self",
    "Smack.Pthread.c53_join_blocks",
    "Smack.Pthread.c53_return_value_fails",
    "Smack.Pthread.c53_exit_returns_fails",
    "Smack.Pthread.c53_main_exit_fails"
   ],
   "note": "Every schedule with distinct ids; values passed to pthread_exit. A value given by return is not delivered, pthread_exit returns to its caller, and main's pthread_exit fails the assertion (negations proved)."
  },
  {
   "property": "C54",
   "status": "partial",
   "theorems": [
    "Smack.CString.c54_strlen",
    "Smack.CString.c54_strcpy",
    "Smack.CString.c54_strncpy",
    "Smack.CString.c54_strcat",
    "Smack.CString.c54_strncat_partial",
    "Smack.CString.c54_strncat_fails",
    "Smack.CString.c54_memcmp",
    "Smack.CString.c54_strcmp_signed",
    "Smack.CString.c54_strcmp_partial",
    "Smack.CString.c54_strcmp_fails",
    "Smack.CString.c54_strncmp_partial",
    "Smack.CString.c54_strncmp_fails",
    "Smack.CString.c54_strncmp_ub_fails",
    "Smack.CString.c54_strchr_partial",
    "Smack.CString.c54_strrchr_partial",
    "Smack.CString.c54_strchr_nul_fails",
    "Smack.CString.c54_strchr_conv_fails",
    "Smack.CString.c54_strspn",
    "Smack.CString.c54_strcspn",
    "Smack.CString.c54_strpbrk",
    "Smack.CString.c54_strstr_partial",
    "Smack.CString.c54_strstr_fails"
   ],
   "note": "All strings and memories. strncmp and strncat run past the NUL, strchr and strrchr miss the terminator and do not convert to char, strcmp compares signed bytes, strstr fails when both strings are empty (negations proved). strtok and strerror are C78 and C79."
  },
  {
   "property": "C55",
   "status": "partial",
   "theorems": [
    "Smack.CAlloc.c55_calloc_int_partial",
    "Smack.CAlloc.c55_calloc_bv_partial",
    "Smack.CAlloc.c55_calloc_overflow_fails",
    "Smack.CAlloc.c55_realloc_partial",
    "Smack.CAlloc.c55_realloc_contents",
    "Smack.CAlloc.c55_realloc_fails"
   ],
   "note": "calloc proved in all six memory models; with bit-vectors it ignores overflow of num*size. realloc never copies the contents (negation proved in every memory model). Integer pointers only."
  },
  {
   "property": "C56",
   "status": "partial",
   "theorems": [
    "Smack.Nondet.c56_unbounded_partial",
    "Smack.Nondet.c56_wrapped",
    "Smack.Nondet.c56_bitvector",
    "Smack.Nondet.c56_short_int_fails",
    "Smack.Nondet.c56_bool",
    "Smack.Nondet.c56_rust_unbounded"
   ],
   "note": "All functions of the table. __VERIFIER_nondet_short_int is declared but has no body, so it is not restricted to the range in unbounded mode (negation proved). Floating-point functions are not modelled; Rust in unbounded mode only."
  },
  {
   "property": "C57",
   "status": "partial",
   "theorems": [
    "Smack.Vec.c57_binary",
    "Smack.Vec.c57_binary_accepted_partial",
    "Smack.Vec.c57_binary_float_fails",
    "Smack.Vec.c57_cmp_partial",
    "Smack.Vec.c57_cmp_fails",
    "Smack.Vec.c57_shuffle_partial",
    "Smack.Vec.c57_shuffle_undef_fails",
    "Smack.Vec.c57_insert",
    "Smack.Vec.c57_extract",
    "Smack.Vec.c57_index_int",
    "Smack.Vec.c57_index_bv_fails",
    "Smack.Vec.c57_memory_partial",
    "Smack.Vec.c57_memory_fails",
    "Smack.Vec.c57_memory_singleton_fails",
    "Smack.Vec.c57_type_names",
    "Smack.Vec.c57_shuffle_names",
    "Smack.Vec.c57_cast_axioms_fails",
    "Smack.Vec.c57_axioms_int",
    "Smack.Vec.c57_bitcast_axioms_bv",
    "Smack.Vec.c57_cast_fails",
    "Smack.Vec.c57_cast_single",
    "Smack.Vec.c57_cast_single_type_fails"
   ],
   "note": "All lane counts, types and values. Binary operations, shuffle, insert and extract are lanewise. Negations proved: vector comparisons use the constructor of the operand type (rejected by Boogie unless i1), floating-point arithmetic lacks the rounding mode with --float, undef shuffle masks abort, index literals are ill-typed with bit-vectors, the cast inverse axioms contradict each other with bit-vectors of different widths, casts are uninterpreted, loads and stores through a region of another type are uninterpreted."
  },
  {
   "property": "C58",
   "status": "partial",
   "theorems": [
    "Smack.Atomics.c58_rmw_bv",
    "Smack.Atomics.c58_rmw_int_partial",
    "Smack.Atomics.c58_rmw_bool_partial",
    "Smack.Atomics.c58_rmw_bitwise_fails",
    "Smack.Atomics.c58_rmw_unbounded_umax_fails",
    "Smack.Atomics.c58_rmw_float_fails",
    "Smack.Atomics.c58_bytes_lawful",
    "Smack.Atomics.c58_cmpxchg_bv_partial",
    "Smack.Atomics.c58_cmpxchg_int_partial",
    "Smack.Atomics.c58_cmpxchg_representatives_fails",
    "Smack.Atomics.c58_cmpxchg_result_fails",
    "Smack.Atomics.c58_cmpxchg_type_fails",
    "Smack.Atomics.c58_atomicity_fails"
   ],
   "note": "atomicrmw: all integer operations, memories (map, singleton, bytewise) and operands with bit-vectors; with integers all but the bitwise operations, which are uninterpreted (negation proved). cmpxchg: the memory effect is right with bit-vectors; with integers == compares unnormalised representatives; the results { old, success } are uninterpreted and the assignment is ill-typed with bit-vectors (negations proved). The two statements are not in an atomic section (negation proved for two threads)."
  },
  {
   "property": "C59",
   "status": "partial",
   "theorems": [
    "Smack.Naming.c59_should_check",
    "Smack.Naming.c59_entry_point",
    "Smack.Naming.c59_record_entry",
    "Smack.Naming.c59_record_entry_fails"
   ],
   "note": "Both predicates proved for all names and lists; one of the uses of isEntryPoint compares the escaped name (negation proved)."
  },
  {
   "property": "C60",
   "status": "partial",
   "theorems": [
    "Smack.Cfg.c60_top_partial",
    "Smack.Cfg.c60_inner_fails"
   ],
   "note": "Holds for top-level loops; inner loops are not annotated (negation proved)."
  },
  {
   "property": "C61",
   "status": "partial",
   "theorems": [
    "Smack.Init.c61_contents_partial",
    "Smack.Init.c61_each_once_partial",
    "Smack.Init.c61_order",
    "Smack.Init.c61_once_partial",
    "Smack.Init.c61_variadic_fails",
    "Smack.Init.c61_recursion_fails",
    "Smack.Init.c61_memory_model_fails"
   ],
   "note": "Order proved for all modules and all executions of entry points, over a step semantics with calls and control flow. Exactly once holds unless an init function is variadic or the program calls its entry point (negations proved). User init functions run before the memory model is initialised, so their blocks may be handed out again (negation proved)."
  },
  {
   "property": "C62",
   "status": "proved",
   "theorems": [
    "Smack.Naming.c62_panic_iff",
    "Smack.Naming.c62_alloc_iff",
    "Smack.Naming.c62_alloc_unique",
    "Smack.Naming.c62_bare_prefix_fails"
   ],
   "note": "The replacement table additionally accepts exact names."
  },
  {
   "property": "C63",
   "status": "partial",
   "theorems": [
    "Smack.Gep.c63_bv",
    "Smack.Gep.c63_int_partial",
    "Smack.Gep.c63_int_fails"
   ],
   "note": "Bit-vector pointers: always. Integer pointers: false for unsigned comparisons of a negative address (globals) with a non-negative one (negation proved)."
  },
  {
   "property": "C64",
   "status": "partial",
   "theorems": [
    "Smack.MemSafe.c64_selected",
    "Smack.MemSafe.c64_function_partial",
    "Smack.MemSafe.c64_module_partial",
    "Smack.MemSafe.c64_heap_partial",
    "Smack.MemSafe.c64_boogie_partial",
    "Smack.MemSafe.c64_atomic_fails"
   ],
   "note": "All modules, control flows, operands, call depths and executions, for loads, stores, memset, memcpy and memmove: the instrumented program fails exactly where the original makes an illegal access or an entry point returns with a leak, and otherwise has the same executions. Atomic instructions get no check (negation proved), hence the hypothesis that the program has none."
  },
  {
   "property": "C65",
   "status": "partial",
   "theorems": [
    "Smack.MemSplit.c65_forward_partial",
    "Smack.MemSplit.c65_backward_partial",
    "Smack.MemSplit.c65_int_overlap_fails",
    "Smack.MemSplit.c65_no_inference_fails",
    "Smack.MemSplit.c65_no_split_fails"
   ],
   "note": "Simulation in both directions for all modules and executions of integer and pointer accesses in bit-precise mode, and in integer mode if all accesses are type-safe. Negations proved: integer mode with overlapping accesses, --no-byte-access-inference with a scalar global, --no-memory-splitting with --bit-precise. Floating-point and aggregate accesses are not included."
  },
  {
   "property": "C66",
   "status": "partial",
   "theorems": [
    "Smack.E2E.c66_forward_partial",
    "Smack.E2E.c66_backward_partial",
    "Smack.E2E.c66_unreduced_assert_fails",
    "Smack.E2E.c66_unreduced_assume_fails"
   ],
   "note": "Both directions for all well-typed integer functions without memory, calls and exceptions, in the wrapped and the unbounded encoding. With wrapped integers the arguments of assertions and assumptions have to be reduced values (not results of add, sub, mul) and there is no arithmetic on i1; negations proved for unreduced arguments. Inexact signed division (wrapped) and overflow (unbounded) are excluded as in C02 and C05."
  },
  {
   "property": "C67",
   "status": "partial",
   "theorems": [
    "Smack.E2EBv.c67_forward_partial",
    "Smack.E2EBv.c67_backward_partial"
   ],
   "note": "Both directions for all well-typed functions with bit-vector integers and pointers, with loads and stores on regions, alloca, malloc and free (default memory model), address computations, verifier functions and any control flow. Missing: calls (C69), exceptions, floating point, aggregates, the end of the lifetime of stack blocks. The code differs from LLVM, so these are excluded: narrow negative indices (C43), accesses outside the points-to graph, malloc(0) (returns any pointer), and in the forward direction executions in which malloc fails, an address is used again or blocks are not at increasing addresses."
  },
  {
   "property": "C68",
   "status": "partial",
   "theorems": [
    "Smack.Calls.c68_terminates",
    "Smack.Calls.c68_callers",
    "Smack.Calls.c68_names",
    "Smack.Calls.c68_distinct",
    "Smack.Calls.c68_calls_partial",
    "Smack.Calls.c68_value",
    "Smack.Calls.c68_params_partial",
    "Smack.Calls.c68_invoke_fails",
    "Smack.Calls.c68_name_clash_fails",
    "Smack.Calls.c68_cast_fails",
    "Smack.Calls.c68_return_value_fails",
    "Smack.Calls.c68_params_fails"
   ],
   "note": "Proved for all calls of functions without cast to another type (LLVM's typing rule is the hypothesis), invokes of functions that are not variadic, and the value annotations, in modules where no function name extends that of a variadic function by a dot. The code violates the full statement: an invoke of a variadic function is never legal (its name counts the two destinations; proved in general), and there are concrete witnesses for a name clash, a call through a cast, __SMACK_return_value without __SMACK_value and a clash of parameter names."
  },
  {
   "property": "C69",
   "status": "partial",
   "theorems": [
    "Smack.E2EMod.Bv.c69_forward_partial",
    "Smack.E2EMod.Bv.c69_backward_partial",
    "Smack.E2EMod.Ints.c69_forward_int_partial",
    "Smack.E2EMod.Ints.c69_backward_int_partial"
   ],
   "note": "Both directions are proved for direct calls of functions with definitions, without bound on depth: with bit-vectors and region-split memory (the programs of C67), and with unbounded or wrapped integers (those of C66), where the local variables of a procedure start with arbitrary integers. Missing: exceptions (a separate property), indirect calls (C40), variadic functions (C68), the end of the lifetime of stack blocks, switch instructions and functions without definition."
  },
  {
   "property": "C70",
   "status": "partial",
   "theorems": [
    "Smack.Exn.c70_forward_partial",
    "Smack.Exn.c70_backward_partial",
    "Smack.Exn.c70_calm_partial",
    "Smack.Exn.c70_call_fails",
    "Smack.Exn.c70_external_fails",
    "Smack.Exn.c70_handler_fails"
   ],
   "note": "Both directions and the absence of exceptions from functions without resume are proved for all programs where plain calls are of functions without resume instruction (transitively), invokes are of functions with definition, and destinations of invokes have no phi nodes. The full statement is false of the code: plain calls do not check $exn, procedures without body do not set it, and landing pads that are not cleanups leave it set; each has a witness whose LLVM and Boogie executions are compared."
  },
  {
   "property": "C71",
   "status": "partial",
   "theorems": [
    "Smack.PreludeTy.c71_well_typed_partial",
    "Smack.PreludeTy.c71_integer_mode",
    "Smack.PreludeTy.c71_load33_fails",
    "Smack.PreludeTy.c71_wrapped_pointer_eq_fails",
    "Smack.PreludeTy.c71_axioms_typed",
    "Smack.PreludeTy.c71_unique_names",
    "Smack.PreludeTy.c71_names_injective",
    "Smack.PreludeTy.c71_type_names",
    "Smack.PreludeTy.c71_not_recursive"
   ],
   "note": "c71_well_typed_partial is an exact characterisation: a declaration is accepted if and only if it is not one of two kinds, for all modes. The full statement is false of the code for these two kinds ($load.bytes.bv33 in bit-vector mode; $eq/$ne on bit-vectors with wrapped integers and bit-vector pointers), proved in c71_load33_fails and c71_wrapped_pointer_eq_fails; in the other modes the whole prelude is accepted (c71_integer_mode). Axioms, uniqueness of names and absence of recursion are proved without exception."
  },
  {
   "property": "C72",
   "status": "partial",
   "theorems": [
    "Smack.Emit.c72_type_names",
    "Smack.Emit.c72_type_names_fails",
    "Smack.Emit.c72_expressions",
    "Smack.Emit.c72_width_fails",
    "Smack.Emit.c72_ptrtoint_fails",
    "Smack.Emit.c72_bitcast_fails",
    "Smack.Emit.c72_regions",
    "Smack.Emit.c72_first_lookup_fails",
    "Smack.Emit.c72_instructions_partial",
    "Smack.Emit.c72_integer_mode",
    "Smack.Emit.c72_cmpxchg_fails",
    "Smack.Emit.c72_rounding_mode_fails",
    "Smack.Emit.c72_ctpop_fails",
    "Smack.Emit.c72_no_inference_fails",
    "Smack.Emit.c72_collapsed_pointer_fails",
    "Smack.Emit.c72_collapsed_scalar_fails"
   ],
   "note": "c72_instructions_partial is an exact characterisation over the widths and conversions that the prelude declares: the generated statements are accepted if and only if the instruction is not one of the listed clashes. The full statement is false of the code, proved for each clash and for the undeclared widths and conversions. Calls, vectors and memory intrinsics are in other areas (Calls, Vec, MemIntr) and not type-checked here."
  },
  {
   "property": "C73",
   "status": "partial",
   "theorems": [
    "Smack.PreludeTy.c73_builtins_partial",
    "Smack.PreludeTy.c73_bvidiv_fails",
    "Smack.PreludeTy.c73_only_bvidiv",
    "Smack.PreludeTy.c73_frem_fails"
   ],
   "note": "Proved for every built-in function except $idiv.bvN, in all modes. The full statement is false of the code: $idiv.bvN is mapped to an operator that does not exist (and this is the only such function, c73_only_bvidiv), and $frem is mapped to the IEEE remainder, which differs from LLVM's frem."
  },
  {
   "property": "C74",
   "status": "partial",
   "theorems": [
    "Smack.RustVec.c74_program_partial",
    "Smack.RustVec.c74_panic_partial",
    "Smack.RustVec.c74_no_leak_partial",
    "Smack.RustVec.c74_grow_fails",
    "Smack.RustVec.c74_zero_capacity_fails",
    "Smack.RustVec.c74_drop_order_fails",
    "Smack.RustVec.c74_leak_fails",
    "Smack.RustVec.c74_repeat_partial",
    "Smack.RustVec.c74_repeat_fails",
    "Smack.RustVec.c74_alloc",
    "Smack.RustVec.c74_alloc_zeroed_fails",
    "Smack.RustVec.c74_realloc_fails",
    "Smack.RustVec.c74_box",
    "Smack.RustVec.c74_box_fails"
   ],
   "note": "The full statement is false of the code: growing loses the elements (`__VERIFIER_memcpy` is defined nowhere) and leaks the old block, a vector of capacity 0 cannot be pushed to, elements are dropped in the opposite order, `vec![val; count]` evaluates `val` for each element, `alloc_zeroed` and `realloc` do not meet their contracts, boxes are never dropped. Each is proved. Proved positively: the refinement to std for all programs that stay within the capacities given (and for all programs with positive capacities if memcpy copied), panics, and absence of leaks without growth."
  },
  {
   "property": "C75",
   "status": "partial",
   "theorems": [
    "Smack.Math.c75_values",
    "Smack.Math.c75_unit_exists",
    "Smack.Math.c75_rounding",
    "Smack.Math.c75_rint",
    "Smack.Math.c75_lround",
    "Smack.Math.c75_remainder",
    "Smack.Math.c75_remainder_special",
    "Smack.Math.c75_fmod",
    "Smack.Math.c75_fmod_special",
    "Smack.Math.c75_frem_fails",
    "Smack.Math.c75_modf",
    "Smack.Math.c75_fmin_fmax",
    "Smack.Math.c75_fdim_partial",
    "Smack.Math.c75_fdim_fails",
    "Smack.Math.c75_sign",
    "Smack.Math.c75_nan_sign_fails",
    "Smack.Math.c75_encoding_fails",
    "Smack.Math.c75_fpclassify",
    "Smack.Math.c75_classes",
    "Smack.Math.c75_fabs",
    "Smack.Math.c75_fenv",
    "Smack.Math.c75_fesetround",
    "Smack.Math.c75_long_double_fails"
   ],
   "note": "The full statement is false of the code: `frem` is translated to the IEEE remainder, `fdim` may give -0, the sign of a NaN is lost, with the integer encoding `signbit` (and with it fmod, modf and copysign) is arbitrary, and `long double` has one significand bit too many. Each is proved. Proved in full for all values, formats and rounding modes: the rounding functions, remainder, fmod, modf, fmin/fmax, classification, signs of non-NaNs, and the rounding-mode functions. `sqrt` is a single call of `fp.sqrt` and not modelled."
  },
  {
   "property": "C76",
   "status": "partial",
   "theorems": [
    "Smack.Dispatch.c76_annotations",
    "Smack.Dispatch.c76_contracts",
    "Smack.Dispatch.c76_abort_iff",
    "Smack.Dispatch.c76_called",
    "Smack.Dispatch.c76_not_called",
    "Smack.Dispatch.c76_ordinary_partial",
    "Smack.Dispatch.c76_substring_fails",
    "Smack.Dispatch.c76_expr_fails",
    "Smack.Dispatch.c76_assertion",
    "Smack.Dispatch.c76_invoke_fails",
    "Smack.Dispatch.c76_asm",
    "Smack.Dispatch.c76_external_iff",
    "Smack.Dispatch.c76_record_iff",
    "Smack.Dispatch.c76_external_null_fails"
   ],
   "note": "The full statement is false of the code: names merely containing an annotation name, names beginning with `$expr` and inline assembly are not called; invoke ignores annotations and the function filter; results of undefined functions are assumed to be external addresses, which excludes null. Each is proved, together with the exact condition for a call."
  },
  {
   "property": "C77",
   "status": "partial",
   "theorems": [
    "Smack.Dispatch.c77_function",
    "Smack.Dispatch.c77_deterministic",
    "Smack.Dispatch.c77_panics_partial",
    "Smack.Dispatch.c77_only_marker",
    "Smack.Dispatch.c77_only_panics",
    "Smack.Dispatch.c77_invoke_fails",
    "Smack.Dispatch.c77_smack_name_fails",
    "Smack.Dispatch.c77_unlisted_fails",
    "Smack.Dispatch.c77_unaffected"
   ],
   "note": "The full statement is false of the code: panics reached by `invoke`, panics in functions whose name contains `__SMACK_`, and panic functions outside the list of five are not reported. Each is proved; the rest is proved in full for all modules."
  },
  {
   "property": "C78",
   "status": "partial",
   "theorems": [
    "Smack.StdLib.c78_tokens_exist",
    "Smack.StdLib.c78_tokens_partial",
    "Smack.StdLib.c78_call",
    "Smack.StdLib.c78_null",
    "Smack.StdLib.c78_stale_fails"
   ],
   "note": "Proved for all strings, delimiters and numbers of calls, except that a string without tokens does not reset the static variable when an earlier string was unfinished (negation proved)."
  },
  {
   "property": "C79",
   "status": "partial",
   "theorems": [
    "Smack.StdLib.c79_strto_possible_partial",
    "Smack.StdLib.c79_strto_sound",
    "Smack.StdLib.c79_strto_defined",
    "Smack.StdLib.c79_strto_long_fails",
    "Smack.StdLib.c79_getenv_possible_partial",
    "Smack.StdLib.c79_getenv_long_fails",
    "Smack.StdLib.c79_strerror_fails",
    "Smack.StdLib.c79_exit"
   ],
   "note": "The full statement is false of the code: values of more than two bytes are never returned by getenv and strerror, and numbers ending beyond 2^32 bytes are excluded (negations proved). errno, which these functions never set, is not modelled."
  },
  {
   "property": "C80",
   "status": "partial",
   "theorems": [
    "Smack.Contracts.c80_split",
    "Smack.Contracts.c80_split_last",
    "Smack.Contracts.c80_expr",
    "Smack.Contracts.c80_clauses",
    "Smack.Contracts.c80_kinds",
    "Smack.Contracts.c80_extracted_partial",
    "Smack.Contracts.c80_effects_fails",
    "Smack.Contracts.c80_invariant_partial",
    "Smack.Contracts.c80_invariant_fails",
    "Smack.Contracts.c80_header_fails",
    "Smack.Contracts.c80_two_invariants_fails",
    "Smack.Contracts.c80_loop_before_fails",
    "Smack.Contracts.c80_code_type_partial",
    "Smack.Contracts.c80_code_type_fails"
   ],
   "note": "The full statement is false of the code (negations proved). Proved for regions with one entry and one exit whose code has no effects; LLVM's CodeExtractor is assumed to move such a region unchanged."
  },
  {
   "property": "C81",
   "status": "partial",
   "theorems": [
    "Smack.OvfPass.c81_defined",
    "Smack.OvfPass.c81_complete_partial",
    "Smack.OvfPass.c81_sound_partial",
    "Smack.OvfPass.c81_off",
    "Smack.OvfPass.c81_reported_partial",
    "Smack.OvfPass.c81_smack_name_fails",
    "Smack.OvfPass.c81_ubsan_unchecked_fails",
    "Smack.OvfPass.c81_erased_use_fails"
   ],
   "note": "Both directions proved for all functions in SSA form that the pass handles (c81_defined says which). The full statement is false of the code (negations proved): functions whose name contains __SMACK_ are skipped, a UBSan handler in an unchecked function ends the path, and a pair used otherwise than by extractvalue is erased although it has uses."
  },
  {
   "property": "C82",
   "status": "partial",
   "theorems": [
    "Smack.Options.c82_parse",
    "Smack.Options.c82_group_rejected_fails",
    "Smack.Options.c82_lines",
    "Smack.Options.c82_requested_partial",
    "Smack.Options.c82_unrequested_off",
    "Smack.Options.c82_other_lines",
    "Smack.Options.c82_mixed_fails",
    "Smack.Options.c82_svcomp_reach",
    "Smack.Options.c82_svcomp_other",
    "Smack.Options.c82_svcomp_deref_fails"
   ],
   "note": "Proved: parsing for all argument lists, unrequested checks are off for all requests, requested checks are present unless one or two memory-safety properties are combined with another property. The full statement is false of the code: c82_mixed_fails, c82_group_rejected_fails (Python 3.11 and later), c82_svcomp_deref_fails. The effect of the flags inside clang and llvm2bpl is modelled by one table (produced)."
  },
  {
   "property": "C83",
   "status": "partial",
   "theorems": [
    "Smack.Options.c83_lines",
    "Smack.Options.c83_entry",
    "Smack.Options.c83_bound",
    "Smack.Options.c83_modular_support",
    "Smack.Options.c83_unmarked",
    "Smack.Options.c83_prefix_fails",
    "Smack.Options.c83_renamed_fails"
   ],
   "note": "Proved for files whose lines have the shapes SMACK prints. The full statement is false of the code: the list of support procedures is matched as prefixes, and entry points that are renamed in the Boogie file are not marked."
  },
  {
   "property": "C84",
   "status": "partial",
   "theorems": [
    "Smack.BwPass.c84_complete_partial",
    "Smack.BwPass.c84_sound_partial",
    "Smack.BwPass.c84_differs_fails",
    "Smack.BwPass.c84_replaced",
    "Smack.BwPass.c84_defined",
    "Smack.BwPass.c84_smack_name",
    "Smack.BwPass.c84_vector_fails",
    "Smack.BwPass.c84_and32_fails"
   ],
   "note": "Proved: executions correspond both ways unless one reaches an instance at which the value changes; these instances are described exactly (c84_differs_fails: each of them does change the value). The full statement is false of the code: right shifts of negative numbers, 32- and 64-bit and, or; vectors stop the pass. The library functions are represented by the functions of the Bitwise area (C12-C14)."
  },
  {
   "property": "C85",
   "status": "partial",
   "theorems": [
    "Smack.Witness.c85_path",
    "Smack.Witness.c85_violation_fails",
    "Smack.Witness.c85_witness_partial",
    "Smack.Witness.c85_pthread_fails",
    "Smack.Witness.c85_call_name_fails"
   ],
   "note": "Proved: the graph is always a path; it exists exactly if calls and returns in the program's files match and inputs are given to active functions, and then has exactly the inputs in order. The full statement is false of the code: the violation node is never there (errtrace.py leaves out the step that toSVCOMPformat.py looks for), programs with threads get no edges, and names that contain CALL raise an exception. Names with blanks, commas, =, CALL, Done or ASSERTION are excluded in c85_witness_partial. The XML text and the header data of the graph are not modelled."
  },
  {
   "property": "C86",
   "status": "partial",
   "theorems": [
    "Smack.Witness.c86_steps_partial",
    "Smack.Witness.c86_failsAt",
    "Smack.Witness.c86_done_fails"
   ],
   "note": "Proved for names without blanks, commas, =, CALL, Done and ASSERTION and for integer and bit-vector values (floating-point values are a parameter of the model). The full statement is false: values of names that contain Done are dropped. The splitting of Corral's output into steps by a regular expression is not modelled; merging of steps (prettify) is C51."
  },
  {
   "property": "C87",
   "status": "partial",
   "theorems": [
    "Smack.Witness.c87_values_partial",
    "Smack.Witness.c87_no_entry",
    "Smack.Witness.c87_two_fails",
    "Smack.Witness.c87_bv_fails",
    "Smack.Witness.c87_int",
    "Smack.Witness.c87_wide_fails"
   ],
   "note": "Proved for outputs with at most one record per line. The full statement is false: with a second value on the line the recorded one is lost, bit-vector values are not C constants, values outside int are changed by the type of the table."
  },
  {
   "property": "C88",
   "status": "proved",
   "theorems": [
    "Smack.PreSem.c88_consistent",
    "Smack.PreSem.c88_extends",
    "Smack.PreSem.c88_determined"
   ],
   "note": "Functions whose declaration Boogie rejects (C71) only have to return values of their types. Floating-point arithmetic and conversions of SMT-LIB are a parameter that respects the types; rounding mode and floating-point literals are parameters of the interpretation."
  },
  {
   "property": "C89",
   "status": "partial",
   "theorems": [
    "Smack.PreSem.c89_bitvector",
    "Smack.PreSem.c89_address_partial",
    "Smack.PreSem.c89_narrow_index_fails",
    "Smack.PreSem.c89_integer",
    "Smack.PreSem.c89_wrapped_partial",
    "Smack.PreSem.c89_unbounded_partial"
   ],
   "note": "Bit-vectors: all integer values, proved. Addresses in bit-vector mode: proved if no narrow index is negative; otherwise they are wrong (c89_narrow_index_fails). Integer modes: the text denotes what IntOps gives to the expression; with C01 and C05 this is LLVM's value under their conditions. Floating-point values, vectors and aggregates are not covered."
  },
  {
   "property": "C90",
   "status": "partial",
   "theorems": [
    "Smack.PreSem.c90_result",
    "Smack.PreSem.c90_control",
    "Smack.PreSem.c90_address",
    "Smack.PreSem.c90_load",
    "Smack.PreSem.c90_store",
    "Smack.PreSem.c90_rmw",
    "Smack.PreSem.c90_cmpxchg_partial",
    "Smack.PreSem.c90_preserved",
    "Smack.PreSem.c90_store_load"
   ],
   "note": "Bit-vector mode, integers of the supported widths; integers in regions accessed by bytes have whole bytes or less than one. The second component of cmpxchg's result is not computed by the code's model of an aggregate, so only the effect on memory and the first component are stated. Pointers and floating-point values in memory are C91; allocation is C18-C21."
  },
  {
   "property": "C91",
   "status": "partial",
   "theorems": [
    "Smack.PreSem.c91_cell",
    "Smack.PreSem.c91_pointer_store",
    "Smack.PreSem.c91_pointer_load",
    "Smack.PreSem.c91_pointer_fails",
    "Smack.PreSem.c91_float_store",
    "Smack.PreSem.c91_float_load",
    "Smack.PreSem.c91_float_store_load",
    "Smack.PreSem.c91_not_blocking",
    "Smack.PreSem.c91_no_assume_fails",
    "Smack.PreSem.c91_unsafe_fails",
    "Smack.PreSem.c91_one_byte_fails",
    "Smack.PreSem.c91_read_byte_fails",
    "Smack.PreSem.c91_x87_fails"
   ],
   "note": "Holds for typed regions, for pointers as bit-vectors, and for half, float and double in bit-vector mode with --float. The negations: pointers as integers in byte regions, floating-point values without --float or in integer mode in untyped regions, stores in static initialisers, and long double."
  },
  {
   "property": "C92",
   "status": "partial",
   "theorems": [
    "Smack.Run.c92_verdict",
    "Smack.Run.c92_zero",
    "Smack.Run.c92_error",
    "Smack.Run.c92_svcomp",
    "Smack.Run.c92_slow",
    "Smack.Run.c92_failed_command",
    "Smack.Run.c92_sigterm_fails",
    "Smack.Run.c92_usage_fails",
    "Smack.Run.c92_language_fails",
    "Smack.Run.c92_modular_fails",
    "Smack.Run.c92_one_fails",
    "Smack.Run.c92_symbooglix_fails"
   ],
   "note": "Statuses 0 and 2 to 126 of a run that is not stopped by SIGTERM stem from the verifier's output. The negations: SIGTERM gives the status of a verified program, wrong command lines that of an invalid dereference, exceptions and failing commands that of an assertion failure, with symbooglix failing commands are ignored, --modular loses the kind of the error, seven of the eleven languages cannot be chosen."
  },
  {
   "property": "C93",
   "status": "partial",
   "theorems": [
    "Smack.Run.c93_files",
    "Smack.Run.c93_fortran_fails"
   ],
   "note": "All languages but Fortran, where it fails, and JSON compilation databases, whose commands may write any file. Files given by --replay and --debug are not modelled."
  },
  {
   "property": "C94",
   "status": "partial",
   "theorems": [
    "Smack.Run.c94_translation",
    "Smack.Run.c94_translator",
    "Smack.Run.c94_translator_only",
    "Smack.Run.c94_compiler",
    "Smack.Run.c94_threads",
    "Smack.Run.c94_boogie",
    "Smack.Run.c94_boogie_fails",
    "Smack.Run.c94_report",
    "Smack.Run.c94_platform",
    "Smack.Run.c94_names",
    "Smack.Run.c94_bounds",
    "Smack.Run.c94_solver",
    "Smack.Run.c94_solver_fails"
   ],
   "note": "Inputs in C, C++ and LLVM's language, and one Boogie file; tools whose results depend only on the words and files they are given, runs without failing commands and signals. Missing: D, Fortran, Objective-C, Rust, JSON databases. Negations: an existing Boogie file is appended to, so that both programs are verified; Symbooglix is run without the solver asked for."
  },
  {
   "property": "C95",
   "status": "partial",
   "theorems": [
    "Smack.Tool.c95_options",
    "Smack.Tool.c95_passes",
    "Smack.Tool.c95_order",
    "Smack.Tool.c95_final",
    "Smack.Tool.c95_visible",
    "Smack.Tool.c95_debug_fails"
   ],
   "note": "The linked file's name must not begin with a dash. LLVM's library for command lines is modelled by its documentation. Negation: with NDEBUG the translator rejects --debug and --debug-only."
  },
  {
   "property": "C96",
   "status": "partial",
   "theorems": [
    "Smack.Warn.c96_message",
    "Smack.Warn.c96_hint",
    "Smack.Warn.c96_binary_partial",
    "Smack.Warn.c96_binary_text",
    "Smack.Warn.c96_frem_fails",
    "Smack.Warn.c96_vector_fails",
    "Smack.Warn.c96_intrinsic",
    "Smack.Warn.c96_levels",
    "Smack.Warn.c96_comment"
   ],
   "note": "Which operations are exact in which mode is the specification's table. Negations: the floating-point remainder is never warned about; bitwise operations on vectors fail an assertion. Not modelled: comparisons, conversions and negations of floating-point numbers, which have no warnings in the code either."
  },
  {
   "property": "C97",
   "status": "partial",
   "theorems": [
    "Smack.Printer.c97_statement",
    "Smack.Printer.c97_injective",
    "Smack.Printer.c97_declaration",
    "Smack.Printer.c97_program",
    "Smack.Printer.c97_program_injective",
    "Smack.Printer.c97_comment_fails",
    "Smack.Printer.c97_nested_comment_fails"
   ],
   "note": "Reading is by a parser for Boogie's syntax in the printer's layout. Left out: statements and declarations given as text (inline code, prelude), code expressions. Negations: comments are printed as they are, so that one with a delimiter of comments in it (the name of a source file in a warning can contain one) is not read back."
  },
  {
   "property": "C98",
   "status": "partial",
   "theorems": [
    "Smack.Annot.c98_debug",
    "Smack.Annot.c98_metadata",
    "Smack.Annot.c98_location",
    "Smack.Annot.c98_only",
    "Smack.Annot.c98_stops",
    "Smack.Annot.c98_large_fails",
    "Smack.Annot.c98_readable",
    "Smack.Annot.c98_quote_fails",
    "Smack.Annot.c98_own_functions",
    "Smack.Annot.c98_timing",
    "Smack.Annot.c98_minus_one_fails",
    "Smack.Annot.c98_block_partial",
    "Smack.Annot.c98_entry_fails"
   ],
   "note": "Hypotheses: lines and columns below 2^31, integers below 2^63; for the costs, instructions carry the mark of VerifierCodeMetadata, loads and stores are not of structures (an assertion fails otherwise), and the answers of the cost model, otherwise an arbitrary function, lie between 0 and 2^32-2. Negations: integers with the highest of 64 bits are said as negative numbers; strings with quotation marks (texts of instructions have them) are not read back; a cost of -1 counts as unknown; the first instruction with a location in the entry block of a function is annotated twice, so that its cost counts twice. Missing from the costs of blocks: the blocks for edges of branches, which repeat the annotations of the branch."
  },
  {
   "property": "C99",
   "status": "partial",
   "theorems": [
    "Smack.Extern.c99_view",
    "Smack.Extern.c99_wellformed",
    "Smack.Extern.c99_changed",
    "Smack.Extern.c99_idempotent",
    "Smack.Extern.c99_link_fails"
   ],
   "note": "Negation of the last sentence: static or weak definitions of an entry point in two modules both become external, and the modules cannot be linked any more. Left out: metadata of functions."
  }
 ]
}