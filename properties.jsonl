{"id": "C01", "title": "Wrapped-integer arithmetic agrees with machine arithmetic", "statement": "Under --integer-encoding=wrapped-integer, for every integer expression built from add, sub, mul, udiv, urem, srem, trunc, zext, sext, min/max and comparisons, the value of the generated Boogie term is congruent modulo 2^w to the value LLVM assigns to the expression (division by zero excluded).", "quantifier": "all expression trees, all bit widths, all operand values", "why_tests_cant": "expression trees are unbounded in depth, width and operand values; wrap-around errors occur only at specific combinations", "anchors": ["lib/smack/Prelude.cpp:IntOpGen::IntArithOp", "lib/smack/Prelude.cpp:IntOpGen::IntConv", "lib/smack/SmackRep.cpp:bop"]}
{"id": "C02", "title": "Signed division rounds towards zero", "statement": "The Boogie term generated for sdiv denotes the LLVM quotient (rounded towards zero), and together with the term for srem satisfies dividend = quotient*divisor + remainder.", "quantifier": "all dividends and non-zero divisors, integer encodings", "why_tests_cant": "sign combinations and inexact quotients are infinitely many", "anchors": ["lib/smack/Prelude.cpp:divExpr", "lib/smack/Prelude.cpp:sremExpr"]}
{"id": "C03", "title": "Comparisons agree with icmp", "statement": "Under the wrapped encoding each of the ten integer predicates, applied to terms congruent to the machine operands, is true exactly when LLVM's icmp is; the i1-valued form returns 1 or 0 accordingly.", "quantifier": "all widths, all (unnormalised) integer representatives of the operands", "why_tests_cant": "a representative can be any of infinitely many integers", "anchors": ["lib/smack/Prelude.cpp:IntOpGen::IntPred"]}
{"id": "C04", "title": "Wrap functions normalise", "statement": "$tos.iN(x) is the unique value in [-2^(N-1), 2^(N-1)) and $tou.iN(x) the unique value in [0, 2^N) congruent to x modulo 2^N; both are idempotent and leave in-range values unchanged.", "quantifier": "all integers, all widths >= 1", "why_tests_cant": "infinite input domain", "anchors": ["lib/smack/Prelude.cpp:tosExpr", "lib/smack/Prelude.cpp:touExpr"]}
{"id": "C05", "title": "Unbounded encoding is exact in the absence of overflow", "statement": "Under --integer-encoding=unbounded-integer, if no intermediate result of an expression leaves the signed range of its type, then the generated term denotes exactly the signed LLVM value; without that hypothesis the encoding can disagree with LLVM.", "quantifier": "all expression trees and inputs", "why_tests_cant": "depends on every intermediate value of arbitrary trees", "anchors": ["lib/smack/Prelude.cpp:wrappedExpr", "lib/smack/SmackRep.cpp:bop"]}
{"id": "C06", "title": "Integer literals denote the constant", "statement": "For every integer constant of width w, and every choice of signedness flags the translator passes, the literal it prints denotes an integer congruent to the constant modulo 2^w (and in bit-vector mode exactly the constant).", "quantifier": "all widths and bit patterns, all flag combinations", "why_tests_cant": "2^w patterns for each w", "anchors": ["lib/smack/SmackRep.cpp:lit", "lib/smack/SmackRep.cpp:integerLit"]}
{"id": "C07", "title": "Floating-point literals denote the constant", "statement": "For every finite half, float, double and x86 long double constant the printed Boogie literal denotes exactly the same real number; infinities and NaN map to +oo/-oo/NaN.", "quantifier": "all bit patterns of each format", "why_tests_cant": "2^80 patterns; rounding of hexadecimal digits depends on exponent residue and subnormals", "anchors": ["lib/smack/SmackRep.cpp:lit", "lib/smack/Prelude.cpp:FP_LAYOUT"]}
{"id": "C08", "title": "Byte-level store then load returns the value", "statement": "In bytewise memory, storing an N-bit value at p and loading N bits from p yields the value; bytes outside [p, p+N/8) are unchanged; the value is laid out little-endian so that narrower loads see the right bytes.", "quantifier": "all widths, addresses, values, memories", "why_tests_cant": "infinite memories and addresses", "anchors": ["lib/smack/Prelude.cpp:generateMemOps", "lib/smack/SmackRep.cpp:load", "lib/smack/SmackRep.cpp:store"]}
{"id": "C09", "title": "Memory regions partition accesses", "statement": "After any sequence of region lookups, no two regions returned overlap, and looking an access up again returns the region that contains it, so that two accesses that may alias (same DSA node and intersecting byte ranges, or both incomplete / complicated) always use the same Boogie map.", "quantifier": "all finite histories of lookups", "why_tests_cant": "depends on the history of merges", "anchors": ["lib/smack/Regions.cpp:Regions::idx", "lib/smack/Regions.cpp:Region::overlaps", "lib/smack/Regions.cpp:Region::merge"]}
{"id": "C10", "title": "Region lookup is stable after the collection pass", "statement": "Once every access has been looked up once, looking accesses up again in any order never changes the number of regions and returns the same index for the same access.", "quantifier": "all finite sets of accesses and all re-lookup orders", "why_tests_cant": "unbounded histories", "anchors": ["lib/smack/Regions.cpp:Regions::idx", "lib/smack/Regions.cpp:Regions::runOnModule"]}
{"id": "C11", "title": "Region byte ranges cover their accesses", "statement": "A region's byte range includes the byte range of every access merged into it, including accesses of unknown length (memcpy/memset with a non-constant length).", "quantifier": "all offsets and lengths", "why_tests_cant": "32-bit wrap only happens for specific offset/length pairs", "anchors": ["lib/smack/Regions.cpp:Region::merge", "lib/smack/Regions.cpp:Region::isDisjoint", "lib/smack/Regions.cpp:visitMemSetInst"]}
{"id": "C12", "title": "Rewriting shifts by constants preserves meaning", "statement": "With --rewrite-bitwise-ops, replacing shl / lshr / ashr by a constant amount with a multiplication / division preserves the LLVM value of the instruction.", "quantifier": "all widths, shift amounts and operands", "why_tests_cant": "2^w operands for each width and amount", "anchors": ["lib/smack/RewriteBitwiseOps.cpp:runOnModule"]}
{"id": "C13", "title": "Rewriting masks preserves meaning", "statement": "With --rewrite-bitwise-ops, an `and` whose first operand is a constant low-bit mask, replaced by urem with mask+1, has the same value.", "quantifier": "all widths, masks and operands", "why_tests_cant": "2^w operands", "anchors": ["lib/smack/RewriteBitwiseOps.cpp:isConstantInt", "lib/smack/RewriteBitwiseOps.cpp:runOnModule"]}
{"id": "C14", "title": "Library models of bitwise and/or are correct", "statement": "The functions substituted for non-constant and/or (__SMACK_and8/16/32/64, __SMACK_or8/16/32/64) return the bitwise and/or of their arguments.", "quantifier": "all argument pairs of each width", "why_tests_cant": "2^64 or 2^128 argument pairs", "anchors": ["share/smack/lib/smack.c:__SMACK_and32", "share/smack/lib/smack.c:__SMACK_or32", "lib/smack/RewriteBitwiseOps.cpp"]}
{"id": "C15", "title": "Overflow intrinsics: flag and result", "statement": "After instrumentation of llvm.{s,u}{add,sub,mul}.with.overflow, the flag is set exactly when the mathematical result does not fit the type and the value is the wrapped result.", "quantifier": "all widths and operand pairs", "why_tests_cant": "2^(2w) operand pairs", "anchors": ["lib/smack/IntegerOverflowChecker.cpp:runOnModule"]}
{"id": "C16", "title": "Global variables get disjoint storage", "statement": "For any list of global declarations, the address ranges assigned to distinct defined globals are disjoint, separated by padding, negative and non-null; declared external globals lie below all defined ones and are also disjoint.", "quantifier": "all finite lists of globals with arbitrary sizes and linkage", "why_tests_cant": "unbounded lists", "anchors": ["lib/smack/SmackRep.cpp:globalDecl", "lib/smack/Prelude.cpp:generateAddressBoundsAndPred"]}
{"id": "C17", "title": "memcpy/memset specifications determine the result", "statement": "The generated $memcpy / $memset contract has exactly one post-memory: the destination range holds the source bytes (as before the call, also for overlapping ranges) or the fill value, everything else is unchanged.", "quantifier": "all memories, addresses and lengths (no address wrap)", "why_tests_cant": "infinite memories", "anchors": ["lib/smack/SmackRep.cpp:memcpyProc", "lib/smack/SmackRep.cpp:memsetProc"]}
{"id": "C18", "title": "Heap blocks never overlap while live", "statement": "For every history of allocations and frees permitted by the memory model, the address ranges of live blocks are pairwise disjoint, non-null, and below $MALLOC_TOP; in the no-reuse models a block is never handed out again after free.", "quantifier": "all finite histories of allocation/free and all nondeterministic choices", "why_tests_cant": "nondeterministic addresses and unbounded histories", "anchors": ["share/smack/lib/smack.c:$$alloc", "share/smack/lib/smack.c:$free"]}
{"id": "C19", "title": "Every memory model can always allocate", "statement": "A call of malloc with a non-negative size that fits in memory never blocks the execution (the allocator contract always has a post-state), so assertions after it are not vacuously verified.", "quantifier": "all reachable allocator states and sizes", "why_tests_cant": "a vacuous contract silently hides all later errors", "anchors": ["share/smack/lib/smack.c:$$alloc (MEMORY_MODEL_REUSE)"]}
{"id": "C20", "title": "Dereference check is exact", "statement": "With memory-safety checking, the check before an access of size n at p passes exactly when [p, p+n) lies inside one live allocated block (for every history and every interpretation of the uninterpreted base function allowed by the allocator).", "quantifier": "all histories, pointers, sizes and interpretations", "why_tests_cant": "quantifies over interpretations and histories", "anchors": ["share/smack/lib/smack.c:__SMACK_check_memory_safety", "lib/smack/MemorySafetyChecker.cpp"]}
{"id": "C21", "title": "Free check and leak counter", "statement": "free(p) is accepted only for null or the start of a live heap block obtained from malloc; double frees and frees of stack or global storage are reported; at exit the leak assertion holds exactly when every malloc'ed block was freed.", "quantifier": "all histories", "why_tests_cant": "unbounded histories", "anchors": ["share/smack/lib/smack.c:$free", "share/smack/lib/smack.c:$malloc", "share/smack/lib/smack.c:__SMACK_check_memory_leak"]}
{"id": "C22", "title": "Names are stable and unambiguous", "statement": "Within one function two different values never get the same Boogie identifier, and one value always gets the same identifier.", "quantifier": "all sets of source names and all request orders", "why_tests_cant": "collisions depend on adversarial source names", "anchors": ["lib/smack/Naming.cpp:Naming::get", "lib/smack/Naming.cpp:Naming::escape"]}
{"id": "C23", "title": "Generated identifiers are legal", "statement": "The identifier generated for any source name contains none of the characters Boogie forbids and is not a Boogie keyword.", "quantifier": "all strings", "why_tests_cant": "infinitely many names", "anchors": ["lib/smack/Naming.cpp:Naming::escape", "lib/smack/Naming.cpp:Naming::get"]}
{"id": "C24", "title": "Inline Boogie templates substitute each argument once", "statement": "In __SMACK_code and related calls the k-th placeholder of the template is replaced by the k-th argument, in order, and text outside placeholders is unchanged.", "quantifier": "all template strings and argument lists", "why_tests_cant": "argument text can itself contain the placeholder character", "anchors": ["lib/smack/SmackRep.cpp:code"]}
{"id": "C25", "title": "Printed expressions are unambiguous", "statement": "Two different Boogie expressions built by the translator never print to the same text, so the verifier parses back the intended expression.", "quantifier": "all expression trees", "why_tests_cant": "infinitely many trees", "anchors": ["lib/smack/BoogieAst.cpp:print", "include/smack/BoogieAst.h"]}
{"id": "C26", "title": "Branch and phi translation preserves executions", "statement": "For a function in SSA form whose loops have been normalised, the generated Boogie blocks have, from matching states, exactly the executions of the LLVM control flow graph: conditional branches take the right successor and phi nodes receive the value of the incoming edge.", "quantifier": "all SSA functions, inputs and path lengths", "why_tests_cant": "loops give unboundedly long executions; lost-copy and swap problems appear only in particular graph shapes", "anchors": ["lib/smack/SmackInstGenerator.cpp:generatePhiAssigns", "lib/smack/SmackInstGenerator.cpp:generateGotoStmts", "lib/smack/SmackInstGenerator.cpp:visitBranchInst", "lib/smack/NormalizeLoops.cpp"]}
{"id": "C27", "title": "Loop normalisation preserves behaviour and splits back edges", "statement": "Inserting forwarding blocks on loop back edges preserves every execution, and afterwards no block with several successors is a predecessor of a loop header it is inside of.", "quantifier": "all control flow graphs", "why_tests_cant": "unbounded graphs and paths", "anchors": ["lib/smack/NormalizeLoops.cpp:processLoop", "lib/smack/NormalizeLoops.cpp:splitBlock"]}
{"id": "C28", "title": "Conditional branch to a single target does not block", "statement": "A conditional branch whose two successors are the same block continues to that block whatever the condition.", "quantifier": "all functions containing such a branch", "why_tests_cant": "a blocked path silently verifies", "anchors": ["lib/smack/SmackInstGenerator.cpp:generateGotoStmts", "lib/smack/SmackInstGenerator.cpp:visitBranchInst"]}
{"id": "C29", "title": "Switch dispatch", "statement": "A switch instruction continues to the block of the matching case, or to the default block when none matches.", "quantifier": "all case lists and scrutinee values", "why_tests_cant": "unbounded case lists", "anchors": ["lib/smack/SmackInstGenerator.cpp:visitSwitchInst", "tools/llvm2bpl/llvm2bpl.cpp:createLowerSwitchPass"]}
{"id": "C30", "title": "Bit reversal intrinsic", "statement": "The Boogie expression generated for llvm.bitreverse on iN places bit i of the argument at position N-1-i.", "quantifier": "all widths N >= 1 and all arguments", "why_tests_cant": "2^N arguments per width", "anchors": ["lib/smack/SmackInstGenerator.cpp:visitIntrinsicInst (bitreverse)"]}
{"id": "C31", "title": "Byte swap intrinsic", "statement": "The Boogie expression generated for llvm.bswap reverses the order of the bytes.", "quantifier": "all widths that are multiples of 16, all arguments", "why_tests_cant": "2^N arguments per width", "anchors": ["lib/smack/SmackInstGenerator.cpp:visitIntrinsicInst (bswap)"]}
{"id": "C32", "title": "Leading/trailing zero count intrinsics", "statement": "The expressions generated for llvm.ctlz / llvm.cttz denote the number of leading / trailing zero bits, and N for zero when zero is defined.", "quantifier": "all widths and arguments", "why_tests_cant": "2^N arguments per width", "anchors": ["lib/smack/SmackInstGenerator.cpp:visitIntrinsicInst (ctlz, cttz)"]}
{"id": "C33", "title": "Population count intrinsic", "statement": "The expressions generated for llvm.ctpop, in bit-vector and integer mode, denote the number of set bits.", "quantifier": "all widths and arguments", "why_tests_cant": "2^N arguments per width", "anchors": ["lib/smack/SmackInstGenerator.cpp:visitIntrinsicInst (ctpop)"]}
{"id": "C34", "title": "Floating-point predicates", "statement": "The sixteen generated floating-point comparison functions coincide with LLVM's ordered/unordered fcmp predicates, including NaN operands.", "quantifier": "all operand pairs of any floating-point interpretation of eq/lt/gt/isnan satisfying IEEE trichotomy", "why_tests_cant": "2^128 operand pairs", "anchors": ["lib/smack/Prelude.cpp:FpPred"]}
{"id": "C35", "title": "insertvalue / extractvalue", "statement": "The assumptions generated for insertvalue force the result aggregate to agree with the source everywhere except at the given index path, where it holds the inserted value, and such a result exists.", "quantifier": "all aggregate types, index paths and values", "why_tests_cant": "unbounded nesting", "anchors": ["lib/smack/SmackInstGenerator.cpp:visitInsertValueInst", "lib/smack/SmackInstGenerator.cpp:visitExtractValueInst"]}
{"id": "C36", "title": "extractvalue simplification preserves values", "statement": "Rewriting extractvalue of an insertvalue / constant according to the simplification rules yields the same value.", "quantifier": "all aggregates, index paths and inserted values", "why_tests_cant": "unbounded nesting and path overlap cases", "anchors": ["lib/utils/SimplifyExtractValue.cpp:SimplifyEV"]}
{"id": "C37", "title": "Storing a built aggregate field by field", "statement": "Replacing the store of a chain of insertvalue instructions by stores of the individual fields leaves the same memory contents.", "quantifier": "all chains (repeated indices, non-undef base)", "why_tests_cant": "unbounded chains", "anchors": ["lib/utils/SimplifyInsertValue.cpp:SimplifyIV"]}
{"id": "C38", "title": "Splitting aggregate loads and stores", "statement": "Replacing an aggregate load (store) by loads (stores) of its scalar leaves gives the same aggregate value (memory); each leaf is visited exactly once, at its own offset.", "quantifier": "all first-class aggregate types and memories", "why_tests_cant": "unbounded nesting", "anchors": ["lib/smack/SplitAggregateValue.cpp:visitAggregateValue"]}
{"id": "C39", "title": "Static initialisers are reproduced", "statement": "After __SMACK_static_init runs, every scalar leaf of every initialised global that may be read holds the value of the initialiser; nothing else is written.", "quantifier": "all initialiser trees and global lists", "why_tests_cant": "unbounded nesting", "anchors": ["lib/smack/CodifyStaticInits.cpp:runOnModule"]}
{"id": "C40", "title": "Indirect calls dispatch to the pointed-to function", "statement": "The bounce function created for an indirect call, given the address of one of its targets, calls exactly that target with the call's arguments (converted to the target's parameter types), whatever the order of targets.", "quantifier": "all target lists and argument lists", "why_tests_cant": "unbounded target sets", "anchors": ["lib/utils/Devirt.cpp:buildBounce", "lib/utils/Devirt.cpp:makeDirectCall"]}
{"id": "C41", "title": "Devirtualisation cache is safe", "statement": "A bounce function is reused for another call only if it has the same target set and a compatible signature.", "quantifier": "all sequences of devirtualised calls", "why_tests_cant": "unbounded histories", "anchors": ["lib/utils/Devirt.cpp:findInCache"]}
{"id": "C42", "title": "Merging nested address computations", "statement": "Merging a getelementptr of a getelementptr into one yields the same address.", "quantifier": "all index values and element sizes", "why_tests_cant": "overflow only at specific index pairs", "anchors": ["lib/utils/MergeGEP.cpp:simplifyGEP"]}
{"id": "C43", "title": "Pointer arithmetic", "statement": "The Boogie address computed for a getelementptr equals base plus the sum of field offsets and index*size products, with indices treated as signed.", "quantifier": "all index sequences and values", "why_tests_cant": "unbounded sequences; negative dynamic indices", "anchors": ["lib/smack/SmackRep.cpp:ptrArith", "lib/smack/SmackRep.cpp:pa", "lib/smack/SmackRep.cpp:integerToPointer"]}
{"id": "C44", "title": "Type-safety classification of fields", "statement": "A field of a memory object is classified type-safe only if it is accessed at a single type and no other accessed field overlaps it; conversely such fields are classified type-safe.", "quantifier": "all finite access maps", "why_tests_cant": "unbounded field maps", "anchors": ["lib/smack/DSAWrapper.cpp:isTypeSafe"]}
{"id": "C45", "title": "Pointer/integer conversions round-trip", "statement": "Converting a pointer to an integer of pointer width and back yields the pointer, in integer and bit-vector encodings; conversions between int and bit-vector values round-trip.", "quantifier": "all pointer values and widths", "why_tests_cant": "infinite domain", "anchors": ["lib/smack/Prelude.cpp:PtrOpGen", "lib/smack/Prelude.cpp:generateBvIntConvs", "lib/smack/SmackRep.cpp:pointerToInteger", "lib/smack/SmackRep.cpp:integerToPointer"]}
{"id": "C46", "title": "Verifier-only code marking", "statement": "An instruction is marked as verifier code only if it is a call to a verifier function or all its uses are by marked instructions, so skipping checks on it cannot hide an effect of user code.", "quantifier": "all instruction graphs", "why_tests_cant": "unbounded graphs", "anchors": ["lib/smack/VerifierCodeMetadata.cpp"]}
{"id": "C47", "title": "Dead definition removal keeps everything reachable", "statement": "Removing dead definitions never removes an entry point, a SMACK/verifier runtime function, or a function transitively used by a kept function.", "quantifier": "all call graphs", "why_tests_cant": "unbounded graphs", "anchors": ["lib/smack/RemoveDeadDefs.cpp"]}
{"id": "C48", "title": "Selecting a sub-property keeps the other requested checks", "statement": "When the user requests a set of properties with --check, every assertion belonging to a requested property remains in the verified program.", "quantifier": "all subsets of properties and all assertion kinds", "why_tests_cant": "all combinations of properties and programs", "anchors": ["share/smack/top.py:memsafety_subproperty_selection"]}
{"id": "C49", "title": "Verdict classification", "statement": "SMACK reports 'no errors' only if the verifier reported success, and reports the error kind of the failing assertion with the documented exit code; distinct results have distinct exit codes.", "quantifier": "all verifier outputs", "why_tests_cant": "outputs are arbitrary text", "anchors": ["share/smack/top.py:verification_result", "share/smack/top.py:VResult"]}
{"id": "C50", "title": "Competition mode verdict", "statement": "In svcomp mode 'verified' is reported only if the verifier finished without finding an error.", "quantifier": "all verifier outputs", "why_tests_cant": "outputs are arbitrary text", "anchors": ["share/smack/svcomp/utils.py:verify_bpl_svcomp", "share/smack/svcomp/utils.py:svcomp_check_property"]}
{"id": "C51", "title": "Error trace merging keeps information and order", "statement": "Merging consecutive trace steps at the same source position keeps all descriptions, in order, and never leaves two consecutive steps at the same position.", "quantifier": "all step lists", "why_tests_cant": "unbounded lists", "anchors": ["share/smack/errtrace.py:json_output"]}
{"id": "C52", "title": "Mutex model gives mutual exclusion", "statement": "In the pthread model, in every interleaving, at most one thread is between a successful pthread_mutex_lock and the matching unlock of a mutex.", "quantifier": "all thread counts, programs and schedules", "why_tests_cant": "schedules are unbounded", "anchors": ["share/smack/lib/pthread.c:pthread_mutex_lock", "share/smack/lib/pthread.c:pthread_mutex_unlock"]}
{"id": "C53", "title": "Thread join returns the exit value", "statement": "pthread_join of a thread completes only after that thread's start routine has finished, and delivers the value it passed to pthread_exit.", "quantifier": "all schedules", "why_tests_cant": "schedules are unbounded", "anchors": ["share/smack/lib/pthread.c:pthread_join", "share/smack/lib/pthread.c:__call_wrapper", "share/smack/lib/pthread.c:pthread_exit"]}
{"id": "C54", "title": "String library models follow the C standard", "statement": "strlen, strcpy, strncpy, strcmp, strncmp, strcat, strncat, strchr, strrchr, strspn, strcspn, strpbrk, strstr and memcmp behave as the C standard prescribes on every valid argument.", "quantifier": "all strings (and memories), lengths and characters", "why_tests_cant": "infinitely many strings", "anchors": ["share/smack/lib/string.c"]}
{"id": "C55", "title": "Allocation wrappers", "statement": "calloc returns null or a block whose bytes are all zero; realloc returns a block whose first min(old,new) bytes equal the old contents.", "quantifier": "all sizes and memories", "why_tests_cant": "infinite domain", "anchors": ["share/smack/lib/stdlib.c:calloc", "share/smack/lib/stdlib.c:realloc"]}
{"id": "C56", "title": "Nondeterministic value functions are exact", "statement": "__VERIFIER_nondet_T can return exactly the values representable in T: each of them is possible and nothing else.", "quantifier": "all integer types and values, both integer encodings", "why_tests_cant": "2^64 values, and non-existence of other values", "anchors": ["share/smack/lib/smack.c:__VERIFIER_nondet_int"]}
{"id": "C57", "title": "Vector operations are pointwise", "statement": "The generated vector functions apply the scalar operation lane by lane; shuffles, inserts and extracts select the lanes LLVM prescribes; the generated axioms are satisfiable.", "quantifier": "all lane counts, masks and lane values", "why_tests_cant": "unbounded lane counts and values", "anchors": ["lib/smack/VectorOperations.cpp"]}
{"id": "C58", "title": "Atomic read-modify-write", "statement": "Translated atomicrmw / cmpxchg return the old value and store the new one prescribed by the operation.", "quantifier": "all operations, operands and memories", "why_tests_cant": "infinite domain", "anchors": ["lib/smack/SmackInstGenerator.cpp:visitAtomicRMWInst", "lib/smack/SmackInstGenerator.cpp:visitAtomicCmpXchgInst"]}
{"id": "C59", "title": "Function selection options", "statement": "Checks are emitted in a function exactly when no checked-functions list is given or its complete name matches one of the patterns; entry points are exactly the functions listed.", "quantifier": "all names and lists", "why_tests_cant": "infinitely many names", "anchors": ["lib/smack/SmackOptions.cpp:shouldCheckFunction", "lib/smack/SmackOptions.cpp:isEntryPoint"]}
{"id": "C60", "title": "Loop exit annotation covers all loops", "statement": "With --fail-on-loop-exit, leaving any loop reaches the failing annotation.", "quantifier": "all loop nests", "why_tests_cant": "unbounded nesting", "anchors": ["lib/smack/AnnotateLoopExits.cpp"]}
{"id": "C61", "title": "Module initialisation order", "statement": "The generated $initialize procedure first sets up global allocations (when memory safety is on), then static initialisers, then every init function in module order, each exactly once, before any user code of the entry point.", "quantifier": "all modules", "why_tests_cant": "unbounded function lists", "anchors": ["lib/smack/SmackRep.cpp:getInitFuncs", "lib/smack/SmackModuleGenerator.cpp:generateProgram"]}
{"id": "C62", "title": "Rust name matching", "statement": "A mangled Rust symbol is treated as the panic/allocation function f exactly when it is f's mangled prefix followed by a 17-character hash suffix.", "quantifier": "all symbol names", "why_tests_cant": "infinitely many names", "anchors": ["lib/smack/Naming.cpp:isRustPanic", "lib/smack/RustFixes.cpp:isRustNameMatch"]}
{"id": "C63", "title": "Pointer comparisons", "statement": "A comparison of two pointers evaluates to the result LLVM's icmp gives on their addresses, for every predicate.", "quantifier": "all predicates, all pairs of pointers, integer and bit-vector pointer encodings", "why_tests_cant": "Wrong results occur only for particular pairs of addresses, which the verifier and not the test chooses.", "anchors": ["lib/smack/Prelude.cpp:1204-1245"]}
{"id": "C64", "title": "Memory-safety instrumentation is complete and precise", "statement": "With memory-safety checking enabled, every function selected for checking fails an assertion exactly when it is about to read or write (load, store, atomic access, memset, memcpy, memmove) bytes outside the memory it may access, before the access takes effect; an entry point fails exactly when it returns with unreleased heap memory; apart from that the program behaves as before.", "quantifier": "all modules, functions, control flows, operands, call depths, memory models and executions", "why_tests_cant": "The claim relates all executions of an instrumented program to all executions of the original one, including those with illegal accesses.", "anchors": ["lib/smack/MemorySafetyChecker.cpp:runOnFunction", "lib/smack/MemorySafetyChecker.cpp:insertMemoryAccessCheck", "lib/smack/MemorySafetyChecker.cpp:visitReturnInst"]}
{"id": "C65", "title": "Memory split into regions behaves like flat memory", "statement": "For every module and every execution for which the points-to information is right, the loads and stores generated on the memory variables of the regions type-check, and each load yields the value that a single flat byte memory with the same stores would yield; conversely every state of the memory variables corresponds to a flat memory.", "quantifier": "all modules (access lists, points-to nodes, orders of lookup), pointer representations, initial memories and executions of any length", "why_tests_cant": "Whether two accesses interfere depends on the merged regions of the whole module and on all executions; a missed overlap is an unsound verification result that a passing test does not reveal.", "anchors": ["lib/smack/Regions.cpp:Region::init", "lib/smack/Regions.cpp:Region::merge", "lib/smack/SmackRep.cpp:memType", "lib/smack/SmackRep.cpp:load", "lib/smack/SmackRep.cpp:store"]}
{"id": "C66", "title": "End-to-end translation of an integer function", "statement": "For every function in SSA form on integers, with any control flow, the Boogie code generated for it by the whole pipeline (constants, instructions, phi nodes, loop normalisation, branches) has exactly the executions of the LLVM function up to the representation of values: every assertion failure or return in LLVM is one in Boogie and vice versa, unless LLVM reaches undefined behaviour or an operation that the integer encoding is documented not to reproduce.", "quantifier": "all functions, loop nests, operand values, widths, both integer encodings and executions of any length", "why_tests_cant": "Soundness and completeness quantify over all programs and all executions including unbounded loops; tests run finitely many programs on finitely many inputs.", "anchors": ["lib/smack/SmackInstGenerator.cpp:visitBranchInst", "lib/smack/SmackInstGenerator.cpp:generatePhiAssigns", "lib/smack/SmackRep.cpp:expr", "lib/smack/SmackRep.cpp:lit", "share/smack/lib/smack.c:__VERIFIER_assert", "share/smack/lib/smack.c:__VERIFIER_assume"]}
{"id": "C67", "title": "End-to-end translation of a function with memory in bit-vector mode", "statement": "With bit-precise integers and pointers, for every function in SSA form with integer and pointer operations, address computations, loads, stores, alloca, malloc, free and any control flow, the generated Boogie code on memory split into regions has exactly the executions of the LLVM function on one flat memory: the same accesses in the same order, the same blocks allocated and freed, the same assertion failures and the same return values, unless LLVM reaches undefined behaviour, a narrow negative index, a malloc of no bytes, or an access that contradicts the points-to graph; blocks have addresses that SMACK's allocator gives out.", "quantifier": "all functions, loop nests, points-to graphs, region tables, start memories, operand values, widths and executions of any length", "why_tests_cant": "The claim quantifies over all programs, all points-to graphs and all executions including unbounded loops; a wrong region merge or a wrong byte order shows only for particular combinations of accesses.", "anchors": ["lib/smack/SmackInstGenerator.cpp:visitLoadInst", "lib/smack/SmackInstGenerator.cpp:visitStoreInst", "lib/smack/SmackRep.cpp:load", "lib/smack/SmackRep.cpp:store", "lib/smack/SmackRep.cpp:ptrArith", "lib/smack/Regions.cpp:idx", "lib/smack/Prelude.cpp:generateArithDecls", "lib/smack/SmackRep.cpp:alloca", "share/smack/lib/smack.c:1806-1829"]}
{"id": "C68", "title": "Every call names exactly one declared procedure of matching type", "statement": "For every module: each call emitted by SmackRep::call, valueAnnotation and returnValueAnnotation names exactly one procedure among those declared by SmackRep::procedure for all functions, with one parameter of the argument's Boogie type for every argument, and the result type of the function; the names of versions of variadic functions are equal exactly for equal argument types; no two declared procedures and no two parameters of one have the same name; findCallers terminates and returns exactly the call instructions that use the function directly or through non-call values.", "quantifier": "all modules, function signatures, call and invoke sites, use graphs, lists of argument types, type modes", "why_tests_cant": "The set of argument type lists and use graphs is unbounded; a name clash or a missing version depends on a particular combination of functions and calls across the module.", "anchors": ["lib/smack/SmackRep.cpp:23-50", "lib/smack/SmackRep.cpp:199-244", "lib/smack/SmackRep.cpp:350-450", "lib/smack/SmackRep.cpp:1015-1122", "lib/smack/SmackModuleGenerator.cpp:50-66"]}
{"id": "C69", "title": "Programs with calls and recursion keep their behaviour", "statement": "For every program of functions that call each other, recursively or not: every execution of a function in LLVM's semantics that returns or fails an assertion, in the function itself or in a call at any depth, has a counterpart in the generated Boogie procedures with the same number of active calls, which returns the corresponding value or fails the same assertion on corresponding operands; and every execution of the procedures comes from an LLVM execution, or the program has undefined behaviour or leaves what the encoding represents.", "quantifier": "all programs and call graphs, all functions and bodies, all recursion depths, all executions, arguments, initial memories and initial values of local variables", "why_tests_cant": "Recursion depth, call graphs and executions are unbounded; a mistake that swaps arguments, loses a result or an assertion only in nested calls needs the right program and the right depth.", "anchors": ["lib/smack/SmackInstGenerator.cpp:633-815", "lib/smack/SmackRep.cpp:1015-1122", "lib/smack/SmackModuleGenerator.cpp:50-110", "lib/smack/SmackInstGenerator.cpp:200-330"]}
{"id": "C70", "title": "Exceptions propagate through calls as in LLVM", "statement": "For every program: when a called function throws (resume), the generated program continues at the unwind destination if the call is an invoke, with the exception as the value of its landing pad, and otherwise leaves the calling function with the same exception; when it returns, execution continues normally. The values of $exn and $exnv before the call do not matter. Every execution of the generated procedures is an execution of LLVM and conversely.", "quantifier": "all programs, call graphs, nestings of handlers, recursion depths, executions, exceptions, initial values of $exn and $exnv, operations", "why_tests_cant": "Whether a stale flag is read depends on the history of calls, returns and handlers; the combinations of nesting and call graphs are unbounded.", "anchors": ["lib/smack/SmackInstGenerator.cpp:240-248", "lib/smack/SmackInstGenerator.cpp:305-327", "lib/smack/SmackInstGenerator.cpp:633-815", "lib/smack/SmackInstGenerator.cpp:867-874", "lib/smack/BoogieAst.cpp:275"]}
{"id": "C71", "title": "The prelude is a well-typed Boogie program with unique names", "statement": "For every combination of integer encoding, pointer encoding and float mode, and both pointer sizes: every function declaration in the prelude is accepted by Boogie's type checker (its types are declared, its body has the result type, every function applied in it is declared with matching types), every axiom is boolean, no function or type is declared twice, different functions have different printed names, and the bodies that Boogie inlines are not recursive.", "quantifier": "all option combinations, pointer sizes, integer widths and pairs of widths, floating-point formats, declarations", "why_tests_cant": "There are 32 combinations of options and thousands of generated declarations in each; a regression uses few of them, and an ill-typed or doubly declared function that the input does not call is only found if the whole file is checked in that combination.", "anchors": ["lib/smack/Prelude.cpp:44-1860", "lib/smack/SmackRep.cpp:57-73", "lib/smack/SmackRep.cpp:154-192", "lib/smack/SmackRep.cpp:571-614"]}
{"id": "C73", "title": "Built-in functions of the prelude are SMT-LIB operators of the right type and meaning", "statement": "Every prelude function with a :builtin or :bvbuiltin attribute names an operator that SMT-LIB defines at exactly the parameter and result types of the function, and it is the operator with the meaning of the function.", "quantifier": "all option combinations, pointer sizes, widths, floating-point formats, declarations", "why_tests_cant": "An attribute is only looked at by the solver when the function is used; the table has hundreds of instances per mode and many are never used by regressions.", "anchors": ["lib/smack/Prelude.cpp:276-283", "lib/smack/Prelude.cpp:478-544", "lib/smack/Prelude.cpp:690-717", "lib/smack/Prelude.cpp:811-895", "lib/smack/Prelude.cpp:1007-1045", "lib/smack/Prelude.cpp:1323-1708"]}
{"id": "C72", "title": "Generated expressions and statements are well typed against the prelude", "statement": "For every combination of integer encoding, pointer encoding, float mode and pointer size, the Boogie expression that SMACK generates for a well-formed LLVM value has the Boogie type that represents its LLVM type, and every statement generated for a well-formed LLVM instruction is accepted by Boogie's type checker against the prelude of the same mode and the declared memory variables: each function applied is declared and its arguments have the declared types.", "quantifier": "all option combinations, all values including nested constant expressions, all instructions translated to expressions, all integer widths, all memory regions produced by any sequence of accesses", "why_tests_cant": "The names are assembled from strings in the generator and independently in the prelude; whether they agree depends on the combination of mode, operation, types and memory region, of which the regressions use a small part.", "anchors": ["lib/smack/SmackRep.cpp:216-300", "lib/smack/SmackRep.cpp:491-1004", "lib/smack/SmackRep.cpp:1188-1222", "lib/smack/SmackInstGenerator.cpp:240-632", "lib/smack/SmackInstGenerator.cpp:890-1220", "lib/smack/Regions.cpp:77-137"]}
{"id": "C74", "title": "Rust programs using SMACK's vectors, boxes and allocation functions behave as with std", "statement": "For every sequence of operations on `Vec` (new, with_capacity, vec!, push, pop, append, insert, remove, len, indexing, drop) and its iterator (into_iter, next, next_back, size_hint, drop) that the compiler accepts, executing it with the library model in smack.rs has no undefined behaviour, gives the results that `std::vec::Vec` gives, panics exactly where std panics, drops the same elements in the same order, and leaves no memory allocated once all objects are dropped. `vec![val; count]`, `Box` and the allocator functions (`alloc`, `alloc_zeroed`, `realloc`, `dealloc`) meet their documented contracts.", "quantifier": "all operation sequences over any number of vectors and iterators, all element types (any size, including zero-sized), all element values, all initial contents of allocated memory", "why_tests_cant": "The regressions run short scripts within the initial capacity of 32 on a few element types; capacity growth, zero-sized elements, drop order and the contents of fresh memory need arbitrary sequences.", "anchors": ["share/smack/lib/smack.rs:152-218", "share/smack/lib/smack.rs:268-449", "share/smack/lib/smack.rs:452-562", "share/smack/lib/smack.rs:564-612", "share/smack/frontend.py:366-383"]}
{"id": "C75", "title": "The mathematics library model meets the C standard", "statement": "With `--float`, the functions of `<math.h>` modelled in math.c (fabs, fdim, round, lround, rint, nearbyint, lrint, floor, ceil, trunc, remainder, fmin, fmax, fmod, modf, copysign, nan, and the classification macros isnormal, isinf, isnan, signbit, fpclassify, isfinite) return what C17 section 7.12 and annex F prescribe, for `float`, `double` and `long double`, in every rounding mode; the LLVM instruction `frem` is `fmod`; `fegetround` and `fesetround` report and set the rounding mode that the other functions use.", "quantifier": "all argument values including zeros, subnormal numbers, infinities and NaNs, all rounding modes, all formats", "why_tests_cant": "The regressions for math.c are disabled (skip: true) and use a handful of literals; exactness of fmod and modf in every rounding mode, halfway cases and signed zeros concern all 2^64 or 2^80 encodings.", "anchors": ["share/smack/lib/math.c:1-517", "share/smack/lib/fenv.c:7-39", "share/smack/include/math.h:7-63", "share/smack/include/fenv.h:7-10", "lib/smack/Prelude.cpp:180-181", "lib/smack/Prelude.cpp:1323-1392", "lib/smack/Prelude.cpp:1550-1709", "lib/smack/SmackRep.cpp:1188-1221"]}
{"id": "C76", "title": "Calls mean what their callee means", "statement": "Each annotation function of smack.h and contract function of smack-contracts.h is translated to its annotation wherever it is called; a call or invoke of any other function is translated to a call of that function; `__VERIFIER_assert` is skipped exactly in functions that are not to be checked; the result of an undefined function may be any value the function could return; results of `__SMACK…` and `__VERIFIER…` functions are recorded.", "quantifier": "all function names, call sites and option values", "why_tests_cant": "The dispatch is on arbitrary names by substring; tests only call the documented functions.", "anchors": ["lib/smack/SmackInstGenerator.cpp:visitCallInst", "lib/smack/SmackInstGenerator.cpp:visitInvokeInst", "lib/smack/SmackRep.cpp:287-290", "lib/smack/Prelude.cpp:1149-1158"]}
{"id": "C77", "title": "Rust programs: panics, entry point and allocation", "statement": "With --rust-panics every call of a panic function in a function to be checked becomes a failing assertion in its place and nothing else does; `lang_start` in main is replaced by the real main function; allocation functions are replaced by their models; start-up and panic functions lose their bodies; everything else is unchanged.", "quantifier": "all modules, function names and option values", "why_tests_cant": "The pass matches arbitrary mangled names in arbitrary bodies; tests contain few panics and no panic in an invoke.", "anchors": ["lib/smack/RustFixes.cpp:30-155", "lib/smack/SmackInstGenerator.cpp:649-656", "lib/smack/Naming.cpp:65-75"]}
{"id": "C78", "title": "strtok returns the tokens of a string", "statement": "Calling strtok with a string and then repeatedly with a null pointer returns the maximal delimiter-free pieces of the string from left to right and then null; every returned token is a terminated string; only the delimiters that end returned tokens are overwritten; a call with a string makes later calls continue that string.", "quantifier": "all strings, delimiter sets, numbers of calls and earlier uses of strtok", "why_tests_cant": "Unbounded strings and sequences of calls, with state kept in a static variable between them.", "anchors": ["share/smack/lib/string.c:strtok"]}
{"id": "C79", "title": "Numeric conversion, environment, error messages and exit are over-approximated", "statement": "For strtol, strtoul, strtoull, strtod, getenv and strerror every result that the C standard allows is a possible result of the model, and nothing but *endptr or the returned buffer is written; exit and abort never return, and report a leak exactly when memory safety is checked and memory is allocated.", "quantifier": "all strings, buffers and nondeterministic values", "why_tests_cant": "The results are nondeterministic; a missing value shows only as a missed bug.", "anchors": ["share/smack/lib/stdlib.c:8-97", "share/smack/lib/string.c:196-201"]}
{"id": "C80", "title": "Contract calls become equivalent contract clauses", "statement": "Every call of requires or ensures outside of loops becomes a clause of its kind of the procedure, and every invariant an assertion at the header of its loop; a clause holds exactly when the argument of its call holds where the call is reached (and holds when the call is not reached); removing the contract code changes no result of the function.", "quantifier": "all functions as graphs of blocks, all interpretations of their instructions, all loops and regions", "why_tests_cant": "Contract code is cut out of arbitrary control flow; equivalence is about all executions, including those that leave the region early.", "anchors": ["lib/smack/ExtractContracts.cpp", "lib/smack/SmackInstGenerator.cpp:728-757", "lib/smack/BoogieAst.cpp:256-282"]}
{"id": "C81", "title": "The overflow pass preserves executions and reports exactly the overflows", "statement": "After the integer overflow pass every function has the same executions as before, with the same return values, memories and failures, except that in a checked function, when overflow checking is on, an execution that reaches an overflow intrinsic whose exact result is not representable, or a UBSan overflow handler, fails in the overflow check instead; without overflow checking nothing changes.", "quantifier": "all functions in SSA form (any control flow, loops included), all placements of intrinsics and extractvalues, all operand widths and values, all interpretations of the other instructions, all option settings", "why_tests_cant": "The pass moves the flow of values from extractvalues to new instructions across arbitrary control flow; equality of all executions, including loops that run the intrinsic again, cannot be sampled.", "anchors": ["lib/smack/IntegerOverflowChecker.cpp:119-210", "share/smack/lib/smack.c:1407-1410"]}
{"id": "C82", "title": "The checks in the verified program are the requested ones", "statement": "The arguments of --check select exactly the properties they name (the assertions if none is named); the program given to the verifier contains the assertions of every requested property and no active assertion of any other, also in competition mode.", "quantifier": "all command lines, all programs", "why_tests_cant": "all combinations of properties, spellings and programs", "anchors": ["share/smack/top.py:VProperty", "share/smack/top.py:llvm_to_bpl", "share/smack/frontend.py:default_clang_compile_command", "share/smack/svcomp/utils.py:verify_bpl_svcomp"]}
{"id": "C83", "title": "Annotation of procedures for the verifier", "statement": "Every procedure of the Boogie file that is an entry point is marked as such; without modular verification Boogie gets the unroll bound for every other procedure; in modular verification exactly SMACK's support procedures are inlined; all other text stays as it is.", "quantifier": "all Boogie files, all entry points and options", "why_tests_cant": "arbitrary text and names", "anchors": ["share/smack/top.py:annotate_bpl", "share/smack/top.py:procedure_annotation"]}
{"id": "C84", "title": "The rewriting of bitwise operations preserves the executions of a function", "statement": "With --rewrite-bitwise-ops every function has, after the pass RewriteBitwiseOps, exactly the executions it has in LLVM (with the same results, memory and failures); the pass accepts every function, replaces exactly shifts by constants, masks 2^j-1 on the left of an and, and and/or of the widths with a library function, and leaves everything else and all functions with a SMACK name alone.", "quantifier": "all functions, all executions (including unbounded loops), all semantics of the other instructions", "why_tests_cant": "arbitrary control flow, all operand values", "anchors": ["lib/smack/RewriteBitwiseOps.cpp:runOnModule", "share/smack/lib/smack.c:__SMACK_and32"]}
{"id": "C85", "title": "The violation witness is a path from the entry to the violation with the inputs of the program", "statement": "In competition mode, for every error trace of Corral the graph written as witness is a path A0, A1, ... from the entry node to a violation node; its edges carry, in order, line, value, function and calling function of the results of __VERIFIER_nondet functions in the files of the program; a graph is produced for every trace of a program.", "quantifier": "all traces (any number of steps, calls, values, files, threads)", "why_tests_cant": "unbounded traces, arbitrary names", "anchors": ["share/smack/svcomp/toSVCOMPformat.py:smackJsonToXmlGraph", "share/smack/errtrace.py:json_output"]}
{"id": "C86", "title": "The steps of an error trace are those that the verifier reports", "statement": "json_output lists, for a trace of Corral, every call, return and value that Corral reports, in order, with file, line, column and thread, values as C constants and also as assumption; only calls and returns of SMACK's own procedures and the marker Done are left out; failsAt is the position of the last step at which an assertion fails.", "quantifier": "all traces (any number of steps and reports per step)", "why_tests_cant": "unbounded traces, arbitrary names and values", "anchors": ["share/smack/errtrace.py:json_output", "share/smack/errtrace.py:transform", "share/smack/errtrace.py:reformat_assignment"]}
{"id": "C87", "title": "The replay of an error trace gives the program the values of the trace", "statement": "extract_values reads from the verifier's output, for every external function, the results of its calls in order, and for the entry point the parameters of its last call; the stubs made of them return these values.", "quantifier": "all outputs (any number of lines, functions and values)", "why_tests_cant": "unbounded traces, arbitrary names and values", "anchors": ["share/smack/replay.py:extract", "share/smack/replay.py:extract_values", "share/smack/replay.py:harness"]}
{"id": "C88", "title": "The prelude is consistent and defines its functions completely", "statement": "For every combination of options, the types, constants, functions and axioms written by the prelude generator have a model, for all address bounds; the uninterpreted functions can be chosen freely within the axioms, and everything else is determined by this choice.", "quantifier": "all modes, all address bounds, all interpretations of the uninterpreted functions and of what SMT-LIB leaves open, all arguments", "why_tests_cant": "consistency is about all models; unbounded integers, all bit-vectors", "anchors": ["lib/smack/Prelude.cpp:getPrelude", "lib/smack/Prelude.cpp:generateArithOps", "lib/smack/Prelude.cpp:generateAddrBoundsAndPred"]}
{"id": "C89", "title": "The text emitted for a value denotes the value", "statement": "The Boogie expression emitted for an LLVM value (constants, operations, comparisons, conversions, select, getelementptr, nested arbitrarily), evaluated in any model of the prelude, is the value that LLVM gives it: equal with bit-vectors, congruent modulo 2^w with wrapped integers, equal with unbounded integers if nothing overflows; addresses are those that LLVM computes.", "quantifier": "all values (any nesting), all register contents, all models of the prelude", "why_tests_cant": "unbounded terms, all bit-vectors and integers, all models", "anchors": ["lib/smack/SmackRep.cpp:expr", "lib/smack/SmackRep.cpp:lit", "lib/smack/SmackRep.cpp:ptrArith", "lib/smack/Prelude.cpp:getPrelude"]}
{"id": "C90", "title": "The statements emitted for an instruction do what the instruction does", "statement": "Executed in any model of the prelude, in bit-vector mode, the statements emitted for an instruction on integers leave the state that LLVM's instruction leaves: arithmetic, comparisons, conversions, select, the bit-counting and bit-permuting intrinsics, branches, assumptions and returns, getelementptr, and load, store, atomicrmw and cmpxchg, which read and write the bytes (or the cell) at the address and change no other.", "quantifier": "all modes with bit-vectors, all instructions, operands of any nesting, all register and memory contents, all models of the prelude", "why_tests_cant": "all states and all models; unbounded operands", "anchors": ["lib/smack/SmackInstGenerator.cpp:visitLoadInst", "lib/smack/SmackInstGenerator.cpp:visitStoreInst", "lib/smack/SmackInstGenerator.cpp:visitAtomicRMWInst", "lib/smack/SmackInstGenerator.cpp:visitAtomicCmpXchgInst", "lib/smack/SmackInstGenerator.cpp:visitIntrinsicInst", "lib/smack/SmackRep.cpp:load", "lib/smack/SmackRep.cpp:store", "lib/smack/Prelude.cpp:generateMemOps"]}
{"id": "C91", "title": "Pointers and floating-point values in memory", "statement": "In every model of the prelude, storing a pointer or a floating-point value and loading it again yields the value, a store leaves the value's bytes in memory and changes nothing else, a load yields the value whose bytes are in memory, and the assumptions emitted with stores exclude no execution.", "quantifier": "all modes of the translation, all types of values, all memory contents, addresses and values, all models of the prelude", "why_tests_cant": "all memory contents and all models of uninterpreted functions", "anchors": ["lib/smack/Prelude.cpp:generateMemOps", "lib/smack/Prelude.cpp:generatePtrMemOps", "lib/smack/Prelude.cpp:generateFPMemOps", "lib/smack/SmackRep.cpp:load", "lib/smack/SmackRep.cpp:store", "lib/smack/SmackInstGenerator.cpp:inverseFPCastAssume"]}
{"id": "C92", "title": "The exit status of a run tells the verdict", "statement": "The exit status of the smack command is the code of the verdict that the verifier's output gives: the verifier was run on the translated program as the last command, every command before it succeeded, the status is the code of the result read from its output, and the result is printed. Status 0 means that the verifier ended in time and reported success; a verifier stopped by the time limit gives 126; a failing command never gives a verdict's status.", "quantifier": "all options, inputs and files, all behaviours of the external tools, all arrivals of signals", "why_tests_cant": "arbitrary tools, outputs, signals and file systems; front ends with unboundedly many commands", "anchors": ["share/smack/top.py:main", "share/smack/top.py:verify_bpl", "share/smack/top.py:frontend", "share/smack/utils.py:try_command", "share/smack/frontend.py", "share/smack/svcomp/utils.py:verify_bpl_svcomp"]}
{"id": "C93", "title": "A run leaves no temporary files behind", "statement": "After a run without --debug, however it ends (verdict, failing command, exception, signal, wrong command line), every file is as it was before, except the results named by the user.", "quantifier": "all options, inputs and files, all tools that write only the files they are given, all choices of unused names, all arrivals of signals", "why_tests_cant": "all points at which a run can fail, all file systems", "anchors": ["share/smack/utils.py:temporary_file", "share/smack/utils.py:remove_temp_files", "share/smack/top.py:main", "share/smack/top.py:clean_up_upon_sigterm", "share/smack/frontend.py"]}
{"id": "C94", "title": "The Boogie file of a run is the translation of the whole program", "statement": "After a run of the smack command the Boogie file holds the translation of the whole program: every input file compiled by the compiler of its language with the same options, its static entry points made visible, all linked together and with SMACK's library compiled for the same memory model, encoding and checks, translated with the options asked for, annotated, and reduced to the properties asked for. The verifier gets the bounds and the solver asked for and its findings are reported.", "quantifier": "all options, numbers of inputs of all languages, files, and behaviours of the tools", "why_tests_cant": "arbitrary many inputs and options, arbitrary tools", "anchors": ["share/smack/top.py:frontend", "share/smack/top.py:llvm_to_bpl", "share/smack/top.py:verify_bpl", "share/smack/top.py:target_selection", "share/smack/frontend.py:link_bc_files", "share/smack/frontend.py:default_clang_compile_command", "share/smack/frontend.py:default_build_libs", "share/smack/frontend.py:boogie_frontend"]}
{"id": "C95", "title": "The translator does what the driver's options ask for", "statement": "The command line that the smack command makes for llvm2bpl is accepted by llvm2bpl, and every option of llvm2bpl gets the value of the option of smack it stands for. The passes that llvm2bpl runs are exactly those asked for, in the orders they rely on, with the translation to Boogie last; entry points stay visible.", "quantifier": "all options, all entry points and checked functions, all file names", "why_tests_cant": "two programs in two languages agree on all combinations of 28 options with arbitrary values", "anchors": ["tools/llvm2bpl/llvm2bpl.cpp:main", "lib/smack/SmackOptions.cpp", "lib/smack/Debug.cpp", "share/smack/top.py:llvm_to_bpl"]}
{"id": "C96", "title": "Warnings tell about every approximation and how to avoid it", "statement": "Binary operations and intrinsics that the translator's mode does not model exactly are warned about, and only those, unless warnings are silenced. The warning names the place, the operation and exactly the missing options of smack; running smack again with these options removes the warning. Intrinsics are translated by their own statements iff these are exact in the mode.", "quantifier": "all options, operations, types, places and names", "why_tests_cant": "arbitrary names, places, sets of options; composition of two programs in two languages", "anchors": ["lib/smack/SmackWarnings.cpp:processApproximate", "lib/smack/SmackWarnings.cpp:warnOverApproximate", "lib/smack/SmackWarnings.cpp:isSatisfied", "lib/smack/SmackInstGenerator.cpp:visitBinaryOperator", "lib/smack/SmackInstGenerator.cpp:visitIntrinsicInst"]}
{"id": "C97", "title": "Printed programs can be read back", "statement": "Reading the text of a printed statement, block, procedure or other declaration gives the same statement or declaration back, with all its attributes, parameters, results, modified variables, contracts, local variables and blocks in their order, and the text after it is left; reading the declarations of a printed program gives the declarations. Different programs have different texts.", "quantifier": "all statements, blocks, declarations and programs with well-formed names and expressions", "why_tests_cant": "arbitrarily many declarations, blocks and statements with arbitrary names, expressions and comments", "anchors": ["lib/smack/BoogieAst.cpp:AssertStmt::print", "lib/smack/BoogieAst.cpp:CallStmt::print", "lib/smack/BoogieAst.cpp:AssignStmt::print", "lib/smack/BoogieAst.cpp:Block::print", "lib/smack/BoogieAst.cpp:ProcDecl::print", "lib/smack/BoogieAst.cpp:FuncDecl::print", "lib/smack/BoogieAst.cpp:Program::print"]}
{"id": "C98", "title": "Annotations say what the instruction carries", "statement": "The annotations that an instruction gets in the Boogie program are its source location, if asked for and known, and each of its metadata nodes with a name that begins with smack. or verifier., once, with their strings and integers; calls of debug intrinsics get none, and nothing else is annotated. With timing annotations each instruction of a function that is not SMACK's own says its text and its cost: 0 for verifier code, otherwise the answer of the target's cost model for this instruction, and none if the model knows none. The annotations can be read back from the Boogie file.", "quantifier": "all instructions, metadata, source locations, cost models and functions", "why_tests_cant": "arbitrary metadata, integers, names of files and instructions, and arbitrary cost models", "anchors": ["lib/smack/AddTiming.cpp:AddTiming::runOnFunction", "lib/smack/AddTiming.cpp:AddTiming::getInstructionCost", "lib/smack/SmackInstGenerator.cpp:SmackInstGenerator::annotate", "lib/smack/SmackInstGenerator.cpp:SmackInstGenerator::visitBasicBlock", "lib/smack/VerifierCodeMetadata.cpp:VerifierCodeMetadata::isMarked"]}
{"id": "C99", "title": "Static entry points become visible and nothing else changes", "statement": "After extern-statics a module has the same functions with the same names, arguments, attributes and code in the same order, and the same globals; all references mean the functions of the same names as before, also in recursive functions and tables of functions; the functions named as entry points have external linkage and the others have the linkage they had. The pass reports a change exactly if an entry point was not visible; a second run changes nothing. Modules that could be linked can still be linked.", "quantifier": "all modules with unique names and all lists of entry points", "why_tests_cant": "arbitrarily many functions that refer to each other", "anchors": ["tools/externalizer/ExternalizePass.cpp:externalizeFunction", "tools/externalizer/ExternalizePass.cpp:ExternalizePass::runOnModule"]}
{"id": "C100", "title": "Compilation databases are compiled to bitcode as given", "statement": "For an entry with a command, the JSON front end runs the command in the directory of the entry with the same words in the same order, except that object files given as output become bitcode files, optimization levels become 0, and -emit-llvm is added. For an entry with objects it links the bitcode files of these objects, that is the files the compilations write, and then the result with SMACK's libraries.", "quantifier": "all databases and all commands of words separated by single blanks, in which -o and levels are words of their own", "why_tests_cant": "arbitrary commands of arbitrary length and arbitrary file names", "anchors": ["share/smack/frontend.py:json_compilation_database_frontend"]}
{"id": "C101", "title": "The bitcode of a Cargo project is that of its crate", "statement": "For a Cargo manifest the front end builds the project into a new directory with the flags for Rust programs, and then links exactly the bitcode files of the target crate from this directory, each once: the crate of the library if the manifest names it, and that of the package otherwise, with dashes as underscores; no files of other crates, also not of crates whose names begin with that of the target. It stops exactly at manifests without a package. The programs of the package are linked.", "quantifier": "all manifests and all contents of the directory of the build", "why_tests_cant": "arbitrary names and arbitrarily many crates", "anchors": ["share/smack/frontend.py:cargo_frontend", "share/smack/frontend.py:default_cargo_compile_command", "share/smack/frontend.py:default_rust_compile_args"]}
{"id": "C102", "title": "Boogie's error traces are shown as places in the source", "statement": "For an error of the verifier Boogie the trace shown to the user has, in order, for each place in a Boogie file that Boogie names the source place said by the first annotation in the ten lines after it, and nothing for other places; immediate repetitions are shown once; each place is one line with file, line and column. The annotations that the translator writes for source locations are understood. The source place shown is one of the block that Boogie names.", "quantifier": "all Boogie files, traces and source locations", "why_tests_cant": "arbitrary files and traces of arbitrary length", "anchors": ["share/smack/errtrace.py:error_trace", "share/smack/errtrace.py:json_output"]}
{"id": "C103", "title": "The harness of a replay can be linked and behaves as in the trace", "statement": "The functions that a program misses are those that the linker names in its output. The harness that is linked with the program in order to replay an error defines every function that the linker misses, each once, and no other functions besides those that check and assume and the wrappers of the entry point; in any sequence of calls the k-th call of a missing function returns the k-th result of this function in the verifier's output, and nothing for functions without results there. The compiler accepts the harness.", "quantifier": "all outputs of the verifier, all sets of missing functions in all orders of iteration, all sequences of calls", "why_tests_cant": "unbounded traces and sequences of calls, arbitrary names, and an order of iteration that is not specified", "anchors": ["share/smack/replay.py:detect_missing_definitions", "share/smack/replay.py:harness", "share/smack/replay.py:SPECIAL_NAMES", "share/smack/replay.py:extract_values"]}
