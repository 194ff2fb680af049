{"id": "C01", "title": "memcpy copies exactly n bytes", "statement": "For every memory, length and pair of non-overlapping regions, memcpy(dest, src, n) returns dest, leaves in dest[0..n) the bytes src[0..n) held before the call, and changes no other byte of memory; this holds for the size-optimised build, the word-copy build (aligned path, hardware-unaligned path, and shift-and-merge path, 4- and 8-byte words, both endiannesses) and the x86-64 string-instruction build (with and without ermsb).", "quantifier": "all memory contents, all addresses and alignments of dest and src, all lengths n", "why_tests_cant": "dest/src misalignment, tail length and threshold interact; the input space (contents x alignments x lengths) is unbounded and tests sample only a few lengths", "anchors": ["src/mem/small.rs:memcpy", "src/mem/fast.rs:memcpy", "src/mem/impls.rs:copy_forward", "src/mem/x86_64.rs:copy_forward", "src/mem/x86_64.rs:rep_param"]}
{"id": "C02", "title": "memmove is correct for every overlap", "statement": "For every memory, length and pair of regions, however they overlap, memmove(dest, src, n) returns dest, leaves in dest[0..n) the bytes src[0..n) held before the call, and changes no other byte; in every build variant.", "quantifier": "all memory contents, all addresses (any overlap distance in either direction), all lengths n", "why_tests_cant": "the forward/backward choice relies on a wrapping subtraction and on word copies never clobbering unread source bytes; the overlap distance is an unbounded parameter", "anchors": ["src/mem/small.rs:memmove", "src/mem/fast.rs:memmove", "src/mem/impls.rs:copy_backward", "src/mem/impls.rs:copy_forward", "src/mem/x86_64.rs:copy_backward"]}
{"id": "C03", "title": "memset fills exactly n bytes", "statement": "For every memory, address, int c and length n, memset(s, c, n) returns s, makes each of the n bytes from s equal to the low 8 bits of c, and changes no other byte; in every build variant.", "quantifier": "all memory contents, addresses, fill values (including negative ints and ints above 255) and lengths", "why_tests_cant": "all alignments and lengths; off-by-one at the word/tail seams only shows at particular combinations", "anchors": ["src/mem/small.rs:memset", "src/mem/fast.rs:memset", "src/mem/impls.rs:set_bytes", "src/mem/x86_64.rs:set_bytes"]}
{"id": "C04", "title": "memcmp and bcmp compare unsigned bytes lexicographically", "statement": "memcmp(a, b, n) (and bcmp) is 0 exactly when the n bytes agree; otherwise it is a[i]-b[i] as unsigned bytes at the first differing index i < n. It depends on no byte beyond the first n. All build variants, including the 16/8/4/2/1-byte cascade, return the same value.", "quantifier": "all memory contents, addresses and lengths", "why_tests_cant": "the cascade narrows through five widths after the first mismatch; correctness is needed for every position of the first mismatch and every length", "anchors": ["src/mem/small.rs:memcmp", "src/mem/fast.rs:memcmp", "src/mem/fast.rs:bcmp", "src/mem/impls.rs:compare_bytes", "src/mem/x86_64.rs:compare_bytes"]}
{"id": "C05", "title": "strlen returns the index of the first NUL", "statement": "For every memory in which some byte at or after s is NUL, strlen(s) terminates and returns the least i with s[i] = 0; in every build variant (byte loop, SSE2 16-byte blocks, 8-byte words with the bit trick).", "quantifier": "all memory contents with a terminator, all start addresses (all alignments), all string lengths", "why_tests_cant": "the first partial block and the zero-byte bit trick must be right for all 2^64 word values and every alignment", "anchors": ["src/mem/small.rs:strlen", "src/mem/impls.rs:c_string_length", "src/mem/x86_64.rs:c_string_length"]}
{"id": "C06", "title": "Wide loads never touch a block with no byte of the operand", "statement": "Every load strlen performs is an aligned block (or single byte) that contains at least one byte of the string or its terminator, and every load the misaligned word-copy path of memcpy/memmove performs is an aligned word containing at least one byte of the source range; so no call can fault on a page that holds no operand byte. Stores stay inside dest[0..n).", "quantifier": "all addresses, lengths and contents", "why_tests_cant": "a fault needs an operand that ends exactly at an unmapped page; whether the over-read stays in the block has to hold for all alignments", "anchors": ["src/mem/x86_64.rs:c_string_length", "src/mem/impls.rs:copy_forward", "src/mem/impls.rs:copy_backward", "src/arch/riscv64.rs:oob_load"]}
{"id": "C07", "title": "A created thread's memory regions are disjoint and inside its mapping", "statement": "When create succeeds and the requested sizes do not overflow usize, the guard area, stack, TLS block and thread record lie inside the one region it mapped, pairwise disjoint, with the stack, TLS block and record readable and writable and everything from the mapping's start to the reported stack address inaccessible.", "quantifier": "all stack sizes, guard sizes, TLS segment sizes, TLS alignments that are powers of two up to the page size, page sizes and mapping addresses, on all five architectures (for p_align 0 and alignments above the page size see C11)", "why_tests_cant": "a layout overlap only shows for particular sizes and alignments; the parameters come from the linker and the caller", "anchors": ["src/thread/linux_raw.rs:create", "src/thread/linux_raw.rs:calculate_tls_size", "src/thread/linux_raw.rs:round_up"]}
{"id": "C08", "title": "The requested stack and guard sizes are honoured", "statement": "For a thread made by create(f, args, stack_size, guard_size), stack(t) reports an address and the requested sizes such that [addr, addr+stack_size) is readable and writable memory belonging only to that thread and the guard_size bytes below addr are inaccessible. (Claimed for all sizes; false when the sizes are so large that rounding wraps usize in a release build.)", "quantifier": "all stack_size, guard_size and page sizes", "why_tests_cant": "size arithmetic at boundaries and near usize::MAX", "anchors": ["src/thread/linux_raw.rs:create", "src/thread/linux_raw.rs:stack", "src/thread/linux_raw.rs:round_up"]}
{"id": "C09", "title": "Freeing a thread unmaps exactly what creating it mapped", "statement": "For every guard size and stack size accepted by create, the address and length passed to munmap when the thread is joined, or exits detached, are the ones mmap returned and was given. (Claimed for all guard sizes; the code loses it when guard_size is not a multiple of the page size, because the rounded size is used to map and the unrounded size to unmap.)", "quantifier": "all guard sizes, stack sizes, page sizes, mapping addresses", "why_tests_cant": "only page-multiple guard sizes are exercised by tests (default_guard_size)", "anchors": ["src/thread/linux_raw.rs:create", "src/thread/linux_raw.rs:free_memory", "src/thread/linux_raw.rs:exit"]}
{"id": "C10", "title": "stack() of the main thread describes the main stack", "statement": "After startup, stack(main thread) gives a lowest address and size with lowest address + size above the initial stack pointer and no wrap-around. (The code subtracts in the wrong order, so the reported size is negative-as-usize.)", "quantifier": "all initial stack pointers, stack limits and executable-name addresses", "why_tests_cant": "no test inspects it; it must hold for every stack limit", "anchors": ["src/thread/linux_raw.rs:initialize_main", "src/thread/linux_raw.rs:stack"]}
{"id": "C11", "title": "TLS block and thread record are correctly aligned", "statement": "In every thread the TLS block starts at an address that is a multiple of the PT_TLS alignment and the thread record (which holds the futex word and the ABI fields) is aligned for its type. (On x86 the record is misaligned if PT_TLS alignment is smaller than the record's.; a PT_TLS alignment of 0, which ELF allows, is taken for an alignment and makes TLS block and record coincide or the mapping empty; for alignments above the page size the TLS block is aligned only if mmap happens to return an address that is.)", "quantifier": "all PT_TLS sizes and power-of-two alignments up to the page size, all stack and guard sizes, all five architectures", "why_tests_cant": "alignment depends on linker-chosen values", "anchors": ["src/thread/linux_raw.rs:calculate_tls_size", "src/thread/linux_raw.rs:create", "src/thread/linux_raw.rs:initialize_main"]}
{"id": "C12", "title": "Every thread starts with a fresh copy of the TLS image", "statement": "When a thread's function starts (and, for the main thread, when constructors start), its TLS block holds the file_size bytes of the program's TLS initialiser followed by zeros up to mem_size, regardless of what other threads have done to theirs, and initialising it changes no memory outside the new thread's own block and record.", "quantifier": "all initialiser contents and sizes, all histories of other threads", "why_tests_cant": "needs all histories of writes by other threads and all image sizes", "anchors": ["src/thread/linux_raw.rs:initialize_tls", "src/thread/linux_raw.rs:create", "src/thread/linux_raw.rs:initialize_main"]}
{"id": "C13", "title": "current_tls_addr finds the byte of the TLS block", "statement": "On each thread, current_tls_addr(1, offset) is the address of the offset-th byte of that thread's TLS block (with the riscv64 bias of 0x800 applied to offset as its ABI says), and any other module number panics. (False on x86/x86-64 when PT_TLS mem_size is not a multiple of its alignment, and on aarch64/arm/riscv64 when the alignment is larger than the record forces.)", "quantifier": "all TLS sizes, alignments, offsets and thread addresses, five architectures", "why_tests_cant": "tests use one TLS segment whose size is a multiple of its alignment", "anchors": ["src/thread/linux_raw.rs:current_tls_addr", "src/thread/linux_raw.rs:calculate_tls_size", "src/arch/riscv64.rs:TLS_OFFSET"]}
{"id": "C14", "title": "Compiled thread-local accesses hit the TLS block", "statement": "The TLS block is where the ELF TLS ABI tells the linker it is: ending, rounded to its alignment, at the thread pointer on x86/x86-64; starting at thread pointer + TCB size rounded to the alignment on aarch64/arm; at the thread pointer on riscv64. (False for large alignments on the variant-I targets, and on 32-bit arm for every alignment.)", "quantifier": "all TLS sizes and alignments", "why_tests_cant": "depends on the executable's TLS segment; arm is not in CI", "anchors": ["src/thread/linux_raw.rs:Abi", "src/thread/linux_raw.rs:Metadata", "src/thread/linux_raw.rs:calculate_tls_size"]}
{"id": "C15", "title": "The thread function receives its arguments", "statement": "fn_ runs on the new thread with a slice of exactly args.len() values equal, in order, to args, stored inside the new thread's own stack, disjoint from TLS block and record, as long as they fit in the stack; the initial stack pointer has the architecture's required alignment. (On 32-bit arm the alignment is 4, not the AAPCS's 8.)", "quantifier": "all argument lists, stack sizes, mapping addresses", "why_tests_cant": "argument count, alignment and stack size combinations; assembly-level passing", "anchors": ["src/thread/linux_raw.rs:create", "src/thread/linux_raw.rs:entry", "src/arch/x86_64.rs:clone", "src/arch/x86.rs:clone", "src/arch/arm.rs:STACK_ALIGNMENT"]}
{"id": "C16", "title": "All threads share one stack canary at the ABI location", "statement": "In every reachable state every live thread's ABI canary slot holds the value of __stack_chk_guard chosen at startup from the kernel's random bytes, at offset 40 (x86-64) or 20 (x86) from the thread pointer.", "quantifier": "all thread-creation histories, all random values", "why_tests_cant": "induction over arbitrary creation trees", "anchors": ["src/thread/linux_raw.rs:initialize_main", "src/thread/linux_raw.rs:create", "src/thread/linux_raw.rs:initialize_tls", "src/thread/linux_raw.rs:Abi"]}
{"id": "C17", "title": "A failing create reports the error and leaves nothing behind", "statement": "create returns Err exactly when mmap, mprotect or clone fails, with that call's errno; when it returns Err no thread was started and no mapping remains. (The code never unmaps on the mprotect and clone failure paths, so the last part is false.)", "quantifier": "all failure points", "why_tests_cant": "failure injection at each system call is not possible in the tests", "anchors": ["src/thread/linux_raw.rs:create"]}
{"id": "C18", "title": "Default sizes are usable", "statement": "default_stack_size() is at least 128 KiB and at least the PT_GNU_STACK size; default_guard_size() is a positive multiple of the page size; creating with the defaults gives a thread whose memory is later unmapped exactly.", "quantifier": "all PT_GNU_STACK sizes and page sizes", "why_tests_cant": "depends on linker- and kernel-chosen values", "anchors": ["src/thread/linux_raw.rs:default_stack_size", "src/thread/linux_raw.rs:default_guard_size"]}
{"id": "C19", "title": "current() on a thread is the handle create returned", "statement": "The handle returned by create equals current() evaluated on the new thread; to_raw/from_raw and to_raw_non_null/from_raw_non_null are inverse; from_raw(null) panics; current_id() on a thread is id(handle).", "quantifier": "all layouts and addresses, five architectures", "why_tests_cant": "offset arithmetic for all record placements", "anchors": ["src/thread/linux_raw.rs:current", "src/thread/linux_raw.rs:current_metadata", "src/thread/linux_raw.rs:Thread"]}
{"id": "C20", "title": "join returns the thread function's return value", "statement": "Whenever join(t) returns normally, its result is exactly the value t's function returned (None for None), for every interleaving of t's exit with the join. (False of the code after a stray wake-up, see C21.)", "quantifier": "all schedules and return values", "why_tests_cant": "requires every interleaving of exit's stores, the kernel's tid clear and the joiner's loads", "anchors": ["src/thread/linux_raw.rs:join", "src/thread/linux_raw.rs:exit", "src/thread/linux_raw.rs:wait_for_exit"]}
{"id": "C21", "title": "join returns only after the thread has exited", "statement": "For every schedule, including interrupted waits and address reuse by later threads, when join(t) (or detach(t) on its waiting path) goes on to free t's memory, t has executed its last instruction. (False of the code when the kernel's exit wake-up of an earlier thread at the same address arrives late: futex_wait's success result ends the wait loop without rereading the word. Holds when no thread is created at an address with a wake-up outstanding.)", "quantifier": "all schedules of any number of threads", "why_tests_cant": "the failing schedule needs a reused mapping and a delayed kernel wake-up", "anchors": ["src/thread/linux_raw.rs:wait_for_exit", "src/thread/linux_raw.rs:join", "src/thread/linux_raw.rs:detach"]}
{"id": "C22", "title": "Thread memory is freed exactly once", "statement": "For every race between a thread's exit and one detach or one join of it, its memory is unmapped at most once, and by exactly one of the exiting thread, the detaching thread, or the joining thread.", "quantifier": "all schedules (every history, also with the late wake-ups of C21, up to the first access to freed memory)", "why_tests_cant": "two-party race on an atomic; tests run a handful of schedules", "anchors": ["src/thread/linux_raw.rs:exit", "src/thread/linux_raw.rs:detach", "src/thread/linux_raw.rs:join", "src/thread/linux_raw.rs:free_memory"]}
{"id": "C23", "title": "No use of thread memory after it is freed", "statement": "No thread (including the exiting thread itself after it unmaps its stack, and the kernel when it clears the exit-time tid word) reads or writes a thread's record, TLS or stack after that memory was unmapped. (False of the code after a stray wake-up, see C21; and, in builds without the `signal` feature, when a signal arrives at a detached thread that has unmapped its stack.)", "quantifier": "all schedules", "why_tests_cant": "use-after-free needs a precise interleaving", "anchors": ["src/thread/linux_raw.rs:exit", "src/thread/linux_raw.rs:detach", "src/arch/x86_64.rs:munmap_and_exit_thread"]}
{"id": "C24", "title": "No lost wake-up", "statement": "A thread blocked in join(t) or detach(t) is never left blocked after t's exit has been completed by the kernel: in every reachable state either t has not finished exiting or the waiter can run.", "quantifier": "all schedules, including interrupted waits (every history, also with the late wake-ups of C21, up to the first access to freed memory)", "why_tests_cant": "needs all interleavings of the check, the wait and the exit", "anchors": ["src/thread/linux_raw.rs:wait_for_exit"]}
{"id": "C25", "title": "No leak: joined or detached threads end up unmapped", "statement": "Once a created thread has exited and its join or detach has completed, its memory is no longer mapped; conversely the memory of a thread neither joined nor detached stays mapped, so its handle remains valid for id, stack, join and detach.", "quantifier": "all schedules (every history, also with the late wake-ups of C21, up to the first access to freed memory)", "why_tests_cant": "quantifies over complete executions", "anchors": ["src/thread/linux_raw.rs:exit", "src/thread/linux_raw.rs:detach", "src/thread/linux_raw.rs:free_memory"]}
{"id": "C26", "title": "id() tracks the running thread", "statement": "From the moment create returns until the thread has exited, id(t) is Some(tid) with tid the kernel's id for that thread, equal to current_id() evaluated on t; once the kernel has processed the exit of an undetached thread, id(t) is None, and stays None until it is freed.", "quantifier": "all schedules and tids (every history, also with the late wake-ups of C21, up to the first access to freed memory)", "why_tests_cant": "races between clone's stores and the child's exit", "anchors": ["src/thread/linux_raw.rs:id", "src/thread/linux_raw.rs:current_id", "src/thread/linux_raw.rs:create"]}
{"id": "C27", "title": "Handles of live threads are distinct", "statement": "Two threads that both have not been freed have different raw handle values, and tids of two running threads differ.", "quantifier": "all reachable states (every history, also with the late wake-ups of C21, up to the first access to freed memory)", "why_tests_cant": "induction over all histories with reuse of freed addresses", "anchors": ["src/thread/linux_raw.rs:Thread::to_raw", "src/thread/linux_raw.rs:create"]}
{"id": "C28", "title": "Thread at_exit functions run exactly once in LIFO order", "statement": "When a thread exits (its function returns, or program exit on that thread), each function it registered with thread::at_exit, including ones registered by such functions while they run, is called exactly once, each time the most recently registered one not yet called, before the thread's memory is released; if the loop ends, none is left. For program exit this is about functions registered before exit goes on to the program's own functions; one that a program at_exit function registers with thread::at_exit after that is never called.", "quantifier": "all sequences of registrations, including unbounded re-registration", "why_tests_cant": "registration histories are unbounded and may be self-referential", "anchors": ["src/thread/linux_raw.rs:at_exit", "src/thread/linux_raw.rs:call_dtors", "src/thread/linux_raw.rs:exit"]}
{"id": "C29", "title": "Program at_exit functions run exactly once in LIFO order, from any threads", "statement": "For every interleaving of threads calling program::at_exit and program::exit, every registered function is called at most once; each call takes the most recently registered function not yet taken; and when an exit call is done with them, every registered function has been taken, by it or by another thread that is in exit. Handlers run without the registration lock held, so they may register more.", "quantifier": "all numbers of threads, registrations and schedules", "why_tests_cant": "quantifies over schedules with concurrent exits", "anchors": ["src/program/linux_raw.rs:at_exit", "src/program/linux_raw.rs:exit", "src/program/linux_raw.rs:DTORS"]}
{"id": "C30", "title": "Exit phases run in order and the status is delivered", "statement": "exit(status) calls the calling thread's at_exit functions, then the program's, then the .fini_array functions each once from last to first, then ends the process with exactly status. immediate_exit(status) ends it with status and calls none.", "quantifier": "all sets of handlers, all statuses, all fini arrays", "why_tests_cant": "all combinations of handlers", "anchors": ["src/program/linux_raw.rs:exit", "src/program/linux_raw.rs:immediate_exit"]}
{"id": "C31", "title": "Concurrent exits do not repeat finalisers", "statement": "If several threads call exit concurrently, each .fini_array function still runs at most once and the process exits with the status of one of the callers. (Needs the thread and program-at-exit features: without either the code repeats finalisers. Without threads it holds if no .fini_array function calls exit; without program-at-exit, if exit is called once.)", "quantifier": "all schedules and numbers of exiting threads", "why_tests_cant": "needs concurrent exits", "anchors": ["src/program/linux_raw.rs:exit", "src/program/linux_raw.rs:DTORS"]}
{"id": "C32", "title": "Late registration never silently drops a handler", "statement": "Once exit has finished the at_exit functions, program::at_exit never returns (it blocks), so no registration reported as done is skipped. (Needs the thread feature: without it a registration made by a .fini_array function is silently dropped; it holds if no .fini_array function makes one.)", "quantifier": "all schedules", "why_tests_cant": "race between registration and the end of exit", "anchors": ["src/program/linux_raw.rs:exit", "src/program/linux_raw.rs:at_exit"]}
{"id": "C33", "title": "argc, argv and envp are recovered from the initial stack", "statement": "For every kernel-provided initial stack (argc, argv pointers, NULL, environment pointers, NULL, auxiliary vector) with argc below 2^31, the main function and constructors receive exactly argc, the address of argv[0]'s slot and the address of the first environment slot; and the auxiliary vector is found just after the environment's NULL.", "quantifier": "all argument and environment lists", "why_tests_cant": "unbounded lists; boundary at 0 arguments", "anchors": ["src/program/linux_raw.rs:compute_args", "src/relocate.rs:compute_auxp"]}
{"id": "C34", "title": "Startup calls constructors once in order, then main once, then exits with its result", "statement": "Program start initialises the runtime before any user code, calls each .init_array function once, in array order, with (argc, argv, envp), then origin_main once with the same, then exits with its return value as the process status.", "quantifier": "all init arrays, main results", "why_tests_cant": "unbounded array, and ordering between all phases", "anchors": ["src/program/linux_raw.rs:entry", "src/program/linux_raw.rs:init_runtime"]}
{"id": "C35", "title": "TLS and stack info is read correctly from any program header table", "statement": "If the program origin is linked into is the executable the kernel loaded (not a dynamic linker running another one), at some bias (dynamic address = static address + bias), and has a PT_PHDR or PT_DYNAMIC header (or bias 0), then the recorded TLS image address is PT_TLS's static address + bias with its sizes and alignment, whatever the order of headers; with no PT_TLS the image is empty with alignment 1; the stack size is PT_GNU_STACK's p_memsz or 0.", "quantifier": "all header tables, orders and biases", "why_tests_cant": "header order and presence vary with linkers", "anchors": ["src/thread/linux_raw.rs:initialize_startup_info"]}
{"id": "C36", "title": "Relocation happens exactly when needed, with the right offset", "statement": "relocate returns without touching memory when the program is already at its relocated addresses (static executable, or relocated by a dynamic linker); otherwise it uses as offset AT_ENTRY minus the header's entry address when there is no AT_BASE, and AT_BASE when there is one, which is the actual load bias in each of the four launch cases. (False for a dynamic linker whose unrelocated static entry address happens to equal the AT_ENTRY of the program it loads: then it does not relocate itself.)", "quantifier": "all auxiliary vectors and load addresses", "why_tests_cant": "needs all four launch modes and all biases", "anchors": ["src/relocate.rs:relocate", "src/relocate.rs:load_static_start"]}
{"id": "C37", "title": "Every relative relocation is applied once", "statement": "After relocation, each word named by a RELA entry holds addend + bias, each word named by a REL or RELR entry holds its previous content + bias, and every other word is unchanged (for tables naming each word at most once).", "quantifier": "all relocation tables and memories", "why_tests_cant": "tables come from the linker; all sizes and contents", "anchors": ["src/relocate.rs:relocate", "src/arch/x86_64.rs:relocation_load", "src/arch/x86_64.rs:relocation_store"]}
{"id": "C38", "title": "RELR tables decode to the addresses the format defines", "statement": "For every RELR table, the sequence of relocated addresses equals the one given by the ELF definition: an even entry names one word; an odd entry's bit k (1 <= k <= word bits - 1) names the (k-1)-th word after the last base, and the base then moves on by word-bits - 1 words.", "quantifier": "all RELR tables (any sequence of word values)", "why_tests_cant": "all 2^64 bitmaps and any table length; early exit must not skip the base advance", "anchors": ["src/relocate.rs:relocate"]}
{"id": "C39", "title": "An unsupported relocation traps before any later store", "statement": "If a RELA or REL table contains an entry of another type, the process traps at that entry; no later relocation is performed and user code is never reached.", "quantifier": "all tables", "why_tests_cant": "depends on position of the bad entry", "anchors": ["src/relocate.rs:relocate"]}
{"id": "C40", "title": "RELRO protects the region and nothing else", "statement": "The read-only protection applied after relocation covers every whole page of the RELRO segment, and no byte outside the pages that the segment overlaps; in particular, with a segment ending on a page boundary, it covers the segment completely and nothing after it. (With a segment that does not end on a page boundary the code protects writable data after it, or misses the tail.)", "quantifier": "all segment addresses, sizes, page sizes and biases", "why_tests_cant": "depends on linker layout and page size", "anchors": ["src/relocate.rs:relocate", "src/arch/x86_64.rs:relocation_mprotect_readonly"]}
{"id": "C41", "title": "sigaction installs the matching restorer and changes nothing else", "statement": "sigaction(sig, Some(a)) passes the kernel a's handler, mask and flags unchanged except that (other than on riscv64) the RESTORER flag is set and the restorer is the one for SIGINFO handlers exactly when a has the SIGINFO flag; sigaction(sig, None) passes no action. The previous action or error is returned as the kernel gave it.", "quantifier": "all actions, flags and signals", "why_tests_cant": "all flag combinations", "anchors": ["src/signal/linux_raw.rs:sigaction"]}
{"id": "C42", "title": "Returning from a handler restores the interrupted frame", "statement": "On each architecture, when a handler installed through sigaction returns, the restorer's system call and stack pointer are the ones with which the kernel finds the very frame it pushed for that handler kind.", "quantifier": "all stack pointers, both handler kinds, four architectures", "why_tests_cant": "depends on exact stack offsets for each frame kind", "anchors": ["src/arch/x86.rs:return_from_signal_handler_noinfo", "src/arch/x86_64.rs:return_from_signal_handler", "src/arch/arm.rs:return_from_signal_handler"]}
{"id": "C43", "title": "Process and thread entry meet the calling convention", "statement": "_start and the child side of clone enter Rust code with the documented arguments (initial stack pointer; function, argument pointer, argument count), a null return address, a null frame pointer where the code promises it, and (given an initial or child stack pointer aligned as the ABI demands of a stack) the alignment the ABI demands at function entry, on all five architectures, for every initial register content; clone passes the kernel its arguments in the kernel's order, and in the parent returns the kernel's result with all other registers restored.", "quantifier": "all initial register and stack contents", "why_tests_cant": "register-level behaviour for all values", "anchors": ["src/arch/x86_64.rs:_start", "src/arch/x86.rs:_start", "src/arch/x86.rs:clone", "src/arch/x86_64.rs:clone", "src/arch/aarch64.rs:clone", "src/arch/riscv64.rs:clone", "src/arch/arm.rs:clone"]}
{"id": "C44", "title": "The final unmap-and-exit touches no memory", "statement": "munmap_and_exit_thread issues munmap with exactly the given address and length, then exit with status 0, and between them executes no instruction that reads or writes memory, on all five architectures.", "quantifier": "all addresses, lengths and register contents", "why_tests_cant": "a stray stack access would only sometimes fault", "anchors": ["src/arch/x86_64.rs:munmap_and_exit_thread", "src/arch/x86.rs:munmap_and_exit_thread", "src/arch/aarch64.rs:munmap_and_exit_thread", "src/arch/riscv64.rs:munmap_and_exit_thread", "src/arch/arm.rs:munmap_and_exit_thread"]}
{"id": "C45", "title": "libc backend: arguments round-trip and are freed once", "statement": "In the libc-backed build, over any history with any number of threads: a created thread's function receives exactly args.len() values equal to args, join returns the function's result, and the argument block is freed exactly once, after the function returns. create reports the first libc failure. (If pthread_create fails the block is leaked for ever.)", "quantifier": "all argument lists, all failure points", "why_tests_cant": "unbounded lists, failure points", "anchors": ["src/thread/libc.rs:create"]}
{"id": "C46", "title": "getauxval answers supported keys and panics on others", "statement": "getauxval(AT_HWCAP / AT_HWCAP2 / AT_MINSIGSTKSZ) returns the kernel's value for that key; every other key panics rather than returning a wrong value. (False on 64-bit targets for keys of 2^32 and more: the key is truncated to 32 bits before the comparison.)", "quantifier": "all keys (all unsigned long values)", "why_tests_cant": "2^64 keys", "anchors": ["src/getauxval.rs:_getauxval"]}
{"id": "C47", "title": "The thread id survives fork", "statement": "After set_current_id_after_a_fork(tid) on a thread, current_id() and id(current()) are tid, and nothing else about the thread changes.", "quantifier": "all thread states and tids", "why_tests_cant": "state-preserving claim over all states", "anchors": ["src/thread/linux_raw.rs:set_current_id_after_a_fork"]}
{"id": "C48", "title": "Word accesses are aligned where the target needs it", "statement": "In every build, every store memcpy, memmove and memset make is naturally aligned (a k-byte store is at a multiple of k), and on targets without hardware unaligned access (riscv64, arm, and the size-optimised build) so is every load, whatever the alignment of the operands.", "quantifier": "all addresses, lengths, contents and overlaps", "why_tests_cant": "an unaligned access only misbehaves on some machines and for some combination of the two operand alignments and length; alignment must hold for every combination", "anchors": ["src/mem/impls.rs: copy_forward, copy_backward, set_bytes", "src/mem/x86_64.rs: rep_param"]}
{"id": "C49", "title": "libc backend: at_exit closures run once, newest first", "statement": "In the libc-backed build, closures given to thread::at_exit and program::at_exit run each exactly once, newest first (a closure may register more), given that libc calls its registered handlers newest first; each closure's box is freed when it runs and never used again.", "quantifier": "all orders of registrations and handler calls, all box addresses", "why_tests_cant": "unbounded nesting of registrations, address reuse", "anchors": ["src/thread/libc.rs:at_exit", "src/program/libc.rs:at_exit"]}
{"id": "C50", "title": "create asks the kernel for exactly the thread the API promises", "statement": "A successful create makes exactly one clone call; its flags make the child a thread of this process (sharing memory, files, signal handlers), give it the thread pointer at which current() is the returned handle, and have the kernel store the new id in the handle's id word for both sides and clear it (waking joiners) when the thread exits. When create returns, the record says: that id, not detached, no return value, mapping owned; clearing the id word makes id(handle) None and changes nothing else. The main thread's record owns no mapping, so freeing it unmaps nothing.", "quantifier": "all configurations, memories, requests and kernel answers, all five architectures", "why_tests_cant": "The flags and addresses matter only through kernel behaviour at the thread's exit on some schedule; a test sees one layout and one schedule.", "anchors": ["src/thread/linux_raw.rs: create, initialize_tls, initialize_main, ThreadData::new, CloneFlags", "src/arch/aarch64.rs: clone", "src/arch/arm.rs: clone", "src/arch/riscv64.rs: clone", "src/arch/x86.rs: clone", "src/arch/x86_64.rs: clone"]}
{"id": "C51", "title": "Every thread's thread pointer is the one it was given", "statement": "After set_thread_pointer(p) at startup, and in every thread created by clone (from any thread, to any depth), an access at any offset (also negative) from the architecture's thread-pointer register reaches the byte at that offset from the address that this thread was given; thread_pointer() returns that address (on x86/x86-64 through the self pointer stored there). clone's thread-pointer request is never refused by the kernel, and does not disturb the caller's own. On x86 this goes through the segment descriptor: whichever GDT slot the kernel chose.", "quantifier": "all five architectures, all addresses, all descriptor slots, all trees of thread creations, all memories and register contents", "why_tests_cant": "a wrong descriptor limit or slot shows only at offsets, or in threads, that a test does not touch; there are unboundedly many creation trees", "anchors": ["src/arch/aarch64.rs: set_thread_pointer, thread_pointer, clone", "src/arch/arm.rs: set_thread_pointer, thread_pointer, clone", "src/arch/riscv64.rs: set_thread_pointer, thread_pointer, clone", "src/arch/x86.rs: set_thread_pointer, thread_pointer, clone", "src/arch/x86_64.rs: set_thread_pointer, thread_pointer, clone", "src/thread/linux_raw.rs: create, initialize_main"]}
{"id": "C52", "title": "The self-relocation anchors are right before relocation", "statement": "The addresses of the ELF header and of the dynamic section that relocation starts from are the run-time addresses of those symbols, wherever the program was linked and loaded and before any relocation was applied.", "quantifier": "all link addresses, load biases (page multiples where the instruction set requires it) and distances within the instruction's reach, all five architectures", "why_tests_cant": "a displacement that is off in sign, rounding or carry is right for most layouts and wrong for a few; ASLR picks one per run", "anchors": ["src/arch/aarch64.rs: dynamic_table_addr, ehdr_addr", "src/arch/arm.rs: dynamic_table_addr, ehdr_addr", "src/arch/riscv64.rs: dynamic_table_addr, ehdr_addr", "src/arch/x86.rs: dynamic_table_addr, ehdr_addr", "src/arch/x86_64.rs: dynamic_table_addr, ehdr_addr"]}
{"id": "C53", "title": "libc backend: sigaction installs the given action", "statement": "In the libc-backed build, sigaction(sig, Some(action)) gives libc exactly that action and returns libc's old action or its error; sigaction(sig, None) only queries.", "quantifier": "all signals, actions, and all answers of libc; all contents a compiler may leave in storage that is out of scope", "why_tests_cant": "whether a pointer to an out-of-scope variable still reads the right bytes depends on the compiler, not on an input", "anchors": ["src/signal/libc.rs: sigaction"]}
{"id": "C54", "title": "libc backend: stack and default sizes", "statement": "In the libc-backed build, stack(thread) reports the stack address, stack size and guard size with which that thread was created, in that order, whatever happened since; default_stack_size and default_guard_size report the sizes used for new threads, from whichever thread they are asked.", "quantifier": "all histories of thread creations and exits, all calling threads", "why_tests_cant": "all histories; the answer from the main thread looks right", "anchors": ["src/thread/libc.rs: stack, default_stack_size, default_guard_size"]}
{"id": "C55", "title": "No data races on thread records", "statement": "Of any two non-atomic accesses to a thread's bookkeeping (initialised by create, used by the thread for at_exit and in its exit, read and freed by join, by detach or by the thread itself), one happens before the other in the memory model: no interleaving of create, at_exit, exit, join and detach has a data race.", "quantifier": "all histories of any number of threads, all schedules, all outcomes of the exit/detach race", "why_tests_cant": "a missing ordering shows only on some schedules and weakly ordered machines, if at all", "anchors": ["src/thread/linux_raw.rs: create, at_exit, exit, call_dtors, join, detach, free_memory, ThreadData"]}
{"id": "C56", "title": "create and join synchronize", "statement": "Everything a thread did before create happens before everything the new thread does; everything a thread did, in its function and in its at_exit functions, happens before everything its joiner does after join returned.", "quantifier": "all histories of any number of threads, all schedules, all client memory accesses", "why_tests_cant": "a missing ordering shows only on some schedules and weakly ordered machines, if at all", "anchors": ["src/thread/linux_raw.rs: create, entry, exit, join, wait_for_exit"]}
{"id": "C57", "title": "Debug builds agree with release builds", "statement": "None of origin's own debug assertions fires, and no arithmetic overflow panics, in a correct program: a well linked program relocates itself without a panic, joining, exiting and asking for one's id do not panic, the checks at the start of the program and of each thread pass, thread creation panics (before it maps anything) exactly for the sizes that do not fit the address space; and whenever a debug build gets through it has done exactly what a release build does: the same stores, system calls and results.", "quantifier": "all memories and tables for relocation, all thread histories, all sizes and TLS segments for creation", "why_tests_cant": "an assertion that fails only for some input or schedule is seen only there; and tests run in one build profile do not speak about the other", "anchors": ["src/relocate.rs: relocate", "src/thread/linux_raw.rs: join, exit, current_id, entry, create, calculate_tls_size, initialize_main, round_up"]}
{"id": "C58", "title": "Program start, end to end", "statement": "From the process image the kernel sets up, however the program is linked (static, self-relocating static PIE, relocated before, dynamic linker), entry reaches origin_main. Every .init_array function is called once, in order, before origin_main, at its relocated address, and all of them and origin_main get the argument count and the addresses of the argument and environment pointers of the initial stack. When the first of them runs, program memory is the initial memory with exactly the relocations applied, and the main thread's TLS block holds the relocated TLS image followed by zeros, the thread pointer designates the main thread with the kernel's id, and the canary is the kernel's random word. If instead a relocation is of an unsupported type or the kernel refuses to protect the RELRO segment, the process traps, and if the stack limit is unlimited it panics, in each case before any function of the program has been called.", "quantifier": "all ELF images, relocation tables, load addresses, arguments, environments, constructors", "why_tests_cant": "depends on the order of relocation, header scan, TLS set-up and constructor calls for every image; a test runs the few images its linker makes", "anchors": ["src/program/linux_raw.rs: entry, init_runtime, compute_args", "src/relocate.rs: relocate", "src/thread/linux_raw.rs: initialize_startup_info, initialize_main"]}
{"id": "C59", "title": "join waits for a thread's at_exit functions", "statement": "When join(h) returns, every function that h ever registered with thread::at_exit has been called; none is called or registered on h later. The same holds when h's memory is unmapped, whether by the joining thread, the detaching thread or by h itself: at_exit functions run while their thread's stack, TLS and record are in place. A thread's own exit calls them only after its function has returned.", "quantifier": "all programs, schedules and interleavings of any number of threads that create, join, detach, register functions (also from at_exit functions) and call exit; all address and id reuse by the kernel", "why_tests_cant": "a race between a joiner or detacher and a thread still in its at_exit functions depends on the schedule", "anchors": ["src/thread/linux_raw.rs: exit, call_dtors, at_exit, join, detach, wait_for_exit, free_memory"]}
{"id": "C60", "title": "Thread start, end to end", "statement": "When create(fn, args, stack, guard) succeeds, the new thread enters its entry function with fn, a pointer to exactly the arguments, and their number, as the outermost call (null return address and frame pointer, aligned stack except on arm), on a stack of which all but the arguments and 35 bytes is free: the one that stack(handle) reports, with the requested size, accessible, above an inaccessible guard of the requested size. There current() is the handle that create returns and current_id() is the kernel's id; on x86, x86-64, and on aarch64 and riscv64 for TLS alignments up to 8, every thread-local variable is found at the offset from the thread pointer that the compiler uses, with its initial value; on x86 and x86-64 the stack canary found there is the creating thread's. The new thread can in turn create threads.", "quantifier": "all TLS segments, argument lists, sizes, mapping addresses, ids, register choices of the compiler, initial register and memory contents, all trees of thread creations, five architectures", "why_tests_cant": "depends on the composition of layout arithmetic, memory writes, hand-written assembly and kernel conventions for every TLS size and alignment, argument count and architecture", "anchors": ["src/thread/linux_raw.rs: create, initialize_tls, calculate_tls_size, current, current_id, stack", "src/arch/aarch64.rs: clone, thread_pointer", "src/arch/arm.rs: clone, thread_pointer", "src/arch/riscv64.rs: clone, thread_pointer", "src/arch/x86.rs: clone, thread_pointer", "src/arch/x86_64.rs: clone, thread_pointer"]}
{"id": "C61", "title": "Exits complete, join and detach return, memory is released (liveness)", "statement": "On every fair schedule: a thread whose function has returned and whose at_exit functions have finished makes its exit system call and disappears; a call of join(h) returns if h ever finishes, whether before or after the call and however often the wait is interrupted by signals, and then h's memory is unmapped; a call of detach(h) returns whatever h does; a thread that was detached and finishes, in either order, has its memory unmapped without anybody doing anything more.", "quantifier": "all infinite fair executions of any number of threads that create, join, detach and exit; all interruptions, address and id reuse", "why_tests_cant": "a lost wake-up or a livelock between an exiting thread and its joiner shows only on particular infinite schedules", "anchors": ["src/thread/linux_raw.rs: exit, join, detach, wait_for_exit, free_memory"]}
{"id": "C62", "title": "Startup reaches origin_main, threads finish, exit ends the process (liveness)", "statement": "On every fair schedule of a program that registers finitely many functions, whose constructors, at_exit and .fini_array functions do not run for ever, and whose .fini_array functions call neither exit nor program::at_exit: origin_main is called, unless the process ends first; a thread whose function returns runs its at_exit functions to the end and is gone, unless the process ends first; once exit is called on any thread, or origin_main returns, the process ends, whatever the other threads do, and with that call's status if it is the only such call. immediate_exit ends the process without any of these assumptions about user code.", "quantifier": "all infinite fair executions of any number of threads that register functions, create threads and exit; all array sizes and feature sets", "why_tests_cant": "a deadlock on the list's lock, a livelock between exiting threads or a loop that fails to advance shows only on particular infinite schedules", "anchors": ["src/program/linux_raw.rs: entry, at_exit, exit, immediate_exit", "src/thread/linux_raw.rs: exit, call_dtors"]}
{"id": "C63", "title": "The whole program gets there: join returns the value, threads exit, memory is released, exit ends the process (liveness of everything together)", "statement": "On every fair schedule of a program with any number of threads that create, join and detach each other, register functions and exit (finitely many registrations; constructors, at_exit and .fini_array functions do not run for ever; .fini_array functions call neither exit nor program::at_exit), unless the process ends by an exit: if a thread's function returns v and some thread calls join on it, before or after, that join returns exactly v, with every at_exit function of the thread called, the thread gone and its memory unmapped; if instead somebody calls detach on it, its memory is unmapped after its at_exit functions have run; in any case the thread exits; origin_main is called. Once exit is called or origin_main returns, the process ends whatever the threads are doing.", "quantifier": "all infinite fair executions of threads, join, detach, registered functions and exit together; all interruptions, interleavings, address and id reuse", "why_tests_cant": "needs every infinite schedule; a wait that is never ended or a handler list that is never finished because of what another thread does at the same time is not observable in finite tests", "anchors": ["src/thread/linux_raw.rs: create, entry, exit, call_dtors, join, detach, wait_for_exit, free_memory, at_exit", "src/program/linux_raw.rs: entry, at_exit, exit"]}
{"id": "C64", "title": "errno is a thread-local variable", "statement": "With the feature unstable-errno, errno_location() called on a live thread gives an address in that thread's own record holding the value that thread last stored through it, or 0 if it has stored none: no creation, exit or store by another thread changes it. The slots of different live threads do not overlap, and a store to errno touches neither the stack canary nor the thread id word.", "quantifier": "all histories of thread creations, exits and errno stores by any threads; all architectures, page sizes, TLS segments and compiler layouts of the thread record", "why_tests_cant": "the address comes from layout arithmetic over the target, the TLS segment and the compiler's field order, and the value must survive every history of other threads' activity", "anchors": ["src/thread/linux_raw.rs: errno_location, current_metadata, ThreadData::new, create, initialize_main"]}
{"id": "C65", "title": "The memory functions leave the processor as the ABI wants it", "statement": "In the x86-64 build, a call of memcpy, memmove or memset made with the direction flag clear, as the ABI guarantees, leaves it clear, so any sequence of such calls does to memory exactly what the functions' specifications say, whatever the compiler keeps in the other registers and flags in between. Each inline-assembly block behind them changes no register other than those it declares to the compiler, and changes no status flag where it declares preserves_flags.", "quantifier": "all sequences of calls, all addresses, lengths and contents, both ermsb variants, all register assignments of the compiler, all register and flag contents", "why_tests_cant": "the direction flag and undeclared clobbers harm code that runs later, elsewhere, and depend on what the compiler keeps in registers and flags around the block", "anchors": ["src/mem/x86_64.rs: copy_forward, copy_backward, set_bytes", "src/mem/fast.rs: memcpy, memmove, memset"]}
{"id": "C66", "title": "Threads keep their guarantees in the child of a fork", "statement": "After a fork made by any thread, with set_current_id_after_a_fork called in the child, the calling thread is the child's only thread: it keeps its stack, TLS and record, is detached if it was detached before, and current_id returns the new id. In the child, and in its children, all that is promised of create, join, detach, id, current_id and thread exit holds: join returns exactly the value the function returned, and after the thread's last step; calls on a finished thread return; memory is freed exactly once and not used afterwards; ids are exact and cleared at exit. This includes the thread that called fork.", "quantifier": "all histories of any number of threads, all forks by any thread at any point in user code, at any depth, all schedules, addresses and ids; with and without CLONE_CHILD_CLEARTID in the fork wrapper", "why_tests_cant": "fork can happen at any point of any history, and what is left of the parent's state (locks of the protocol, kernel registrations, ids) matters later, in other schedules", "anchors": ["src/thread/linux_raw.rs: set_current_id_after_a_fork, exit, join, detach, wait_for_exit, current_id, Thread::from_raw"]}
{"id": "C67", "title": "at_exit and exit in the child of a fork", "statement": "After a fork made by user code on any thread, the child inherits the functions registered with program::at_exit and those its one thread registered with thread::at_exit, and all that is promised of them holds along the line of processes: each thread's functions are called in reverse order of registration and all of them before the thread is released or exit goes on; the program's functions are taken in reverse order, each once, none dropped; .fini_array functions are called once, last to first; the status is that of exit's argument. Functions other threads registered for themselves are not called in the child. In the child program::at_exit returns, exit and immediate_exit end the process, and returning threads finish.", "quantifier": "all histories of any number of threads, all forks from user code (main, thread functions, constructors, destructors, at_exit and .fini_array functions), at any depth, all schedules; with and without the thread feature", "why_tests_cant": "fork can fall at any point of the other threads' at_exit and exit calls; what they leave behind (the list, the lock) only matters later, in the child", "anchors": ["src/program/linux_raw.rs: at_exit, exit, immediate_exit, DTORS", "src/thread/linux_raw.rs: set_current_id_after_a_fork, at_exit, call_dtors, exit"]}
{"id": "C68", "title": "Logging does not disturb start, at_exit and exit", "statement": "With the log feature origin calls the program's logger at fixed points of program start, thread start, create, thread exit, exit and immediate_exit. The logger is code of the program's own and may, at each of these points, call back into origin: register functions with thread::at_exit and program::at_exit, create threads, call exit or immediate_exit. All that is promised of start, at_exit and exit still holds: each call is announced before it is made; constructors and origin_main are called in order, once; a thread's functions are announced in reverse order of registration, called once, and all of them before the thread is released; the program's functions are taken in reverse order, called once, by the exit call that took them, and none is dropped; .fini_array functions are called last to first, once; the status is that of the last call of exit on the thread; nothing comes after the end. The registration lock is not held while the logger runs, so that program::at_exit called by the logger returns. And on every fair schedule, if the logger returns whenever it is called, what origin starts it finishes: start reaches origin_main, a thread whose function returns is released after its functions have run, exit, immediate_exit and origin_main's return end the process, with the status of exit if that is the only exit call.", "quantifier": "all programs and loggers (any calls back into origin from any message), any number of threads, all schedules, all array lengths, all feature combinations; the logger does not register a function for a thread in that thread's last message, and does not call back into origin in the last message of exit (otherwise false: counterexamples)", "why_tests_cant": "what the logger does, from which message, on which thread and at what moment of the other threads' at_exit and exit calls is unbounded; most loggers in tests do nothing", "anchors": ["src/program/linux_raw.rs: entry, exit, immediate_exit (log::trace!)", "src/thread/linux_raw.rs: create, entry, exit, call_dtors (log::trace!), at_exit", "src/log.rs"]}
{"id": "C69", "title": "A program's behaviour is that of the documented API", "statement": "Whatever a program written against origin's API (constructors, origin_main, create, join, detach, id, thread::at_exit, program::at_exit, exit, immediate_exit, return, its own memory) does, in any schedule, is something the API as documented allows: there is a run of an abstract machine with no stacks, locks, records, futexes or kernel — threads run their functions, then their at_exit functions newest first; join waits for all of that and gives the function's value; exit runs the rest of the calling thread's functions, the program's newest first, the .fini_array functions last to first, and ends the process with its status; id gives a thread's id while it runs, at some moment after it has finished becomes None, and never gives the id again, nor once another thread has that id — that has the same memory and the same exit status at every moment; and the process is never killed for touching memory that is gone.", "quantifier": "all programs (any set of program points, loops, any number of threads, functions registered and threads created from anywhere), all memory contents, all schedules, kernel choices of addresses and ids, interrupted and spurious waits, all array lengths and feature combinations; programs with one thread besides the main one, programs that wait for no thread, and programs that only wait for threads created before the first wait: every history; other programs: histories without stray wake-ups (otherwise false: counterexample); without the signal feature, without signals on a stack that is gone if the program detaches", "why_tests_cant": "it quantifies over programs as well as schedules; each test is one program and a few schedules", "anchors": ["src/thread/linux_raw.rs: create, entry, exit, call_dtors, detach, join, wait_for_exit, free_memory, at_exit, id", "src/program/linux_raw.rs: entry, init_runtime, at_exit, exit, immediate_exit"]}
{"id": "C70", "title": "The repository's example and test programs", "statement": "In every schedule: the origin-start example prints a beginning of the six expected lines, in their order, and when it ends it has printed all of them and its status is 0; in the tests main-thread-dtors-adding-dtors, program-dtors-adding-dtors, thread-dtors-adding-dtors, tls, canary, thread-id and detach no assertion ever fails and the status, when they end, is the one the test expects (0, 0, 0, 200, 203, 201, 202); the examples tiny and origin-start-no-alloc end, when they end, with status 42, and 0 and their one line; the external-start example, with and without the init-array feature, never starts origin twice and prints what origin-start prints; none of them is killed for touching memory that is gone.", "quantifier": "all schedules, kernel choices of addresses and ids, interrupted and spurious waits, feature combinations with the features the programs use; detach without the signal feature: histories in which no signal handler runs on a stack that is gone (otherwise false: counterexample)", "why_tests_cant": "a run of the program is one schedule; the programs contain races (thread-id, detach) that a run resolves one way", "anchors": ["example-crates/origin-start/src/main.rs", "example-crates/tiny/src/main.rs", "example-crates/origin-start-no-alloc/src/main.rs", "example-crates/external-start/src/main.rs", "test-crates/origin-start/src/bin/abort-via-raise.rs", "test-crates/origin-start/src/bin/canary.rs", "test-crates/origin-start/src/bin/detach.rs", "test-crates/origin-start/src/bin/main-thread-dtors-adding-dtors.rs", "test-crates/origin-start/src/bin/program-dtors-adding-dtors.rs", "test-crates/origin-start/src/bin/thread-dtors-adding-dtors.rs", "test-crates/origin-start/src/bin/thread-id.rs", "test-crates/origin-start/src/bin/tls.rs", "test-crates/origin-start/src/bin/trap.rs", "tests/utils/mod.rs", "tests/test_crates.rs"]}
{"id": "C71", "title": "On a fair schedule a program does what the documented API promises", "statement": "A program that keeps to the contract of the API and registers finitely many functions, run on a fair schedule (no thread that can go on is passed over for ever, and the kernel completes exits), follows a fair run of the abstract machine of C69: at every moment the machine has the memory and the exit status of the program, no thread of the machine that can go on is passed over for ever, and Thread::id of a finished thread is None from some moment on (and consistent: never an id after None, never an id another thread has). So whatever the documented API makes certain - that a join returns, that all functions are run, that the process ends with some status - happens. The process is never killed for touching memory that is gone.", "quantifier": "all programs that keep to the contract in every run of the abstract machine (any set of program points, loops, any number of threads), all fair infinite schedules, kernel choices of addresses and ids, interrupted and spurious waits, all array lengths and feature combinations; the same classes of programs and histories as C69 (otherwise false: counterexample)", "why_tests_cant": "a liveness property of infinite schedules, quantified over programs; a test that hangs is only seen to time out, and one that does not hang is one schedule", "anchors": ["src/thread/linux_raw.rs: create, entry, exit, call_dtors, detach, join, wait_for_exit, at_exit, id", "src/program/linux_raw.rs: entry, at_exit, exit, immediate_exit"]}
{"id": "C72", "title": "The repository's example and test programs end", "statement": "On every fair schedule the origin-start example ends with status 0 having printed the six expected lines in their order, and the tests main-thread-dtors-adding-dtors, program-dtors-adding-dtors, thread-dtors-adding-dtors, tls, canary, thread-id and detach end with the status the test expects (0, 0, 0, 200, 203, 201, 202); so do the examples tiny, origin-start-no-alloc and external-start (42, 0, 0, with the expected lines); in particular, in thread-id the two threads always hear of each other and the main thread always sees the child's id become None.", "quantifier": "all fair infinite schedules, kernel choices of addresses and ids, interrupted and spurious waits, feature combinations with the features the programs use; detach without the signal feature: histories in which no signal handler runs on a stack that is gone", "why_tests_cant": "that a program ends on every fair schedule is a property of infinitely many infinite schedules; thread-id waits in loops, so there is no bound on the length of its runs", "anchors": ["example-crates/origin-start/src/main.rs", "example-crates/tiny/src/main.rs", "example-crates/origin-start-no-alloc/src/main.rs", "example-crates/external-start/src/main.rs", "test-crates/origin-start/src/bin/abort-via-raise.rs", "test-crates/origin-start/src/bin/canary.rs", "test-crates/origin-start/src/bin/detach.rs", "test-crates/origin-start/src/bin/main-thread-dtors-adding-dtors.rs", "test-crates/origin-start/src/bin/program-dtors-adding-dtors.rs", "test-crates/origin-start/src/bin/thread-dtors-adding-dtors.rs", "test-crates/origin-start/src/bin/thread-id.rs", "test-crates/origin-start/src/bin/tls.rs", "test-crates/origin-start/src/bin/trap.rs", "tests/test_crates.rs", "tests/utils/mod.rs"]}
{"id": "C73", "title": "The tiny-hello example writes its message", "statement": "Whatever the kernel answers to its calls of write, the tiny-hello example, when it ends with status 0, has written exactly its message; and if no write fails and not all of them write nothing it ends so on every fair schedule.", "quantifier": "all sequences of answers of write (any number of bytes up to those given, interrupted, failed), all schedules, all feature combinations; holds exactly when the first write that writes anything writes the whole message (otherwise false: counterexample)", "why_tests_cant": "short and interrupted writes depend on the kernel and on what the standard output is; a run writing to a pipe never sees them", "anchors": ["example-crates/tiny-hello/src/main.rs", "src/program/linux_raw.rs: immediate_exit, trap"]}
{"id": "C74", "title": "Fork and join is deterministic", "statement": "A program that creates any number of threads, each of which computes step by step on memory of its own, registers a thread::at_exit function that makes a last step, and returns a value, and that then joins them all: in every schedule, when it ends, every thread's memory is what its steps give when made one after another, the last step included, and the values join returned are those the threads returned, in order; its status is 0 and it is never killed for touching memory that is gone. On every fair schedule it ends.", "quantifier": "all numbers of threads, all computations (any type of memory, any lists of steps, any values), all schedules (fair ones for the ending), kernel choices of addresses and ids, interrupted and spurious waits, all feature combinations with the features used", "why_tests_cant": "the number of threads, the computations and the interleavings are unbounded; a test has one of each", "anchors": ["src/thread/linux_raw.rs: create, entry, exit, call_dtors, join, wait_for_exit, at_exit", "src/program/linux_raw.rs: entry, exit"]}
{"id": "C75", "title": "Panics in the functions origin calls", "statement": "With panics that unwind: if a function registered with at_exit panics while a call of exit made by user code runs it, the panic gets to the function that called exit, which may catch it and go on; only that call of exit is gone: the function that panicked is not called again, the other registered functions are still registered and are called, each once and in order, by the next exit, no lock stays locked (at_exit still works), and other threads do not notice; the exit status is that of the last exit that was not left. Any other panic (in a constructor or destructor function, in a function run when a thread exits or when origin_main has returned, or out of origin_main or a thread's function) aborts the process at once. On every fair schedule, an exit call ends the process unless a panic leaves it, threads still finish, and startup still reaches origin_main.", "quantifier": "all threads, schedules (fair ones for the endings), feature combinations, and panics: any number, at any point of any user function", "why_tests_cant": "which functions panic, at which point, on which threads and in which interleaving, is unbounded", "anchors": ["src/program/linux_raw.rs: entry, at_exit, exit", "src/thread/linux_raw.rs: entry, exit, call_dtors, at_exit"]}
{"id": "C76", "title": "Thread-local variables are per-thread", "statement": "In every reachable state, each byte of a live thread's thread-local variables holds what that thread last stored there, or the program's initialiser (zero beyond its file part) if it has stored nothing there: creating, ending and freeing threads and stores by other threads never change it. Variables found at the ABI's constant distance from the thread pointer and through current_tls_addr are the same bytes; distinct variables and variables of distinct live threads never share a byte; a store to a variable touches neither the thread's record (id, at_exit list, errno), nor any stack canary, nor the initialiser later threads start from. (Needs the two ways of finding variables to lead to the block: C13 and C14 say exactly when; false on arm for the thread-pointer way, and on x86/x86-64 for current_tls_addr when the TLS segment's size is not a multiple of its alignment.)", "quantifier": "all histories of thread creations, exits and stores to thread-local variables by any threads; all TLS segments, page sizes, architectures and compiler layouts of the thread record", "why_tests_cant": "the value must survive every history of other threads' activity, for every TLS segment the linker can produce; tests use one segment and one or two threads", "anchors": ["src/thread/linux_raw.rs: create, initialize_main, initialize_tls, calculate_tls_size, current_tls_addr, free_memory"]}
{"id": "C77", "title": "Signal handlers do not disturb start, at_exit and exit", "statement": "Signal handlers may run on any thread at any moment, also in the middle of at_exit, exit, a thread's exit or start-up, and in the middle of one another. If those that interrupt origin's own code only return or call immediate_exit (those that interrupt user code may do anything), then every history is one that could happen without signals: at_exit functions are called once and newest first, all phases of exit run in order with the given status, .fini_array functions are called once, no registration is dropped, constructors and origin_main run as documented. A handler that returns leaves everything as it was. immediate_exit from a handler always ends the process at once with its status, whatever was interrupted and whoever holds the lock, and no function is called after it. On a fair schedule, if handlers return and signals do not come for ever, exit still ends the process, threads finish and origin_main is reached.", "quantifier": "all schedules of any number of threads, all moments of delivery, any nesting of handlers, finite and infinite executions", "why_tests_cant": "a signal can arrive between any two instructions; the harmful windows (between taking and releasing the lock) are a few instructions wide", "anchors": ["src/program/linux_raw.rs: at_exit, exit, immediate_exit", "src/thread/linux_raw.rs: call_dtors, at_exit", "src/signal/linux_raw.rs: sigaction"]}
{"id": "C78", "title": "Panics and unwinding with the stub features", "statement": "With panic-handler-trap, a panic on any thread at any moment, in user code or in origin's own, ends the process at once by a trap, whatever is executing and whichever locks are held: no at_exit function, .fini_array function or other thread goes on, and there is no exit status; everything before it is a history that could happen without panics. With eh-personality-continue, an exception thrown by other code passes Rust frames as if they were not there: no landing pad (destructor or catch) of a Rust frame is entered, the other frames' cleanups and handlers get it as without the Rust frames, and if there are only Rust frames, raising it returns 'end of stack' with nothing run. An unwinder of another ABI version gets a fatal error from the first Rust frame and enters no landing pad.", "quantifier": "all schedules and moments of a panic; all stacks of frames with any personality routines, all exception classes and unwinder versions, raised and forced unwinding", "why_tests_cant": "stacks are of any depth and mix languages in any way, and a panic can come between any two steps of any thread", "anchors": ["src/stubs.rs: rust_eh_personality, panic"]}
{"id": "C79", "title": "Constructors run in order of priority; the logger is set up among them", "statement": "With the init-array feature, the functions that object files put in .init_array sections are called in the order of the sections' priorities: whenever one is called, all with a smaller priority have been called, and those without a priority come last; when origin_main is called, all of all object files have been called, each once. This is so whatever the logger does when the log feature is on. The logger's initialisation is one of them, with priority 99: whenever it is called, all functions with priorities below 99 have been called (c-scape's with 98, which sets up the environment variables the logger reads); whenever origin announces the call of a function with a greater priority or none, or of origin_main, the logger has been initialised, so it gets those messages; and the messages about the functions up to and including the initialisation itself are sent before it is, so the chosen logger never gets those.", "quantifier": "all sets of .init_array entries with any priorities, all orders the linker may choose among equal ones, all histories, any logger", "why_tests_cant": "the order depends on all object files of the final program; a test links one set", "anchors": ["src/log.rs: INIT_ARRAY, init", "src/program/linux_raw.rs: entry"]}
{"id": "C80", "title": "A program started by libc is taken over once and starts as from the kernel", "statement": "In a program that libc starts and whose .init_array has the function that hands over to program::start (the external-start example): program::start is called at most once, with the address of the word below argv, which is the initial stack pointer if argv is the kernel's, so the constructors and origin_main get the kernel's argc, argv and envp; libc's own main is never called; from then on everything that happens is what could happen in a process that the kernel starts with origin, so all that is promised of those holds; when origin calls the function that hands over again, it returns and does nothing else. If it is the only one with priority 0, libc calls no other constructor; then, with the init-array feature, each other one has been called exactly once, by origin, when origin_main is called. Otherwise those that the linker puts before it are called twice, by libc and by origin. Without the feature, as the example is built, no other constructor is ever called. On every fair schedule libc's calls come to that function, and origin_main is then called unless the process ends first, for programs that do what fair termination (C62) asks of them.", "quantifier": "all .init_array contents, all initial stacks, all histories of the process, finite and infinite, all fair schedules", "why_tests_cant": "the function is called twice, by two callers, and everything after the first call is arbitrary program behaviour", "anchors": ["src/program/linux_raw.rs: start, entry, compute_args", "example-crates/external-start/src/main.rs: EARLY_INIT_ARRAY, main"]}
{"id": "C81", "title": "program::at_exit synchronizes with the call of the function; no data races on the program's state", "statement": "Everything a thread does up to its registration of a function with program::at_exit happens before (in the memory model) everything the thread whose exit calls that function does from the call on, so the function sees all that its registering thread had written. Of any two accesses to the list of the program's functions, by any threads calling at_exit and exit, one happens before the other, so there is no data race on it; nothing but those accesses changes it; a thread's own list of at_exit functions is changed by that thread only. What program start sets up for all threads happens before everything that comes after it on any thread. (Nothing else is promised: what threads do without these calls is not ordered.)", "quantifier": "all executions, finite and infinite, any number of threads, all schedules, all feature combinations", "why_tests_cant": "a missing ordering shows only on some schedules and weakly ordered machines, if at all", "anchors": ["src/program/linux_raw.rs: DTORS, at_exit, exit, init_runtime", "src/thread/linux_raw.rs: at_exit, call_dtors"]}
