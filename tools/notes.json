{
 "_also": {
  "C36": [
   "Origin.Elf.C37_applied"
  ]
 },
 "C08": [
  "partial",
  "Proved for sizes whose rounding does not overflow usize; C08_overflow_false: a release build wraps and maps too little; C08_length_iff: the length asked of mmap has room for guard and stack exactly when guard, stack, TLS and record fit the address space. A debug build panics exactly for those sizes (C57_create_panics)."
 ],
 "C09": [
  "partial",
  "Proved for page-multiple guard sizes; C09_unaligned_guard_false: with any other guard size munmap is given the wrong address."
 ],
 "C10": [
  "partial",
  "C10_main_stack_false: the code's subtraction is reversed; C10_main_stack_partial gives what does hold (exact reported values), C10_unlimited_panics the panic with no stack limit."
 ],
 "C11": [
  "partial",
  "TLS alignment proved for all alignments up to the page size (C11_large_align_iff: above it, exactly when mmap's address is aligned; C11_align_zero_false: p_align 0); record alignment characterised exactly (C11_record_aligned_iff), true under the stated condition."
 ],
 "C13": [
  "partial",
  "Exact iff condition proved (C13_tls_addr_iff, C13_main_tls_addr_iff), and truth under the usual conditions."
 ],
 "C14": [
  "partial",
  "Exact iff condition proved (C14_abi_location_iff, C14_main_abi_location_iff), and truth under the usual conditions; never true on arm."
 ],
 "C15": [
  "partial",
  "Arguments proved unconditionally when they fit the stack; C15_args_in_stack_iff is the exact condition and C15_overrun_false shows what create does otherwise (it stores them below its mapping); stack alignment proved except on arm (C15_arm_misaligned)."
 ],
 "C17": [
  "partial",
  "Error reporting and no thread: proved. No mapping left: only when mmap itself fails; C17_leak proves the leak otherwise."
 ],
 "C20": [
  "partial",
  "Proved for every history, of each thread none of whose waiters gets a stray wake-up (whatever happens to other threads); C20_false is the counterexample in the code (see C21)."
 ],
 "C21": [
  "partial",
  "Proved for every history, of each thread none of whose waiters gets a stray wake-up; C21_no_early_reuse bounds when one is possible; C21_false is the counterexample in the code."
 ],
 "C23": [
  "partial",
  "C23_other_memory holds in every history; for a thread's own memory proved if none of its waiters gets a stray wake-up; C23_false, C23_late_signal_false are counterexamples in the code."
 ],
 "C28": [
  "proved",
  "C28_late_registration_not_called shows the boundary stated in the property."
 ],
 "C31": [
  "partial",
  "Proved with the thread and program-at-exit features; counterexamples without either (C31_without_*_false). Without the thread feature, with or without program-at-exit, proved of programs whose .fini_array functions do not call exit (C31_single_thread); with threads and without program-at-exit, as long as one exit call has been made (C31_one_exit). The counterexamples do just that, so the assumptions are needed."
 ],
 "C32": [
  "partial",
  "Proved with the thread feature; counterexample without it (C32_without_thread_false). Without it, proved of programs whose .fini_array functions do not call program::at_exit (C32_single_thread), as the counterexample's does."
 ],
 "C36": [
  "partial",
  "Not needed => untouched: proved for all launches. Needed => relocated by the actual load bias: proved when the unrelocated STATIC_START word differs from AT_ENTRY (always so for a static PIE); C36_false is the coincidence in which the code fails, C36_coincidence shows that it then always fails, and that it can affect a dynamic linker only."
 ],
 "C37": [
  "proved",
  "For the whole relocate function: auxv search, decision, dynamic section scan and the three table loops."
 ],
 "C40": [
  "partial",
  "Call, coverage of whole pages and no page outside: proved for all segments; exact for segments ending on a page boundary; C40_covered_iff, C40_nothing_after_iff and C40_exact_iff say exactly for which segments each half holds; C40_after_false and C40_tail_false show both failures."
 ],
 "C43": [
  "proved",
  "Null return address on x86/x86-64 uses that the kernel starts a process with a zero frame pointer. On arm create's child stack is only 4-aligned (C15_arm_misaligned), so the hypothesis on child_stack can fail there. The composition with create's own arguments is C60_thread_start."
 ],
 "C45": [
  "proved",
  "Includes the leak (C45_leak) that the property mentions."
 ],
 "C46": [
  "partial",
  "Proved for keys below 2^32 (all keys on 32-bit targets); C46_false: on 64-bit targets larger keys are truncated; C46_iff: exactly the keys affected."
 ],
 "C51": [
  "proved",
  "x86 through the GDT/user_desc model (set_thread_area, CLONE_SETTLS), the other architectures through their register. The register semantics are in Spec/ThreadPtr.lean."
 ],
 "C52": [
  "proved",
  "The instruction sequences and the relocation types that fill them are modelled (arm: A32 state). On aarch64 adrp needs a load bias that is a multiple of 4096, which the kernel guarantees; C52_aarch64_unaligned_false shows the need."
 ],
 "C53": [
  "partial",
  "The code passes a pointer to a variable of a match arm that is no longer live (src/signal/libc.rs:56-59), so the property is false (C53_false); C53_iff: it holds exactly when the storage still holds the action."
 ],
 "C54": [
  "partial",
  "stack: proved for all histories. The defaults are the calling thread's own sizes (C54_defaults_false), right on the main thread only (C54_defaults_partial)."
 ],
 "C55": [
  "partial",
  "Proved for every thread none of whose waiters gets a stray wake-up, whatever happens to the others; C55_false: a stray wake-up leads to a race. thread_id, written by the kernel, is not used as a source of ordering."
 ],
 "C56": [
  "partial",
  "create: proved for every history. join: proved for every thread none of whose waiters gets a stray wake-up; C56_join_false otherwise."
 ],
 "C57": [
  "partial",
  "relocate, create, initialize_main: a debug build that does not panic does what a release build does, for every memory and input; it does not panic for well linked programs (relocate), panics in create exactly when the memory does not fit the address space. Exit, current_id, fork assertions hold, and so do the precondition checks at the start of the program and of each thread (nightly ones included), for the frame layouts of compiled code. join's assertion: false after a stray wake-up (C57_join_assert_false), proved otherwise."
 ],
 "C35": [
  "proved",
  "C35_linker_false: the condition that _DYNAMIC is the program's own is needed; as a dynamic linker, origin computes a wrong bias from the other program's PT_DYNAMIC."
 ],
 "C58": [
  "proved",
  "Composes C33, C35, C36, C37, C12, C19. Hypotheses: mprotect of RELRO succeeds, the stack limit is finite (C10), no constructor overwrites .init_array, and the coincidence of C36_false is excluded. The failing starts are C58_bad_relocation, C58_bad_rel, C58_relro_refused (trap) and C58_unlimited (panic): none of them reaches a constructor or origin_main."
 ],
 "C59": [
  "partial",
  "Holds of every thread none of whose waiters gets a stray wake-up (the defect of C20/C21, where C59_false shows a join returning with the at_exit function not called); C59_after_return and C59_parts hold of all histories."
 ],
 "C60": [
  "proved",
  "Composes C07, C08, C12, C14, C15, C16, C19, C43, C51 on the machine state of the new thread. Hypotheses: the system calls succeed; nobody else writes the new mapping before the thread starts; the stack has room for the arguments and 35 bytes. The exceptions named in the statement are the defects of C14 and C15."
 ],
 "C61": [
  "partial",
  "Weak fairness per thread and for the kernel's wake-up. C61_detached_released holds of every history; the others hold of threads none of whose waiters gets a stray wake-up (the defect of C20/C21): C61_false is a fair execution in which a thread finishes, loses its memory to a joiner woken too early, and never exits."
 ],
 "C62": [
  "proved",
  "Weak fairness per thread: a waiter for the lock may lose the race for it again and again. C62_fini_exit_false and C62_fini_register_false: a .fini_array function that calls exit or program::at_exit hangs the process (exit keeps the lock), so that assumption is needed; so is that of finitely many registrations (C62_registering_false)."
 ],
 "C63": [
  "partial",
  "Composes C20, C21, C23, C25, C59, C61 and C62 in the combined model, under weak fairness for every thread and the kernel. Restriction: no stray wake-ups (the defect of C20/C21) and, without the signal feature, no late signals; C63_false is a fair execution of a well-behaved program in which a stray wake-up makes a join return the wrong value and the process crash."
 ],
 "C64": [
  "proved",
  "Histories as for C16, with stores through errno_location(). Alignment of the slot is C11's matter (C11_errno_aligned_iff: like the record, misaligned on x86/x86-64 with byte- or 2-aligned TLS)."
 ],
 "C65": [
  "partial",
  "Registers, direction flag and memory: proved for every block and every sequence of calls. Status flags: false of copy_backward's block, which declares preserves_flags but ends with the flags of its own add (C65_flags_false); proved for all other blocks."
 ],
 "C66": [
  "partial",
  "All of it for every thread but the one that called fork through a wrapper without CLONE_CHILD_CLEARTID (rustix's kernel_fork): set_current_id_after_a_fork stores the id but does not call set_tid_address, so the kernel never clears that thread's id: join of it never returns on any schedule, detach after its exit neither, its memory leaks, and id never becomes None (C66_join_false, C66_id_false). Theorems marked partial otherwise need the absence of stray wake-ups (the defect of C20/C21), as C20-C23 and C61 do. Handles of threads left behind in the parent must not be used in the child (client contract)."
 ],
 "C67": [
  "partial",
  "The order, once-only, completeness, status and who-is-left parts are proved for every fork. Progress in the child (at_exit returns, exit ends the process, threads finish) is proved if at the fork nobody held the lock of the program's functions, or the caller did as a .fini_array function (GoodFork; GoodFork.of gives it from 'no other thread is inside at_exit or exit'). It is false otherwise: set_current_id_after_a_fork does not reset the lock, so at_exit and exit hang in the child (C67_lock_lost_false, C67_exit_false, C67_exit_fini_false). A fork in the middle of another thread's push copies a half-updated list, but then the lock is held in the child for ever and the list is never read there."
 ],
 "C68": [
  "partial",
  "Everything stated, for every program and for every logger that does not (1) register a function with thread::at_exit in a thread's last message ('exiting as ...'): the thread's functions have been called by then, so the function is never called (C68_late_false); or (2) call back into origin in the last message of exit ('Program exiting with status'): exit has leaked the lock by then, so at_exit or exit called there never returns and the process does not end (C68_last_message_false). C68_announced, C68_end and C68_startup hold for every logger. A thread's functions are in reverse order as announced; as called, a function announced but not yet called is overtaken if the logger calls exit in its message. Liveness (C68_exit_ends_partial, C68_exit_status_partial, C68_immediate_ends_partial, C68_main_return_ends_partial, C68_thread_finishes_partial, C68_main_called_partial): as C62, for every fair schedule, if such a logger returns whenever it is called, the functions origin calls come to an end, finitely many functions are registered, and .fini_array functions (and the logger called by or for one) call neither exit nor program::at_exit."
 ],
 "C69": [
  "partial",
  "Every history of programs with at most one thread besides the main one (C69_refines_one_thread; without the signal feature: that do not detach), of programs that neither join nor detach (C69_refines_no_wait), of programs that only wait for threads created before the first wait (C69_refines_early_joins; C69_refines_early for those that detach). For every program: histories without stray wake-ups and late signals (C69_refines_partial). Without the restriction it is false: a program that creates and joins one thread, then another, can find the second not finished after join (C69_false). The answers of id on the abstract machine are consistent (AReachI): None is final, and an id given to a new thread is never again the answer for an older one; C69_id_stays_none and C69_ids_differ are programs that would see a violation. Results of system calls, including a refusal of create, are covered by the program's memory: the theorems hold for every memory, so for every stream of answers in it. The abstract machine includes the known behaviour that program::at_exit never returns once exit has found the list empty (C31). Memory accesses of the program are atomic steps (sequential consistency is assumed)."
 ],
 "C70": [
  "partial",
  "Every history of all the programs, except detach without the signal feature, for which histories with a signal on an unmapped stack are excluded; with one, the process is killed (C70_detach_false). The programs are transcribed by hand, one program point per statement that calls origin or does something observable."
 ],
 "C71": [
  "partial",
  "The same classes as C69: every fair schedule of programs with at most one thread besides the main one (C71_fair_one_thread), of programs that neither join nor detach (C71_fair_no_wait), of programs that only wait for threads created before the first wait (C71_fair_early_joins, C71_fair_early); for every program, fair schedules without stray wake-ups and late signals (C71_fair_partial). Without the restriction it is false (C71_false: C69's program, on a fair schedule). 'Keeps to the contract' is a condition on the abstract machine (Proper); that a program registers finitely many functions can be shown there too (many_of_settles). A program that registers functions for ever can keep another thread from ever getting the lock, as Mutex is not fair."
 ],
 "C72": [
  "partial",
  "Every fair schedule of all the programs, except detach without the signal feature, for which schedules with a signal on an unmapped stack are excluded; with one, the process is killed (C70_detach_false)."
 ],
 "C73": [
  "partial",
  "Exact condition C73_iff: the first write that writes anything writes the whole message. With a short write the example writes the beginning of the message again, and ends with status 0 or traps (C73_false)."
 ],
 "C74": [
  "proved",
  "For every job. The program is written in Spec/ForkJoin.lean; it creates all threads before it joins the first (a program that creates a thread after a join can be hit by a stray wake-up: C69_false)."
 ],
 "C75": [
  "proved",
  "What a panic does to the frames it passes is Rust's rule: it runs the destructors of what they hold (nothing, at these points) and aborts at a function with the \"C\" ABI (Rust 1.81 on; origin needs 1.84). Panics that user code catches before they leave it are part of user code."
 ],
 "C76": [
  "partial",
  "C76_value_partial: every history, for each way of finding variables that leads to the block (RouteOk; C76_usual: the usual programs; C76_compiled_iff: the condition is exact). Where one does not, the property is false: C76_arm_false, C76_dynamic_false."
 ],
 "C77": [
  "proved",
  "By a simulation (C77_same_history): dropping the handlers from a history with signals gives a history of the model of C28-C34. C77_at_exit_false shows why handlers that interrupt origin's own code must not call at_exit: the program hangs (DTORS' lock is not reentrant). thread::at_exit is one step in the model."
 ],
 "C78": [
  "proved",
  "The unwinder is environment, written down from the Itanium C++ ABI; that frames are told apart by distinct frame addresses is a hypothesis of C78_rust_frame_transparent."
 ],
 "C79": [
  "proved",
  "What the linker does with the sections (all entries, by priority, any order among equal ones, those without a priority last) is an assumption, written down as Linked. Origin's own debug messages go to whatever the log crate has set; that the chosen logger is set by the initialisation and not before is the log crate's doing."
 ],
 "C80": [
  "proved",
  "libc's loop (calls the entries in order, with argv) and that argv is the kernel's pointer are libc's doing and assumptions; constructors that libc calls before are taken to return or not. The limits (C80_twice, C80_ctor_called_twice; C80_without_init_array, C80_ctors_dropped) are part of the statement. What libc's start-up has done to the process before (its own TLS and thread pointer, which init_runtime replaces) is not modelled."
 ],
 "C81": [
  "proved",
  "Happens-before is program order, a mutex given back before it is taken, creation of a thread before what it does, and transitivity. That rustix_futex_sync::Mutex orders so is an assumption (its source is not in /repo). C81_not_total shows that the relation does not order everything."
 ]
}
