{
 "claims": [
  {
   "property": "C01",
   "status": "proved",
   "theorems": [
    "Origin.C01_memcpy"
   ],
   "note": ""
  },
  {
   "property": "C02",
   "status": "proved",
   "theorems": [
    "Origin.C02_memmove"
   ],
   "note": ""
  },
  {
   "property": "C03",
   "status": "proved",
   "theorems": [
    "Origin.C03_memset"
   ],
   "note": ""
  },
  {
   "property": "C04",
   "status": "proved",
   "theorems": [
    "Origin.C04_memcmp",
    "Origin.C04_builds_agree",
    "Origin.C04_zero_iff"
   ],
   "note": ""
  },
  {
   "property": "C05",
   "status": "proved",
   "theorems": [
    "Origin.C05_strlen",
    "Origin.C05_strlen_terminated"
   ],
   "note": ""
  },
  {
   "property": "C06",
   "status": "proved",
   "theorems": [
    "Origin.C06_copy_footprint",
    "Origin.C06_fill_footprint",
    "Origin.C06_cmp_footprint",
    "Origin.C06_scan_footprint",
    "Origin.C06_same_page"
   ],
   "note": ""
  },
  {
   "property": "C07",
   "status": "proved",
   "theorems": [
    "Origin.C07_regions",
    "Origin.C07_mprotect_valid"
   ],
   "note": ""
  },
  {
   "property": "C08",
   "status": "partial",
   "theorems": [
    "Origin.C08_length_iff",
    "Origin.C08_sizes_partial",
    "Origin.C08_overflow_false"
   ],
   "note": "Proved for sizes whose rounding does not overflow usize; C08_overflow_false: a release build wraps and maps too little; C08_length_iff: the length asked of mmap has room for guard and stack exactly when guard, stack, TLS and record fit the address space. A debug build panics exactly for those sizes (C57_create_panics)."
  },
  {
   "property": "C09",
   "status": "partial",
   "theorems": [
    "Origin.C09_unmap_partial",
    "Origin.C09_unaligned_guard_false"
   ],
   "note": "Proved for page-multiple guard sizes; C09_unaligned_guard_false: with any other guard size munmap is given the wrong address."
  },
  {
   "property": "C10",
   "status": "partial",
   "theorems": [
    "Origin.C10_main_stack_false",
    "Origin.C10_main_stack_partial",
    "Origin.C10_unlimited_panics"
   ],
   "note": "C10_main_stack_false: the code's subtraction is reversed; C10_main_stack_partial gives what does hold (exact reported values), C10_unlimited_panics the panic with no stack limit."
  },
  {
   "property": "C11",
   "status": "partial",
   "theorems": [
    "Origin.C11_errno_aligned_iff",
    "Origin.C11_align_zero_false",
    "Origin.C11_large_align_iff",
    "Origin.C11_tls_aligned",
    "Origin.C11_record_aligned_iff",
    "Origin.C11_record_aligned_partial",
    "Origin.C11_main_aligned"
   ],
   "note": "TLS alignment proved for all alignments up to the page size (C11_large_align_iff: above it, exactly when mmap's address is aligned; C11_align_zero_false: p_align 0); record alignment characterised exactly (C11_record_aligned_iff), true under the stated condition."
  },
  {
   "property": "C12",
   "status": "proved",
   "theorems": [
    "Origin.C12_tls_fresh",
    "Origin.C12_main_tls"
   ],
   "note": ""
  },
  {
   "property": "C13",
   "status": "partial",
   "theorems": [
    "Origin.C13_tls_addr_iff",
    "Origin.C13_tls_addr_partial",
    "Origin.C13_other_module",
    "Origin.C13_main_tls_addr_iff"
   ],
   "note": "Exact iff condition proved (C13_tls_addr_iff, C13_main_tls_addr_iff), and truth under the usual conditions."
  },
  {
   "property": "C14",
   "status": "partial",
   "theorems": [
    "Origin.C14_self_pointer",
    "Origin.C14_main_self_pointer",
    "Origin.C14_abi_location_iff",
    "Origin.C14_abi_location_partial",
    "Origin.C14_main_abi_location_iff"
   ],
   "note": "Exact iff condition proved (C14_abi_location_iff, C14_main_abi_location_iff), and truth under the usual conditions; never true on arm."
  },
  {
   "property": "C15",
   "status": "partial",
   "theorems": [
    "Origin.C15_args",
    "Origin.C15_args_in_stack_iff",
    "Origin.C15_overrun_false",
    "Origin.C15_stack_aligned_partial",
    "Origin.C15_arm_misaligned"
   ],
   "note": "Arguments proved unconditionally when they fit the stack; C15_args_in_stack_iff is the exact condition and C15_overrun_false shows what create does otherwise (it stores them below its mapping); stack alignment proved except on arm (C15_arm_misaligned)."
  },
  {
   "property": "C16",
   "status": "proved",
   "theorems": [
    "Origin.C16_canary",
    "Origin.C16_random"
   ],
   "note": ""
  },
  {
   "property": "C17",
   "status": "partial",
   "theorems": [
    "Origin.C17_error_iff",
    "Origin.C17_no_thread",
    "Origin.C17_no_mapping_partial",
    "Origin.C17_leak"
   ],
   "note": "Error reporting and no thread: proved. No mapping left: only when mmap itself fails; C17_leak proves the leak otherwise."
  },
  {
   "property": "C18",
   "status": "proved",
   "theorems": [
    "Origin.C18_default_stack",
    "Origin.C18_default_guard",
    "Origin.C18_defaults_unmap"
   ],
   "note": ""
  },
  {
   "property": "C19",
   "status": "proved",
   "theorems": [
    "Origin.C19_current",
    "Origin.C19_from_raw_null",
    "Origin.C19_round_trip",
    "Origin.C19_main_id"
   ],
   "note": ""
  },
  {
   "property": "C20",
   "status": "partial",
   "theorems": [
    "Origin.Life.C20_join_value_partial",
    "Origin.Life.C20_false"
   ],
   "note": "Proved for every history, of each thread none of whose waiters gets a stray wake-up (whatever happens to other threads); C20_false is the counterexample in the code (see C21)."
  },
  {
   "property": "C21",
   "status": "partial",
   "theorems": [
    "Origin.Life.C21_join_after_exit_partial",
    "Origin.Life.C21_no_early_reuse",
    "Origin.Life.C21_false"
   ],
   "note": "Proved for every history, of each thread none of whose waiters gets a stray wake-up; C21_no_early_reuse bounds when one is possible; C21_false is the counterexample in the code."
  },
  {
   "property": "C22",
   "status": "proved",
   "theorems": [
    "Origin.Life.C22_freed_once"
   ],
   "note": ""
  },
  {
   "property": "C23",
   "status": "partial",
   "theorems": [
    "Origin.Life.C23_other_memory",
    "Origin.Life.C23_no_use_after_free_partial",
    "Origin.Life.C23_false",
    "Origin.Life.C23_late_signal_false"
   ],
   "note": "C23_other_memory holds in every history; for a thread's own memory proved if none of its waiters gets a stray wake-up; C23_false, C23_late_signal_false are counterexamples in the code."
  },
  {
   "property": "C24",
   "status": "proved",
   "theorems": [
    "Origin.Life.C24_not_blocked",
    "Origin.Life.C24_call_completes"
   ],
   "note": ""
  },
  {
   "property": "C25",
   "status": "proved",
   "theorems": [
    "Origin.Life.C25_no_leak",
    "Origin.Life.C25_stays_mapped",
    "Origin.Life.C25_main_stays"
   ],
   "note": ""
  },
  {
   "property": "C26",
   "status": "proved",
   "theorems": [
    "Origin.Life.C26_id",
    "Origin.Life.C26_current_id"
   ],
   "note": ""
  },
  {
   "property": "C27",
   "status": "proved",
   "theorems": [
    "Origin.Life.C27_distinct",
    "Origin.C27_handles_distinct"
   ],
   "note": ""
  },
  {
   "property": "C28",
   "status": "proved",
   "theorems": [
    "Origin.Proc.C28_lifo",
    "Origin.Proc.C28_all_called",
    "Origin.Proc.C28_before_release",
    "Origin.Proc.C28_exit_all_called",
    "Origin.Proc.C28_progress",
    "Origin.Proc.C28_exit_first",
    "Origin.Proc.C28_late_registration_not_called"
   ],
   "note": "C28_late_registration_not_called shows the boundary stated in the property."
  },
  {
   "property": "C29",
   "status": "proved",
   "theorems": [
    "Origin.Proc.C29_lifo",
    "Origin.Proc.C29_called_once",
    "Origin.Proc.C29_all_taken",
    "Origin.Proc.C29_at_exit_completes"
   ],
   "note": ""
  },
  {
   "property": "C30",
   "status": "proved",
   "theorems": [
    "Origin.Proc.C30_course",
    "Origin.Proc.C30_immediate",
    "Origin.Proc.C30_status",
    "Origin.Proc.C30_end",
    "Origin.Proc.C30_progress"
   ],
   "note": ""
  },
  {
   "property": "C31",
   "status": "partial",
   "theorems": [
    "Origin.Proc.C31_fini_once",
    "Origin.Proc.C31_without_at_exit_false",
    "Origin.Proc.C31_without_thread_false",
    "Origin.Proc.C31_single_thread",
    "Origin.Proc.C31_one_exit"
   ],
   "note": "Proved with the thread and program-at-exit features; counterexamples without either (C31_without_*_false). Without the thread feature, with or without program-at-exit, proved of programs whose .fini_array functions do not call exit (C31_single_thread); with threads and without program-at-exit, as long as one exit call has been made (C31_one_exit). The counterexamples do just that, so the assumptions are needed."
  },
  {
   "property": "C32",
   "status": "partial",
   "theorems": [
    "Origin.Proc.C32_no_late_return",
    "Origin.Proc.C32_no_drop",
    "Origin.Proc.C32_blocks",
    "Origin.Proc.C32_without_thread_false",
    "Origin.Proc.C32_single_thread"
   ],
   "note": "Proved with the thread feature; counterexample without it (C32_without_thread_false). Without it, proved of programs whose .fini_array functions do not call program::at_exit (C32_single_thread), as the counterexample's does."
  },
  {
   "property": "C33",
   "status": "proved",
   "theorems": [
    "Origin.Boot.C33_args",
    "Origin.Boot.C33_auxv"
   ],
   "note": ""
  },
  {
   "property": "C34",
   "status": "proved",
   "theorems": [
    "Origin.Proc.C34_startup",
    "Origin.Proc.C34_first",
    "Origin.Proc.C34_exits_with_result"
   ],
   "note": ""
  },
  {
   "property": "C35",
   "status": "proved",
   "theorems": [
    "Origin.Elf.C35_startup_info",
    "Origin.Elf.C35_order",
    "Origin.Elf.C35_linker_false"
   ],
   "note": "C35_linker_false: the condition that _DYNAMIC is the program's own is needed; as a dynamic linker, origin computes a wrong bias from the other program's PT_DYNAMIC."
  },
  {
   "property": "C36",
   "status": "partial",
   "theorems": [
    "Origin.Elf.C36_coincidence",
    "Origin.Elf.C36_not_needed",
    "Origin.Elf.C36_after",
    "Origin.Elf.C36_needed_partial",
    "Origin.Elf.C36_false",
    "Origin.Elf.C37_applied"
   ],
   "note": "Not needed => untouched: proved for all launches. Needed => relocated by the actual load bias: proved when the unrelocated STATIC_START word differs from AT_ENTRY (always so for a static PIE); C36_false is the coincidence in which the code fails, C36_coincidence shows that it then always fails, and that it can affect a dynamic linker only."
  },
  {
   "property": "C37",
   "status": "proved",
   "theorems": [
    "Origin.Elf.C37_applied"
   ],
   "note": "For the whole relocate function: auxv search, decision, dynamic section scan and the three table loops."
  },
  {
   "property": "C38",
   "status": "proved",
   "theorems": [
    "Origin.Elf.C38_relr",
    "Origin.Elf.C38_loop"
   ],
   "note": ""
  },
  {
   "property": "C39",
   "status": "proved",
   "theorems": [
    "Origin.Elf.C39_rela",
    "Origin.Elf.C39_rel"
   ],
   "note": ""
  },
  {
   "property": "C40",
   "status": "partial",
   "theorems": [
    "Origin.Asm.C40_mprotect_call",
    "Origin.Elf.C40_covered_iff",
    "Origin.Elf.C40_nothing_after_iff",
    "Origin.Elf.C40_exact_iff",
    "Origin.Elf.C40_call",
    "Origin.Elf.C40_none",
    "Origin.Elf.C40_coverage",
    "Origin.Elf.C40_exact",
    "Origin.Elf.C40_after_false",
    "Origin.Elf.C40_tail_false"
   ],
   "note": "Call, coverage of whole pages and no page outside: proved for all segments; exact for segments ending on a page boundary; C40_covered_iff, C40_nothing_after_iff and C40_exact_iff say exactly for which segments each half holds; C40_after_false and C40_tail_false show both failures."
  },
  {
   "property": "C41",
   "status": "proved",
   "theorems": [
    "Origin.Asm.C41_sigaction"
   ],
   "note": ""
  },
  {
   "property": "C42",
   "status": "proved",
   "theorems": [
    "Origin.Asm.C42_sigreturn"
   ],
   "note": ""
  },
  {
   "property": "C43",
   "status": "proved",
   "theorems": [
    "Origin.Asm.C43_start",
    "Origin.Asm.C43_clone_request",
    "Origin.Asm.C43_clone_child",
    "Origin.Asm.C43_clone_parent"
   ],
   "note": "Null return address on x86/x86-64 uses that the kernel starts a process with a zero frame pointer. On arm create's child stack is only 4-aligned (C15_arm_misaligned), so the hypothesis on child_stack can fail there. The composition with create's own arguments is C60_thread_start."
  },
  {
   "property": "C44",
   "status": "proved",
   "theorems": [
    "Origin.Asm.C44_unmap_exit"
   ],
   "note": ""
  },
  {
   "property": "C45",
   "status": "proved",
   "theorems": [
    "Origin.Libc.C45_life",
    "Origin.Libc.C45_freed_once",
    "Origin.Libc.C45_create",
    "Origin.Libc.C45_leak"
   ],
   "note": "Includes the leak (C45_leak) that the property mentions."
  },
  {
   "property": "C46",
   "status": "partial",
   "theorems": [
    "Origin.Asm.C46_getauxval_partial",
    "Origin.Asm.C46_low_half",
    "Origin.Asm.C46_false",
    "Origin.Asm.C46_iff"
   ],
   "note": "Proved for keys below 2^32 (all keys on 32-bit targets); C46_false: on 64-bit targets larger keys are truncated; C46_iff: exactly the keys affected."
  },
  {
   "property": "C47",
   "status": "proved",
   "theorems": [
    "Origin.C47_fork_id"
   ],
   "note": ""
  },
  {
   "property": "C48",
   "status": "proved",
   "theorems": [
    "Origin.C48_aligned_accesses"
   ],
   "note": ""
  },
  {
   "property": "C49",
   "status": "proved",
   "theorems": [
    "Origin.Libc.C49_at_exit"
   ],
   "note": ""
  },
  {
   "property": "C50",
   "status": "proved",
   "theorems": [
    "Origin.C50_clone_request",
    "Origin.C50_record_created",
    "Origin.C50_id_cleared",
    "Origin.C50_main_record"
   ],
   "note": ""
  },
  {
   "property": "C51",
   "status": "proved",
   "theorems": [
    "Origin.Asm.C51_set_thread_pointer",
    "Origin.Asm.C51_thread_pointer",
    "Origin.Asm.C51_clone_accepted",
    "Origin.Asm.C51_created"
   ],
   "note": "x86 through the GDT/user_desc model (set_thread_area, CLONE_SETTLS), the other architectures through their register. The register semantics are in Spec/ThreadPtr.lean."
  },
  {
   "property": "C52",
   "status": "proved",
   "theorems": [
    "Origin.PcRel.C52_sym_addr",
    "Origin.PcRel.C52_aarch64_unaligned_false"
   ],
   "note": "The instruction sequences and the relocation types that fill them are modelled (arm: A32 state). On aarch64 adrp needs a load bias that is a multiple of 4096, which the kernel guarantees; C52_aarch64_unaligned_false shows the need."
  },
  {
   "property": "C53",
   "status": "partial",
   "theorems": [
    "Origin.Libc.C53_sigaction_partial",
    "Origin.Libc.C53_false",
    "Origin.Libc.C53_iff"
   ],
   "note": "The code passes a pointer to a variable of a match arm that is no longer live (src/signal/libc.rs:56-59), so the property is false (C53_false); C53_iff: it holds exactly when the storage still holds the action."
  },
  {
   "property": "C54",
   "status": "partial",
   "theorems": [
    "Origin.Libc.C54_stack",
    "Origin.Libc.C54_defaults_partial",
    "Origin.Libc.C54_defaults_false"
   ],
   "note": "stack: proved for all histories. The defaults are the calling thread's own sizes (C54_defaults_false), right on the main thread only (C54_defaults_partial)."
  },
  {
   "property": "C55",
   "status": "partial",
   "theorems": [
    "Origin.Life.C55_race_free_partial",
    "Origin.Life.C55_false"
   ],
   "note": "Proved for every thread none of whose waiters gets a stray wake-up, whatever happens to the others; C55_false: a stray wake-up leads to a race. thread_id, written by the kernel, is not used as a source of ordering."
  },
  {
   "property": "C56",
   "status": "partial",
   "theorems": [
    "Origin.Life.C56_join_synchronizes_partial",
    "Origin.Life.C56_create_synchronizes",
    "Origin.Life.C56_join_false"
   ],
   "note": "create: proved for every history. join: proved for every thread none of whose waiters gets a stray wake-up; C56_join_false otherwise."
  },
  {
   "property": "C57",
   "status": "partial",
   "theorems": [
    "Origin.Elf.C57_relocate_same",
    "Origin.Elf.C57_relocate_no_panic",
    "Origin.Elf.C57_relocate_not_needed",
    "Origin.Life.C57_join_assert_partial",
    "Origin.Life.C57_join_assert_false",
    "Origin.Life.C57_exit_assert",
    "Origin.Life.C57_current_id_assert",
    "Origin.C57_create_same",
    "Origin.C57_create_no_panic",
    "Origin.C57_create_panics",
    "Origin.C57_main_same",
    "Origin.C57_main_no_panic",
    "Origin.C57_main_unlimited",
    "Origin.C57_fork_id",
    "Origin.Asm.C57_thread_entry_checks",
    "Origin.Asm.C57_program_entry_checks"
   ],
   "note": "relocate, create, initialize_main: a debug build that does not panic does what a release build does, for every memory and input; it does not panic for well linked programs (relocate), panics in create exactly when the memory does not fit the address space. Exit, current_id, fork assertions hold, and so do the precondition checks at the start of the program and of each thread (nightly ones included), for the frame layouts of compiled code. join's assertion: false after a stray wake-up (C57_join_assert_false), proved otherwise."
  },
  {
   "property": "C58",
   "status": "proved",
   "theorems": [
    "Origin.Elf.C58_start",
    "Origin.Elf.C58_bad_relocation",
    "Origin.Elf.C58_bad_rel",
    "Origin.Elf.C58_relro_refused",
    "Origin.Elf.C58_unlimited"
   ],
   "note": "Composes C33, C35, C36, C37, C12, C19. Hypotheses: mprotect of RELRO succeeds, the stack limit is finite (C10), no constructor overwrites .init_array, and the coincidence of C36_false is excluded. The failing starts are C58_bad_relocation, C58_bad_rel, C58_relro_refused (trap) and C58_unlimited (panic): none of them reaches a constructor or origin_main."
  },
  {
   "property": "C59",
   "status": "partial",
   "theorems": [
    "Origin.Whole.C59_join_partial",
    "Origin.Whole.C59_unmap_partial",
    "Origin.Whole.C59_nothing_later_partial",
    "Origin.Whole.C59_after_return",
    "Origin.Whole.C59_parts",
    "Origin.Whole.C59_false"
   ],
   "note": "Holds of every thread none of whose waiters gets a stray wake-up (the defect of C20/C21, where C59_false shows a join returning with the at_exit function not called); C59_after_return and C59_parts hold of all histories."
  },
  {
   "property": "C60",
   "status": "proved",
   "theorems": [
    "Origin.Asm.C60_thread_start"
   ],
   "note": "Composes C07, C08, C12, C14, C15, C16, C19, C43, C51 on the machine state of the new thread. Hypotheses: the system calls succeed; nobody else writes the new mapping before the thread starts; the stack has room for the arguments and 35 bytes. The exceptions named in the statement are the defects of C14 and C15."
  },
  {
   "property": "C61",
   "status": "partial",
   "theorems": [
    "Origin.Life.C61_thread_exits_partial",
    "Origin.Life.C61_join_returns_partial",
    "Origin.Life.C61_detach_returns_partial",
    "Origin.Life.C61_detached_released",
    "Origin.Life.C61_false"
   ],
   "note": "Weak fairness per thread and for the kernel's wake-up. C61_detached_released holds of every history; the others hold of threads none of whose waiters gets a stray wake-up (the defect of C20/C21): C61_false is a fair execution in which a thread finishes, loses its memory to a joiner woken too early, and never exits."
  },
  {
   "property": "C62",
   "status": "proved",
   "theorems": [
    "Origin.Proc.C62_exit_ends",
    "Origin.Proc.C62_exit_status",
    "Origin.Proc.C62_immediate_ends",
    "Origin.Proc.C62_main_return_ends",
    "Origin.Proc.C62_thread_finishes",
    "Origin.Proc.C62_main_called",
    "Origin.Proc.C62_fini_exit_false",
    "Origin.Proc.C62_fini_register_false",
    "Origin.Proc.C62_registering_false"
   ],
   "note": "Weak fairness per thread: a waiter for the lock may lose the race for it again and again. C62_fini_exit_false and C62_fini_register_false: a .fini_array function that calls exit or program::at_exit hangs the process (exit keeps the lock), so that assumption is needed; so is that of finitely many registrations (C62_registering_false)."
  },
  {
   "property": "C63",
   "status": "partial",
   "theorems": [
    "Origin.Whole.C63_join_returns_partial",
    "Origin.Whole.C63_thread_exits_partial",
    "Origin.Whole.C63_detached_released_partial",
    "Origin.Whole.C63_exit_ends_partial",
    "Origin.Whole.C63_main_partial",
    "Origin.Whole.C63_false"
   ],
   "note": "Composes C20, C21, C23, C25, C59, C61 and C62 in the combined model, under weak fairness for every thread and the kernel. Restriction: no stray wake-ups (the defect of C20/C21) and, without the signal feature, no late signals; C63_false is a fair execution of a well-behaved program in which a stray wake-up makes a join return the wrong value and the process crash."
  },
  {
   "property": "C64",
   "status": "proved",
   "theorems": [
    "Origin.C64_errno_value",
    "Origin.C64_errno_place",
    "Origin.C64_errno_distinct"
   ],
   "note": "Histories as for C16, with stores through errno_location(). Alignment of the slot is C11's matter (C11_errno_aligned_iff: like the record, misaligned on x86/x86-64 with byte- or 2-aligned TLS)."
  },
  {
   "property": "C65",
   "status": "partial",
   "theorems": [
    "Origin.X86.C65_registers",
    "Origin.X86.C65_flags_partial",
    "Origin.X86.C65_flags_false",
    "Origin.X86.C65_call",
    "Origin.X86.C65_calls"
   ],
   "note": "Registers, direction flag and memory: proved for every block and every sequence of calls. Status flags: false of copy_backward's block, which declares preserves_flags but ends with the flags of its own add (C65_flags_false); proved for all other blocks."
  },
  {
   "property": "C66",
   "status": "partial",
   "theorems": [
    "Origin.Life.C66_child",
    "Origin.Life.C66_join_partial",
    "Origin.Life.C66_freed_once",
    "Origin.Life.C66_no_use_after_free_partial",
    "Origin.Life.C66_ids",
    "Origin.Life.C66_id_partial",
    "Origin.Life.C66_call_completes_partial",
    "Origin.Life.C66_thread_exits_partial",
    "Origin.Life.C66_calls_return_partial",
    "Origin.Life.C66_detached_released",
    "Origin.Life.C66_join_false",
    "Origin.Life.C66_id_false"
   ],
   "note": "All of it for every thread but the one that called fork through a wrapper without CLONE_CHILD_CLEARTID (rustix's kernel_fork): set_current_id_after_a_fork stores the id but does not call set_tid_address, so the kernel never clears that thread's id: join of it never returns on any schedule, detach after its exit neither, its memory leaks, and id never becomes None (C66_join_false, C66_id_false). Theorems marked partial otherwise need the absence of stray wake-ups (the defect of C20/C21), as C20-C23 and C61 do. Handles of threads left behind in the parent must not be used in the child (client contract)."
  },
  {
   "property": "C67",
   "status": "partial",
   "theorems": [
    "Origin.Proc.C67_thread_lifo",
    "Origin.Proc.C67_thread_all_called",
    "Origin.Proc.C67_exit_all_called",
    "Origin.Proc.C67_program_lifo",
    "Origin.Proc.C67_program_once",
    "Origin.Proc.C67_program_all",
    "Origin.Proc.C67_course",
    "Origin.Proc.C67_status",
    "Origin.Proc.C67_fini_once",
    "Origin.Proc.C67_no_drop",
    "Origin.Proc.C67_only_thread",
    "Origin.Proc.C67_exit_ends_partial",
    "Origin.Proc.C67_thread_finishes_partial",
    "Origin.Proc.C67_immediate_ends",
    "Origin.Proc.C67_at_exit_completes_partial",
    "Origin.Proc.C67_lock_lost_false",
    "Origin.Proc.C67_exit_false",
    "Origin.Proc.C67_exit_fini_false"
   ],
   "note": "The order, once-only, completeness, status and who-is-left parts are proved for every fork. Progress in the child (at_exit returns, exit ends the process, threads finish) is proved if at the fork nobody held the lock of the program's functions, or the caller did as a .fini_array function (GoodFork; GoodFork.of gives it from 'no other thread is inside at_exit or exit'). It is false otherwise: set_current_id_after_a_fork does not reset the lock, so at_exit and exit hang in the child (C67_lock_lost_false, C67_exit_false, C67_exit_fini_false). A fork in the middle of another thread's push copies a half-updated list, but then the lock is held in the child for ever and the list is never read there."
  },
  {
   "property": "C68",
   "status": "partial",
   "theorems": [
    "Origin.LogProc.C68_startup",
    "Origin.LogProc.C68_exit_ends_partial",
    "Origin.LogProc.C68_exit_status_partial",
    "Origin.LogProc.C68_immediate_ends_partial",
    "Origin.LogProc.C68_main_return_ends_partial",
    "Origin.LogProc.C68_thread_finishes_partial",
    "Origin.LogProc.C68_main_called_partial",
    "Origin.LogProc.C68_announced",
    "Origin.LogProc.C68_refines_partial",
    "Origin.LogProc.C68_thread_lifo_partial",
    "Origin.LogProc.C68_thread_once_partial",
    "Origin.LogProc.C68_thread_all_called_partial",
    "Origin.LogProc.C68_course_partial",
    "Origin.LogProc.C68_status_partial",
    "Origin.LogProc.C68_end",
    "Origin.LogProc.C68_exit_all_called_partial",
    "Origin.LogProc.C68_program_lifo_partial",
    "Origin.LogProc.C68_program_once_partial",
    "Origin.LogProc.C68_program_all_partial",
    "Origin.LogProc.C68_no_drop_partial",
    "Origin.LogProc.C68_startup_partial",
    "Origin.LogProc.C68_fini_once_partial",
    "Origin.LogProc.C68_at_exit_completes_partial",
    "Origin.LogProc.C68_progress_partial",
    "Origin.LogProc.C68_late_false",
    "Origin.LogProc.C68_last_message_false"
   ],
   "note": "Everything stated, for every program and for every logger that does not (1) register a function with thread::at_exit in a thread's last message ('exiting as ...'): the thread's functions have been called by then, so the function is never called (C68_late_false); or (2) call back into origin in the last message of exit ('Program exiting with status'): exit has leaked the lock by then, so at_exit or exit called there never returns and the process does not end (C68_last_message_false). C68_announced, C68_end and C68_startup hold for every logger. A thread's functions are in reverse order as announced; as called, a function announced but not yet called is overtaken if the logger calls exit in its message. Liveness (C68_exit_ends_partial, C68_exit_status_partial, C68_immediate_ends_partial, C68_main_return_ends_partial, C68_thread_finishes_partial, C68_main_called_partial): as C62, for every fair schedule, if such a logger returns whenever it is called, the functions origin calls come to an end, finitely many functions are registered, and .fini_array functions (and the logger called by or for one) call neither exit nor program::at_exit."
  },
  {
   "property": "C69",
   "status": "partial",
   "theorems": [
    "Origin.User.C69_id_stays_none",
    "Origin.User.C69_ids_differ",
    "Origin.User.C69_refines_partial",
    "Origin.User.C69_refines_one_thread",
    "Origin.User.C69_refines_no_wait",
    "Origin.User.C69_refines_early",
    "Origin.User.C69_refines_early_joins",
    "Origin.User.C69_false"
   ],
   "note": "Every history of programs with at most one thread besides the main one (C69_refines_one_thread; without the signal feature: that do not detach), of programs that neither join nor detach (C69_refines_no_wait), of programs that only wait for threads created before the first wait (C69_refines_early_joins; C69_refines_early for those that detach). For every program: histories without stray wake-ups and late signals (C69_refines_partial). Without the restriction it is false: a program that creates and joins one thread, then another, can find the second not finished after join (C69_false). The answers of id on the abstract machine are consistent (AReachI): None is final, and an id given to a new thread is never again the answer for an older one; C69_id_stays_none and C69_ids_differ are programs that would see a violation. Results of system calls, including a refusal of create, are covered by the program's memory: the theorems hold for every memory, so for every stream of answers in it. The abstract machine includes the known behaviour that program::at_exit never returns once exit has found the list empty (C31). Memory accesses of the program are atomic steps (sequential consistency is assumed)."
  },
  {
   "property": "C70",
   "status": "partial",
   "theorems": [
    "Origin.Programs.C70_tiny",
    "Origin.Programs.C70_no_alloc",
    "Origin.Programs.C70_external_start",
    "Origin.Programs.C70_origin_start",
    "Origin.Programs.C70_dtors_adding_dtors",
    "Origin.Programs.C70_tls",
    "Origin.Programs.C70_canary",
    "Origin.Programs.C70_thread_id",
    "Origin.Programs.C70_detach",
    "Origin.Programs.C70_detach_false"
   ],
   "note": "Every history of all the programs, except detach without the signal feature, for which histories with a signal on an unmapped stack are excluded; with one, the process is killed (C70_detach_false). The programs are transcribed by hand, one program point per statement that calls origin or does something observable."
  },
  {
   "property": "C71",
   "status": "partial",
   "theorems": [
    "Origin.User.C71_fair_partial",
    "Origin.User.C71_fair_one_thread",
    "Origin.User.C71_fair_no_wait",
    "Origin.User.C71_fair_early",
    "Origin.User.C71_fair_early_joins",
    "Origin.User.C71_false"
   ],
   "note": "The same classes as C69: every fair schedule of programs with at most one thread besides the main one (C71_fair_one_thread), of programs that neither join nor detach (C71_fair_no_wait), of programs that only wait for threads created before the first wait (C71_fair_early_joins, C71_fair_early); for every program, fair schedules without stray wake-ups and late signals (C71_fair_partial). Without the restriction it is false (C71_false: C69's program, on a fair schedule). 'Keeps to the contract' is a condition on the abstract machine (Proper); that a program registers finitely many functions can be shown there too (many_of_settles). A program that registers functions for ever can keep another thread from ever getting the lock, as Mutex is not fair."
  },
  {
   "property": "C72",
   "status": "partial",
   "theorems": [
    "Origin.Programs.C72_origin_start",
    "Origin.Programs.C72_dtors_adding_dtors",
    "Origin.Programs.C72_tls",
    "Origin.Programs.C72_canary",
    "Origin.Programs.C72_detach",
    "Origin.Programs.C72_thread_id",
    "Origin.Programs.C72_tiny",
    "Origin.Programs.C72_no_alloc",
    "Origin.Programs.C72_external_start"
   ],
   "note": "Every fair schedule of all the programs, except detach without the signal feature, for which schedules with a signal on an unmapped stack are excluded; with one, the process is killed (C70_detach_false)."
  },
  {
   "property": "C73",
   "status": "partial",
   "theorems": [
    "Origin.Programs.C73_iff",
    "Origin.Programs.C73_tiny_hello_partial",
    "Origin.Programs.C73_ends_partial",
    "Origin.Programs.C73_false"
   ],
   "note": "Exact condition C73_iff: the first write that writes anything writes the whole message. With a short write the example writes the beginning of the message again, and ends with status 0 or traps (C73_false)."
  },
  {
   "property": "C74",
   "status": "proved",
   "theorems": [
    "Origin.ForkJoin.C74_fork_join",
    "Origin.ForkJoin.C74_ends"
   ],
   "note": "For every job. The program is written in Spec/ForkJoin.lean; it creates all threads before it joins the first (a program that creates a thread after a join can be hit by a stray wake-up: C69_false)."
  },
  {
   "property": "C75",
   "status": "proved",
   "theorems": [
    "Origin.Proc.C75_thread_lifo",
    "Origin.Proc.C75_thread_all_called",
    "Origin.Proc.C75_before_release",
    "Origin.Proc.C75_exit_all_called",
    "Origin.Proc.C75_program_lifo",
    "Origin.Proc.C75_program_once",
    "Origin.Proc.C75_program_all",
    "Origin.Proc.C75_course",
    "Origin.Proc.C75_immediate",
    "Origin.Proc.C75_status",
    "Origin.Proc.C75_left_ends_nothing",
    "Origin.Proc.C75_end",
    "Origin.Proc.C75_fini_once",
    "Origin.Proc.C75_no_drop",
    "Origin.Proc.C75_at_exit_completes",
    "Origin.Proc.C75_startup",
    "Origin.Proc.C75_exits_with_result",
    "Origin.Proc.C75_progress",
    "Origin.Proc.C75_panics_once",
    "Origin.Proc.C75_panic_caught",
    "Origin.Proc.C75_panic_aborts",
    "Origin.Proc.C75_no_panic",
    "Origin.Proc.C75_exit_ends",
    "Origin.Proc.C75_main_exit_not_left",
    "Origin.Proc.C75_main_return_ends",
    "Origin.Proc.C75_immediate_ends",
    "Origin.Proc.C75_thread_finishes",
    "Origin.Proc.C75_main_called"
   ],
   "note": "What a panic does to the frames it passes is Rust's rule: it runs the destructors of what they hold (nothing, at these points) and aborts at a function with the \"C\" ABI (Rust 1.81 on; origin needs 1.84). Panics that user code catches before they leave it are part of user code."
  },
  {
   "property": "C76",
   "status": "partial",
   "theorems": [
    "Origin.C76_value_partial",
    "Origin.C76_same_byte",
    "Origin.C76_place",
    "Origin.C76_distinct",
    "Origin.C76_canary",
    "Origin.C76_compiled_iff",
    "Origin.C76_usual",
    "Origin.C76_arm_false",
    "Origin.C76_dynamic_false"
   ],
   "note": "C76_value_partial: every history, for each way of finding variables that leads to the block (RouteOk; C76_usual: the usual programs; C76_compiled_iff: the condition is exact). Where one does not, the property is false: C76_arm_false, C76_dynamic_false."
  },
  {
   "property": "C77",
   "status": "proved",
   "theorems": [
    "Origin.Proc.C77_same_history",
    "Origin.Proc.C77_thread_lifo",
    "Origin.Proc.C77_thread_all_called",
    "Origin.Proc.C77_program_once",
    "Origin.Proc.C77_program_all",
    "Origin.Proc.C77_course",
    "Origin.Proc.C77_status",
    "Origin.Proc.C77_fini_once",
    "Origin.Proc.C77_no_drop",
    "Origin.Proc.C77_startup",
    "Origin.Proc.C77_return",
    "Origin.Proc.C77_immediate",
    "Origin.Proc.C77_killed",
    "Origin.Proc.C77_progress",
    "Origin.Proc.C77_at_exit_false",
    "Origin.Proc.C77_fair",
    "Origin.Proc.C77_exit_ends",
    "Origin.Proc.C77_main_return_ends",
    "Origin.Proc.C77_main_called",
    "Origin.Proc.C77_thread_finishes"
   ],
   "note": "By a simulation (C77_same_history): dropping the handlers from a history with signals gives a history of the model of C28-C34. C77_at_exit_false shows why handlers that interrupt origin's own code must not call at_exit: the program hangs (DTORS' lock is not reentrant). thread::at_exit is one step in the model."
  },
  {
   "property": "C78",
   "status": "proved",
   "theorems": [
    "Origin.Stubs.C78_rust_frame_transparent",
    "Origin.Stubs.C78_rust_frame_transparent_forced",
    "Origin.Stubs.C78_no_landing_pads",
    "Origin.Stubs.C78_other_version",
    "Origin.Proc.C78_history",
    "Origin.Proc.C78_panic_ends_at_once",
    "Origin.Proc.C78_nothing_after"
   ],
   "note": "The unwinder is environment, written down from the Itanium C++ ABI; that frames are told apart by distinct frame addresses is a hypothesis of C78_rust_frame_transparent."
  },
  {
   "property": "C79",
   "status": "proved",
   "theorems": [
    "Origin.Ctors.C79_priority",
    "Origin.Ctors.C79_all",
    "Origin.Ctors.C79_logged_priority",
    "Origin.Ctors.C79_before_logger",
    "Origin.Ctors.C79_messages",
    "Origin.Ctors.C79_main_message",
    "Origin.Ctors.C79_lost"
   ],
   "note": "What the linker does with the sections (all entries, by priority, any order among equal ones, those without a priority last) is an assumption, written down as Linked. Origin's own debug messages go to whatever the log crate has set; that the chosen logger is set by the initialisation and not before is the log crate's doing."
  },
  {
   "property": "C80",
   "status": "proved",
   "theorems": [
    "Origin.Ctors.C80_once",
    "Origin.Ctors.C80_main_never",
    "Origin.Ctors.C80_refines",
    "Origin.Ctors.C80_args",
    "Origin.Ctors.C80_called",
    "Origin.Ctors.C80_second_call",
    "Origin.Ctors.C80_takes_over",
    "Origin.Ctors.C80_each_once",
    "Origin.Ctors.C80_twice",
    "Origin.Ctors.C80_without_init_array",
    "Origin.Ctors.C80_ctor_called_twice",
    "Origin.Ctors.C80_ctors_dropped",
    "Origin.Ctors.C80_execution",
    "Origin.Ctors.C80_gets_control",
    "Origin.Ctors.C80_main_called"
   ],
   "note": "libc's loop (calls the entries in order, with argv) and that argv is the kernel's pointer are libc's doing and assumptions; constructors that libc calls before are taken to return or not. The limits (C80_twice, C80_ctor_called_twice; C80_without_init_array, C80_ctors_dropped) are part of the statement. What libc's start-up has done to the process before (its own TLS and thread pointer, which init_runtime replaces) is not modelled."
  },
  {
   "property": "C81",
   "status": "proved",
   "theorems": [
    "Origin.Proc.C81_no_race",
    "Origin.Proc.C81_changes",
    "Origin.Proc.C81_own_list",
    "Origin.Proc.C81_synchronizes",
    "Origin.Proc.C81_startup",
    "Origin.Proc.C81_not_total"
   ],
   "note": "Happens-before is program order, a mutex given back before it is taken, creation of a thread before what it does, and transitivity. That rustix_futex_sync::Mutex orders so is an assumption (its source is not in /repo). C81_not_total shows that the relation does not order everything."
  }
 ]
}