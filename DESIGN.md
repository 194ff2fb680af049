# Formal model of sunfishcode/origin in Lean 4 — design

(Written before the proofs; revised as the model grew.  Property ids refer to `properties.jsonl`; `MANIFEST.json` lists the theorems of
each property and is generated by `tools/manifest.py`.)

## Layout

| directory | content |
|---|---|
| `lean/Verif/Model/` | the model: one definition per Rust function / asm sequence, each citing file and lines in `/repo` |
| `lean/Verif/Spec/`  | small independent specifications (what a user would write down) |
| `lean/Verif/Proof/` | helper lemmas and invariants |
| `lean/Verif/Props/` | the property theorems (`C01_…`), each with a non-vacuity `example` |
| `seeded/` | wrong edits of the model (`mutants_*.py`), and what they broke (`LOG.jsonl`) |
| `tools/` | `manifest.py` (MANIFEST.json), `axioms.sh` (axioms of every property theorem), `seed.py` (seeded-bug runs) |

## Modelling conventions

* `&mut` / pointer mutation → functions returning the new value; memory is a total function from addresses to bytes.
* `usize` arithmetic that may wrap (layout, relocation, `memmove`'s distance) → `BitVec (8*ws)` with release-build (wrapping)
  semantics, `ws` = 4 or 8.  In-bounds pointer `add`/`sub` (overflow is UB in Rust) → `Nat`.
* panics and traps are explicit values.
* system calls, kernel scheduling, mmap placement, user callbacks → parameters or nondeterministic actions, with recorded assumptions.
* a Rust `loop`/`while` → structural or well-founded recursion; with a `fuel` argument where the code has no bound (`strlen`, table
  walks), the theorem then saying for which fuel (all large enough) it ends and with what; or a step relation when it may run for ever.

## Plan per property

| id | what is modelled | how it is proved |
|---|---|---|
| C01 C02 C03 | `mem/small.rs`, `mem/impls.rs`, `mem/x86_64.rs`, `mem/fast.rs` over `Nat → BitVec 8` memory, word size and endianness parameters, string instructions with direction flag | loop invariants by induction; every variant refines one pointwise spec |
| C04 C05 | same; `compare_bytes` cascade, `c_string_length` SSE2 / SWAR / byte loops | induction; zero-byte bit trick proved for all 64-bit words |
| C06 C48 | the same functions instrumented with a trace of loads/stores | invariant on the trace |
| C07 C08 C11 C18 | `round_up`, `calculate_tls_size`, `create`'s layout, over `BitVec` | conversion to `Nat` arithmetic under a stated no-overflow bound; negation witnesses where false |
| C09 | `create` vs `free_memory`/`exit` munmap arguments | equation; counterexample for unrounded guard sizes, partial theorem |
| C10 | `initialize_main` stack computation | disproved; exact wrong value characterised |
| C12 | `initialize_tls` on byte memory | frame + content theorem |
| C13 C14 | `current_tls_addr`, `Metadata`/`Abi` offsets per arch | exact iff characterisation, partial + counterexamples |
| C15 C43 C44 C42 | argument placement by `create`; asm sequences as instruction lists over a small register machine | memory theorem; symbolic execution for all register values, memories and kernel answers |
| C16 C27 (addresses) | histories of `create`/free (`Model/History.lean`) | induction over histories |
| C20–C27 | multi-thread transition system (`Model/Lifecycle.lean`): create / exit / join / detach / kernel exit / futex with address and tid reuse | inductive invariants over all action sequences; counterexample traces for late wake-ups |
| C17 | `create` as a script over failing system calls | case analysis; counterexample for leaks |
| C19 C47 | pointer arithmetic of `current_metadata`; `set_current_id_after_a_fork` | `BitVec` algebra on the memory model |
| C28 | `call_dtors` with arbitrary self-registering callbacks | trace invariant over all step counts |
| C29 C31 C32 | program `at_exit`/`exit` with lock, many threads (`Model/Process.lean`); without the "thread" feature, histories in which no `.fini_array` function makes a given call (`Spec/SingleThread.lean`) | inductive invariant over all schedules; without threads: of what is on top of the main thread's stack once an `exit` call has finished with the program's functions |
| C30 C34 | program entry/exit in the same system | trace invariants |
| C33 | `compute_args`, `compute_auxp` over word memory | induction over lists |
| C35 | `initialize_startup_info` as a fold over headers | induction / order independence |
| C36–C40 | `relocate` over byte memory | loop invariants, RELR against an independent decoder spec; the mprotect system call in `Model/Asm.lean` |
| C41 | `sigaction` (linux_raw) | direct |
| C45 C49 | libc `create`/`start`/`join`/`detach` marshalling over a heap with any other heap users; `at_exit` boxes | invariant over all histories |
| C46 | `getauxval` | case analysis; truncation counterexample |
| C50 | what `create` asks of `clone` and leaves in the record | ties `Model/Layout.lean` to the initial states of `Model/Lifecycle.lean` |
| C51 | thread-pointer registers, x86 segment descriptors (`user_desc`, GDT slots) (`Model/ThreadPtr.lean`) | invariant over trees of thread creations, on top of the C43 symbolic execution |
| C52 | pc-relative address sequences with their link-time fields (`Model/PcRel.lean`) | integer arithmetic for all addresses and biases |
| C53 C54 | libc `sigaction` (lifetime of the local it points to), `stack`, `default_*_size` (`Model/Libc2.lean`) | case analysis; induction over histories; counterexamples |
| C58 | `entry` and `init_runtime` on bytes of memory (`Model/Boot.lean`), from the pieces of `Startup`, `Relocate`, `Layout` | composition: each phase's theorem supplies the next one's hypotheses; induction over `.init_array`; the failing starts (`Props/BootFail.lean`) from C39, C40 and C10 |
| C57 | `relocate`, `create`, `initialize_main` with their debug assertions and overflow checks (`Model/RelocateDebug.lean`, `LayoutDebug.lean`); the precondition checks of both `entry` functions, over the frame layouts of compiled code (`EntryChecks.lean`); the states in which the thread assertions are evaluated | refinement (panic or the same outcome); invariants of the lifecycle model |
| C59 | lifecycle and process models in lock step (`Model/Whole.lean`) | invariant linking the two (stage of a thread ↔ bottom of its stack), on top of the invariants of each |
| C60 | `create` (C07–C19), the `clone` sequence (C43), thread pointers (C51), composed on the machine state of the new thread (`Spec/ThreadStart.lean`) | the new thread's memory from its stack pointer up is what `create` prepared plus the kernel's id stores; each part of `Ready` from the part's theorem |
| C61 | infinite executions of the lifecycle model (`Spec/Fair.lean`) under weak fairness for each thread's next step and for the kernel's exit wake-up | an exiting thread's distance to the end (`Stage.rank`) and a call's number of steps left are measures that no action increases and the fair action decreases; memory needed for the next step is there by the invariant of C20–C25 |
| C62 | infinite executions of the process model (`Spec/FairProc.lean`) under weak fairness; what is assumed of user code (finitely many registrations, functions that do not run for ever, quiet `.fini_array` functions) is stated there | a thread's distance to the end, 10 × the functions left plus a weight of its stack, never grows once nothing more is registered and shrinks at its next step (`busy_step`); the next step happens: the lock's holder always gives it up, and each change of hands uses up `lockRank` (`gets_on`) |
| C63 | infinite executions of the combined model (`Spec/FairWhole.lean`) under weak fairness, user code as for C62 | the two projections of such an execution are fair executions of the two models (invariants: API calls are made from user code, a thread that has not begun has only its function on its stack; no crash, by C23), to which C61 and C62 apply; C20, C21, C25, C59's invariant give the value and the rest |
| C64 | histories of `initialize_main`, `create`, stores through `errno_location()`, other activity and frees (`Model/Errno.lean`); `errno_val` is an optional field of the compiler-chosen `ThreadData` layout | induction over the history: the state is one of C16's histories, every thread pointer points at its record, every slot holds the thread's last store; regions of live threads are disjoint |
| C65 | the `asm!` blocks of `mem/x86_64.rs` instruction by instruction, with registers, direction flag and status flags; the compiler's code around them is arbitrary (`Model/MemX86Asm.lean`) | each block is executed symbolically; its memory effect equals the function of `Model/MemX86.lean`, so C01–C03's lemmas apply; induction over the sequence of calls; counterexample for the status flags |
| C66 | a `fork` by any thread in user code, at any point of any history, any number of times (`Model/Fork.lean`); the child's state is what the kernel and `set_current_id_after_a_fork` leave, and goes on with the transitions of C20–C27 | the child's initial state has the lifecycle invariant, with a ghost flag for a thread the kernel has no `clear_child_tid` for; C20–C27's and C61's proofs are about any state with the invariant and any steps from it; counterexample theorems for the flagged thread |
| C67 | a `fork` by user code on any thread, any number of times, in the process model of C28–C32 (`Model/ForkProc.lean`): the child keeps the caller's stack, the list, the lock word and the per-thread lists; other threads are gone | simulation: a child's state is that of a fork-free history in which the other threads are never scheduled again (`ReachF.sim`), so C28–C32 carry over; progress from the invariants of C62, which the child's state has unless another thread held the lock; counterexample theorems for that case |
| C68 | the process model of C28–C34 with the calls of the logger (`Model/LogProc.lean`): each `log::trace!` of program start, `create`, thread start and exit, `exit` and `immediate_exit` is a call of user code that may call back into origin | simulation: with each call taken to happen when it is announced, and the logger as part of the function announced (or of the one that has just returned), the run is one of the model without messages (`QReach.sim`); a second invariant says that, per thread and loop, what is called is what has been announced but for the pending call (`Reach.cinv`); counterexample theorems for the two excluded loggers; liveness (`Spec/LogLive.lean`, infinite executions): the simulation maps a fair infinite run in which the logger returns to a fair infinite run without messages (two steps for each; a decreasing rank shows that a pending function's return is made up for), to which C62 applies |
| C69 | user programs on the whole model of C59 (`Model/User.lean`): a program is a set of program points with one operation each (a step on its own memory, a call of the API, a return); the abstract machine the API's documentation describes (`Spec/User.lean`) | forward simulation between the two (with the history of `id`'s answers, `AReachI`: once `None`, or once another thread has the id, never the id again), over an invariant that ties origin's call stacks, lists and records to the abstract threads' positions (`Proof/User*.lean`); that stray wake-ups cannot happen in the three classes of programs is proved from the lifecycle model (an address is reused only after a thread was freed, which needs a wait); counterexample program for the rest |
| C70 | the repository's example and test programs, transcribed (`Model/Programs.lean`, `Model/Programs2.lean`) | C69 reduces them to the abstract machine; there by exploring all its states (finite for these programs once thread ids are erased, `explore_sound`), for `thread-id` and `detach` by invariants |
| C71 | C69's model and abstract machine, as infinite executions with weak fairness (`Spec/FairUser.lean`); `Proper`: the program keeps to the API's contract, as a condition on the abstract machine | C69's simulation along the execution gives the abstract run; that it is fair: a thread passed over for ever by the abstract machine is, on origin's side, at rest in a state of `Proof/User13.lean`–`User15.lean` from which the liveness theorems of C61, C62 and C66 (with the contract) make it move; counterexample program for the rest |
| C72 | the programs of C70 | C71 reduces them to fair runs of the abstract machine; there by exploration (all paths are finite, `exploreU`), for `detach` by a rank that every step decreases, for `thread-id` (which waits in loops) by a rank and the thread waited for (`ARun.gets`), with `id` becoming `None` for the last loop |
| C73 | the `tiny-hello` example (`Model/Programs2.lean`), for every sequence of answers of `write` | C69/C71 reduce it to the abstract machine; there an invariant (what is written is the concatenation of beginnings of the message) and a rank; the exact condition from the message having one 'H' |
| C74 | a fork-join program, parametric in the number of threads and their computations (`Spec/ForkJoin.lean`), on the model of C69 | C69/C71 for programs that wait only for threads created before the first wait; on the abstract machine an invariant per thread and one for the main thread, and a rank that every step decreases |
| C75 | the process model with panics in user code (`Model/Unwind.lean`): what a panic does to each kind of frame it passes | the invariants of C28–C34, made parametric in the set of `exit` calls that were left, hold of the steps a panic makes too; which call called what, by an invariant on stacks and history; the endings from C62's measure, as each function panics at most once |
| C76 | histories of creation, exits and byte stores to thread-local variables, found through the thread pointer or `current_tls_addr` (`Model/TlsVars.lean`, `Spec/TlsVars.lean`) | invariant: each live thread's block is in its own region, apart from its record and from the initialiser, both ways lead to it, and it holds what the thread stored; the initialiser is never overwritten |
| C77 | the process model with signal handlers (`Model/Signals.lean`): each handler has a call stack of its own, on top of any code of any thread | simulation: the calls handlers make counted as calls of the user code they interrupted, each state is one of the model of C28–C34 with the same history; infinite executions likewise, so that C62 applies |
| C78 | `src/stubs.rs` (`Model/Stubs.lean`): the personality routine, under a two-phase unwinder from the Itanium ABI with frames of any other languages; the panic handler, in the process model | induction on the stack; simulation by the model of C28–C34, and nothing after the trap |
| C79 | the `.init_array` entries of all object files, with priorities, the logger's (`src/log.rs`) among them (`Model/Ctors.lean`); what the linker makes of them (`Spec/Ctors.lean`); the process models of C28–C34 and C68 | order of start (C34; for any logger: an invariant on the frame of `entry` and what it has announced, `Proof/LogBoot.lean`) and sortedness |
| C80 | libc's loop over `.init_array`, the external-start example's function and `program::start`, then the process model (`Model/Ctors.lean`); infinite executions and fairness (`Spec/External.lean`) | invariant over all histories; an infinite execution is, from the moment origin has control, one of the process model, and fair if the whole is, so C62 applies |
| C81 | infinite executions of the process model; happens-before between their steps (`Spec/ProcRaces.lean`): program order, the lock of the program's functions, thread creation | the holder of the lock, along the execution: whoever has it later than another took it after the other gave it back (`lock_history`); which step makes which event |
| C55 C56 | the lifecycle model with every access to a thread record and to client memory recorded (`Model/Races.lean`); happens-before (`Spec/Races.lean`) | invariants over all action sequences; counterexample traces |

## Trusted base

* **Lean 4.33.0's kernel** (and the elaborator in so far as it must state what the text says).  No Mathlib is imported.
* **Axioms.** No axiom of our own.  Every theorem rests on a subset of Lean's `propext`, `Classical.choice`, `Quot.sound`
  (`tools/axioms.sh` prints the list per theorem; most use all three, through `omega`/`simp`/`grind`).  No compiled-code evaluation.
* **The reading of the source.** The model is a hand translation of `/repo`; each definition cites the lines it models.
* **Assumptions about the world**, all explicit in the model or in hypotheses:
  * Linux: `mmap` returns fresh page-aligned memory (`MmapOk`); `munmap` refuses unaligned addresses; `clone`'s
    `PARENT_SETTID`/`CHILD_SETTID` stores, `CHILD_CLEARTID` store then one futex wake at exit; futex wait compares atomically;
    thread ids of living threads are distinct; the layout of the initial stack; register preservation across system calls (C42–C44 state
    which registers they need).
  * ELF/psABI: where compiled code looks for TLS, canary and stack alignment (`Spec/Layout.lean`), formats of RELA/REL/RELR and program
    headers (`Spec/Relocate.lean`).
  * Rust: `repr(C)` layout rule; the layout of `ThreadData` is any valid one (`ThreadLayout.Valid`); all accesses to shared thread words
    are sequentially consistent: the atomics are `SeqCst`, and the plain accesses to thread records are free of data races (C55, where C20's
    condition holds), as are those to the list of the program's functions (C81), so the C++/Rust memory model gives them sequentially consistent behaviour.
  * `rustix_futex_sync::Mutex` is a lock taken atomically when free; `SmallVec`/`Vec`/`Box` are lists and boxes.

## What is modelled, and what is not

Modelled (every function with behaviour of its own on the `take-charge` Linux path, and the libc backend's marshalling):

| source | definitions |
|---|---|
| `src/mem/small.rs`, `impls.rs`, `x86_64.rs`, `fast.rs`, `mod.rs` | all functions — `Model/Mem*.lean` |
| `src/thread/linux_raw.rs` | all functions except those listed below — `Model/Layout.lean`, `LayoutDebug.lean`, `Lifecycle.lean`, `Process.lean` (`call_dtors`, `at_exit`), `Relocate.lean` (`initialize_startup_info`) |
| `src/program/linux_raw.rs` | `entry`, `start`, `compute_args`, `init_runtime`, `at_exit`, `exit`, `immediate_exit` — `Model/Process.lean`, `Startup.lean`, `Boot.lean`, `Ctors.lean` |
| `src/log.rs` | `INIT_ARRAY`, the place of `init` in the order of start — `Model/Ctors.lean` |
| `example-crates/external-start/src/main.rs` | `EARLY_INIT_ARRAY` — `Model/Ctors.lean` |
| `src/relocate.rs` | `relocate`, `compute_auxp`, `load_static_start` — `Model/Relocate.lean` |
| `src/arch/*.rs` | `_start`, `clone`, `munmap_and_exit_thread`, `relocation_mprotect_readonly`, `return_from_signal_handler(_noinfo)`, `relocation_load/store`, `set_thread_pointer`, `thread_pointer`, `dynamic_table_addr`, `ehdr_addr`, `STACK_ALIGNMENT`, `TLS_OFFSET` — `Model/Asm.lean`, `Layout.lean`, `Relocate.lean`, `ThreadPtr.lean`, `PcRel.lean` |
| `src/signal/linux_raw.rs`, `src/getauxval.rs` | all — `Model/Asm.lean` |
| `src/thread/libc.rs`, `src/program/libc.rs` | `create`, `join`, `detach`, `at_exit`, `stack`, `default_*_size` — `Model/Libc.lean`, `Libc2.lean` |
| `src/signal/libc.rs` | `sigaction` — `Model/Libc2.lean` |

Not modelled: the text of log messages, and what the logger's own set-up does (`src/log.rs`: its `.init_array` entry and when it is called are C79; the call itself is user code; the messages of C68 are calls of the logger); `src/unwind_unimplemented.rs` (link-time stand-ins, each of which panics when called: what a panic does is the subject of C75 and C78);
`src/naked.rs` (macro plumbing); `src/lib.rs` re-exports and the panic handler;
`yield_current` (pass-through); the debug assertions
of the core library itself (`ub_checks`); libc pass-through functions; `no_thread` configurations
where a function does not exist.  Weak memory, interrupted system calls other than futex wait, signal handlers that call `thread::at_exit` in the middle of `thread::at_exit`, and allocation failure in `at_exit` are outside the model.

## Where the code does not have the property

The model follows the code; these theorems (`…_false`, `…_leak`, `…_misaligned`) are about the code as it is.

* **C77** `program::at_exit` and `exit` are not async-signal-safe: a handler that calls one of them on top of `at_exit`'s or `exit`'s own code waits for a lock
  that the code it interrupted holds (`C77_at_exit_false`).
* **C76** (from C13, C14) on arm, thread-local variables found through the thread pointer are shifted by four bytes against the block
  (`C76_arm_false`); through `current_tls_addr` on x86/x86-64 they are shifted by the padding of a TLS segment whose size is no multiple of its
  alignment (`C76_dynamic_false`).
* **C11** a `PT_TLS` header with `p_align` 0 ("no alignment" in ELF) puts the TLS block on top of the record, or makes the mapping empty
  (`C11_align_zero_false`); alignments above the page size are not provided for (`C11_large_align_iff`).
* **C08** `round_up` wraps in release builds for sizes within 15 of `usize::MAX`: no stack is reserved (`C08_overflow_false`); in general
  the length asked of `mmap` has room for guard and stack exactly when all fits the address space (`C08_length_iff`).
* **C09** `create` stores the unrounded `guard_size`; the unmapping address is wrong (and refused by the kernel, so `join`/`detach`
  panic and detached threads leak) for every guard size that is no page multiple (`C09_unaligned_guard_false`).
* **C10** `initialize_main` line 341 subtracts in the wrong order: `stack()` of the main thread reports a wrapped size; and an unlimited
  stack makes startup panic (`C10_main_stack_false`, `C10_unlimited_panics`).
* **C11/C13/C14** exact conditions: the x86/x86-64 record is misaligned iff the rounded TLS size is no multiple of the record's alignment;
  `current_tls_addr` is wrong on x86 iff `p_memsz` is no multiple of `p_align`, and on variant-I targets for large alignments; on arm
  the TLS block is never where the ABI says.
* **C15** `STACK_ALIGNMENT` is 4 on arm (AAPCS: 8).  `create` does not compare the number of arguments with the
  stack size: with more arguments than stack and guard hold it stores them below its mapping
  (`C15_overrun_false`; `C15_args_in_stack_iff` is the exact condition).
* **C17** `create` never unmaps when `mprotect` or `clone` fails (`C17_leak`).
* **C20/C21/C23** `wait_for_exit`'s `Ok(_) => break` (line 891) takes any wake-up for the thread's exit: the exit wake-up of an earlier
  thread whose memory (address) was reused, arriving late, ends the wait early — wrong value, memory freed under a running thread
  (`C20_false`, `C21_false`, `C23_false`).  Without the `signal` feature a signal on a detached thread after its `munmap` faults
  (`C23_late_signal_false`).  The damage is confined to the thread whose waiter got the stray wake-up: C22, C24–C27 and
  `C23_other_memory` hold in every history, and C20, C21, C23 hold of every other thread.
* **C31/C32** without the `thread` or `program-at-exit` feature, finalisers can repeat and a late registration is dropped.  Without threads this takes a `.fini_array` function that calls `exit`, or `program::at_exit`: no other
  program is concerned (`C31_single_thread`, `C32_single_thread`); without `program-at-exit` it takes a second call of `exit` (`C31_one_exit`).
* **C35** as a dynamic linker, the bias of the program to run is computed from the linker's own `_DYNAMIC` (`C35_linker_false`).
* **C36** a dynamic linker whose unrelocated `STATIC_START` word happens to equal `AT_ENTRY` is not relocated (`C36_false`,
  `C36_coincidence`).
* **C40** the RELRO start is rounded down but the length is not adjusted: bytes after the segment become read-only, or its tail stays
  writable, when the segment does not start/end on page boundaries (`C40_after_false`, `C40_tail_false`).
* **C65** `copy_backward`'s `asm!` block (mem/x86_64.rs:73-93) declares `preserves_flags`; it restores the direction flag but leaves the
  status flags of its last `add` (`C65_flags_false`).  Only a comparison that the compiler keeps in the flags across an inlined
  `copy_backward` would be affected; the exported `memmove` is an ABI call, which may clobber them.
* **C66** `set_current_id_after_a_fork` (linux_raw.rs:989-1002) stores the new id but does not call `set_tid_address`: unless the `fork` wrapper asked
  for `CLONE_CHILD_CLEARTID` (rustix's `kernel_fork`, which c-scape uses, does not), the kernel clears and wakes nothing when the forking thread exits in
  the child: `join` of it hangs on every schedule, `detach` after its exit too, its memory leaks (`C66_join_false`), and `id` keeps returning an id that the kernel
  may have given away (`C66_id_false`).
* **C67** nothing resets the lock of the program's `at_exit` functions (program/linux_raw.rs:227-244) in the child of a fork: if another thread was inside `at_exit`, was
  taking functions off the list in `exit`, or had got to `.fini_array` (`exit` never releases the lock after the last pop, line 289), then in the child `at_exit` and `exit`
  hang for ever and only `immediate_exit` ends it (`C67_lock_lost_false`, `C67_exit_false`, `C67_exit_fini_false`).
* **C68** with the `log` feature, a logger that registers a `thread::at_exit` function in a thread's last message has it dropped (`C68_late_false`); one that calls
  `program::at_exit` or `exit` in the last message of `exit` hangs the process for ever, with everything done but the end, since `exit` leaks the lock before its last messages
  (`C68_last_message_false`).
* **C79** the messages about the constructors with priorities up to 99, the logger's own included, are sent before the logger is set up: it does not get them (`C79_lost`).
* **C80** with an external start, a constructor of priority 0 that the linker puts before `EARLY_INIT_ARRAY` is called twice, by libc and by origin (`C80_twice`, `C80_ctor_called_twice`).  The external-start example takes over from libc in the first constructor, but is built without
  origin's `init-array` feature (Cargo.toml:10): all other constructors of the program are never called (`C80_without_init_array`, `C80_ctors_dropped`), although its comment (main.rs:26-27) says that
  origin will be calling them.
* **C69** a program that creates and joins a thread and then creates and joins another can see the second `join` return while the thread is running (the stray wake-up
  of C20, C59): `C69_false` runs such a program to a wrong exit status.
* **C70** the `detach` test, without the `signal` feature, can be killed by a signal arriving on a detached thread that has unmapped its stack (`C70_detach_false`).
* **C71** the program of C69 ends with the wrong status on a fair schedule as well: fairness does not rule out the stray wake-up (`C71_false`).
* **C73** `tiny-hello` (example-crates/tiny-hello/src/main.rs:13) passes `message`, not `remaining`, to `write` again after a short write: it writes the beginning of the message
  twice and ends with status 0 (`C73_false`), or traps in the slice index; right exactly when the first write is complete (`C73_iff`).
* **C45** `thread/libc.rs` `create` leaks the argument block when `pthread_create` fails (`C45_leak`).
* **C46** `getauxval` truncates the key to 32 bits (`C46_false`, `C46_iff`).
* **C53** `signal/libc.rs` passes libc a pointer to a variable whose scope has ended (`C53_false`).
* **C55/C56** after a stray wake-up (see C20) `join` reads and frees a record that its thread is still using, without ordering (`C55_false`,
  `C56_join_false`).
* **C61** for the same reason a thread can fail to exit (`C61_false`).
* **C62**: a `.fini_array` function that calls `exit` or `program::at_exit` hangs the process (`C62_fini_exit_false`, `C62_fini_register_false`), since `exit` keeps the lock;
  and the bound on registrations is needed (`C62_registering_false`).
* **C59** for the same reason `join` can return with `at_exit` functions not called (`C59_false`).
* **C63** likewise: the process may crash (`C63_false`).
* **C54** `thread/libc.rs` `default_stack_size`/`default_guard_size` report the calling thread's own sizes (`C54_defaults_false`).
* Not expressed as theorems: on arm `crate::arch::oob_load` (used by `mem/impls.rs` misaligned paths) exists only in `riscv64.rs`, so that build fails to
  compile; `_start`'s null return address on x86/x86-64 relies on the kernel's zero `rbp`,
  and aarch64/arm `_start` does not zero the frame pointer; `thread::at_exit` called from a program `at_exit` handler is never run
  (`C28_late_registration_not_called`).

## Seeded bugs

`seeded/mutants_*.py` hold realistic wrong edits of the model; `tools/seed.py` applies each to a scratch copy and rebuilds.  `seeded/LOG.jsonl`
has one line per attempt: definition, edit, the claim it breaks, the theorems that failed, the theorems tightened because of it.  Edits
with no claim (equivalent programs) are there as controls: the theorems must go on proving, or fail only in proof scripts.
