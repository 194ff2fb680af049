import Verif.Model.Lifecycle
/-!
# `fork`

Origin has no `fork`; src/thread/linux_raw.rs:975-1002 (`set_current_id_after_a_fork`) is there for libraries that make one (c-scape).  A thread that is
running user code calls such a library's wrapper: the kernel makes a second process, with a copy of the memory, whose only thread is a copy of the
caller, and there the wrapper calls `set_current_id_after_a_fork` with the new thread id.  In the parent nothing changes.  Here the child is
modelled; it goes on with the transitions of `Life.step`.
-/

namespace Origin.Life

/-- (Ghost) who detached the thread, if its `detach` has taken effect (src/thread/linux_raw.rs:816). -/
def detachedBy : Option (Inst × Kind × Phase) → Option Inst
  | some (j, .detach, .released) => some j
  | _ => none

/-- (Ghost) the history of the child's only thread so far; it stands for what src/thread/linux_raw.rs:484-613 (creation), 678 (return) and 816
(detach) did in the parent. -/
def forkLog (t : Inst) (T : Thr) (det : Option Inst) (tid : Nat) : List Ev :=
  (match det with
    | some j => [.detachDone j t, .detachCall j t]
    | none => []) ++
  (match T.ret with
    | some v => [.returned t v]
    | none => []) ++ [.created t t T.addr tid]

/-- The child process of a `fork` called by `t`, after `set_current_id_after_a_fork(tid)`; `none` if `t` cannot call it now.  `cleartid`: whether the
wrapper asks for `CLONE_CHILD_CLEARTID` (glibc's does; `rustix::runtime::kernel_fork`, which has only `CLONE_CHILD_SETTID`, does not, and `set_current_id_after_a_fork`,
src/thread/linux_raw.rs:989-1002, does not make up for it by `set_tid_address`), because the kernel starts a new process's thread with no `clear_child_tid` otherwise.

The thread keeps its memory, its stage and its signal mask; the store at src/thread/linux_raw.rs:997-1001 changes the id in its record.  No other thread is
left, so no call is in progress.  Simplifications: the mappings of the threads that are left behind are not modelled (they only restrict what
addresses `mmap` can choose; the handles of those threads must not be used any more); ghost data: the history starts anew, with an
entry for the thread, one for its return value if it is running its `at_exit` functions, and two for its `detach` if it had been detached. -/
def forkChild (s : State) (t : Inst) (tid : Nat) (cleartid : Bool) : Option State :=
  match s.thr t with
  | some T =>
    if s.inUser t T ∧ tid ≠ 0 then
      match s.view T.addr t with
      | some r =>
        some {
          recs := fun x => if x = T.addr then some { r with tid := tid } else none,
          thr := fun x => if x = t then some { T with tid := tid, clear := cleartid, forked := !cleartid } else none,
          call := fun _ => none,
          cons := fun x => if x = t then (detachedBy (s.cons t)).map (·, .detach, .released) else none,
          next := s.next,
          log := forkLog t T (detachedBy (s.cons t)) tid }
      | none => none
    else none
  | none => none

/-- States of processes reachable from startup by actions and by any number of forks, following the child; the actions since the last fork satisfy
`P`, those before are arbitrary.  The index is the thread of the current process, if any, that called a `fork` whose wrapper did not ask for
`CLONE_CHILD_CLEARTID`.  (Actions: src/thread/linux_raw.rs:484-928, 1051-1054; forks: 975-1002.) -/
inductive ReachF (sig : Bool) : (State → Action → Prop) → Option Inst → State → Prop
  | init {P} (a tid) : tid ≠ 0 → ReachF sig P none (init a tid)
  | step {P f s x s'} : ReachF sig P f s → P s x → Life.step sig s x = some s' → ReachF sig P f s'
  | fork {P f s t tid cleartid s'} : ReachF sig (fun _ _ => True) f s → forkChild s t tid cleartid = some s' →
      ReachF sig P (if cleartid then none else some t) s'

end Origin.Life
