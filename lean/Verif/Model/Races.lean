import Verif.Model.Lifecycle
/-!
# Non-atomic and atomic accesses to thread records

The lifecycle model (`Model/Lifecycle.lean`) is sequentially consistent.  Here each of its steps is given the accesses to `ThreadData`
(src/thread/linux_raw.rs:92-107) that the code makes in it.  The fields `stack_addr`, `stack_size`, `guard_size`, `map_size` and `dtors` are plain;
`detached` and `return_value` are atomics, always accessed with `SeqCst`.  Accesses to the atomic `thread_id` are left out: it is written by the
kernel, and nothing is taken to be ordered by it.
-/

namespace Origin.Life

/-- The atomic fields that order accesses.  src/thread/linux_raw.rs:96, 101. -/
inductive Loc | detached | ret
deriving DecidableEq, Repr

/-- An access to `h`'s record.  src/thread/linux_raw.rs:92-106. -/
inductive Acc
  /-- `p` writes all of `h`'s record, and then starts `h` (src/thread/linux_raw.rs:456-464, 584; for the main thread: 367-383) -/
  | init (p h : Inst)
  /-- `t` reads or writes plain fields of `h`'s record, or frees it -/
  | plain (t h : Inst)
  /-- `t` accesses an atomic field of `h`'s record -/
  | atomic (t h : Inst) (l : Loc) (reads writes : Bool)
  /-- `t`, in the client's code, accesses memory of the client's (`x` says what) -/
  | user (t : Inst) (x : Nat)
deriving DecidableEq, Repr

/-- What a step of an API call accesses.  src/thread/linux_raw.rs:803-928, line by line below. -/
def callAccess (t : Inst) : Call → List Acc
  -- src/thread/linux_raw.rs:816
  | .swap _ h => [.atomic t h .detached true true]
  -- src/thread/linux_raw.rs:858
  | .loadRet _ h => [.atomic t h .ret true false]
  -- src/thread/linux_raw.rs:916-918, 921, 926
  | .readFields _ _ h _ | .drop _ _ h _ _ | .unmap _ _ h _ => [.plain t h]
  | .load .. | .wait .. | .blocked .. => []

/-- What a step of thread `t`'s exit accesses; `r` is its record.  src/thread/linux_raw.rs:684-768, line by line below. -/
def ownAccess (t : Inst) (r : Option Rec) : Stage → List Acc
  -- src/thread/linux_raw.rs:703-707: a failing compare-exchange only reads
  | .cas _ => [.atomic t t .detached true (decide (r.map Rec.detached = some .initial))]
  -- src/thread/linux_raw.rs:763
  | .storeRet _ => [.atomic t t .ret false true]
  -- src/thread/linux_raw.rs:713-715, 722, 742
  | .dRead | .dDrop _ | .dUnmap => [.plain t t]
  | _ => []

/-- What a step of the lifecycle model accesses (nothing, if it is a fault).  src/thread/linux_raw.rs:484-928. -/
def access (s : State) : Action → List Acc
  | .create t _ _ =>
    match s.thr t with
    | some T => if (s.view T.addr t).isNone then [] else [.init t s.next]
    | none => []
  -- the last `dtors.pop()`: src/thread/linux_raw.rs:780
  | .dtorsDone t =>
    match s.thr t with
    | some T => if (s.view T.addr t).isNone then [] else [.plain t t]
    | none => []
  | .step t =>
    match s.thr t with
    | some T =>
      if (s.view T.addr t).isNone then []
      else match s.call t with
        | some c => if (s.view c.addr c.target).isNone then [] else callAccess t c
        | none => ownAccess t (s.view T.addr t) T.stage
    | none => []
  | .ret .. | .join .. | .detach .. | .id .. | .intr .. | .wake .. | .signal .. => []

/-- Reachable states with the accesses made so far, oldest first.  `touch`: a thread in user code accesses the plain fields of its own record
(`thread::at_exit`, src/thread/linux_raw.rs:932-938; `dtors.pop()` in `call_dtors`, line 780).  `user`: the client's code (the thread's function or
an `at_exit` function) accesses memory of its own. -/
inductive Trace (sig : Bool) (P : State → Action → Prop) : State → List Acc → Prop
  | init (a tid) : tid ≠ 0 → Trace sig P (init a tid) [.init 0 0]
  | step {s x s' tr} : Trace sig P s tr → P s x → Life.step sig s x = some s' → Trace sig P s' (tr ++ access s x)
  | touch {s t T tr} : Trace sig P s tr → s.thr t = some T → s.inUser t T = true → Trace sig P s (tr ++ [.plain t t])
  | user {s t T tr} (x : Nat) : Trace sig P s tr → s.thr t = some T → s.inUser t T = true → Trace sig P s (tr ++ [.user t x])

end Origin.Life
