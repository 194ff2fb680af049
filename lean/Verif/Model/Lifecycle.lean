/-!
# Thread lifecycle: `create`, thread exit, `join`, `detach`, `id` as an interleaving transition system

Models src/thread/linux_raw.rs:484-928 and 1051-1054 and the kernel behaviour these functions rely on.
Any number of threads; every shared-memory access and every system call is one atomic step (all the
accesses in question are `SeqCst` atomics or plain accesses ordered by them; the model is sequentially
consistent); the scheduler, the kernel's choice of addresses and thread ids, signal arrival and what
user code calls are the `Action`s.

Ghost data (not in the code): thread instances are numbered in creation order and never reused, while
record addresses and kernel thread ids are reusable; each record knows which instance it belongs to;
`cons` says how far the consumption (join or detach) of an instance's handle has got; `log` is the
history of observable events, newest first.
-/

namespace Origin.Life

/-- A thread instance.  Ghost: instances are numbered in the order of the calls of `create` (src/thread/linux_raw.rs:484-613). -/
abbrev Inst := Nat

/-- Values of `ThreadData::detached`: src/thread/linux_raw.rs:109-112. -/
inductive DState | initial | detached | abandoned
deriving DecidableEq, Repr

/-- A thread record in memory (`ThreadData`, src/thread/linux_raw.rs:92-107), restricted to the fields
the lifecycle depends on.  `owned` is `map_size != 0` (false for the main thread, line 383).  The values
of `stack_addr`, `guard_size` and `map_size` and the range they make `munmap` free are the subject of
C09; here `munmap` of a record's mapping removes the record (and that thread's stack and TLS). -/
structure Rec where
  owner : Inst
  tid : Nat
  detached : DState
  ret : Nat
  owned : Bool
deriving DecidableEq, Repr

/-- Which call a wait or a free belongs to.  `wait_for_exit` and `free_memory` are called in `join` (src/thread/linux_raw.rs:850, 861) and in `detach`
(817, 822). -/
inductive Kind | join | detach
deriving DecidableEq, Repr

/-- An API call in progress on a thread: where it is, the handle (address `a`) it was given, and (ghost)
the instance `h` the handle denotes.  src/thread/linux_raw.rs:803-928. -/
inductive Call
  /-- `detach`, before the `swap` (line 816) -/
  | swap (a : Nat) (h : Inst)
  /-- `wait_for_exit`, before the load of `thread_id` (line 880) -/
  | load (k : Kind) (a : Nat) (h : Inst)
  /-- `wait_for_exit`, before the `futex::wait` system call with expected value `v` (lines 885-890) -/
  | wait (k : Kind) (a : Nat) (h : Inst) (v : Nat)
  /-- asleep in `futex::wait` -/
  | blocked (k : Kind) (a : Nat) (h : Inst)
  /-- `join`, before the load of `return_value` (line 858) -/
  | loadRet (a : Nat) (h : Inst)
  /-- `free_memory`, before reading the fields (lines 916-918); `v` is what `join` will return -/
  | readFields (k : Kind) (a : Nat) (h : Inst) (v : Nat)
  /-- `free_memory`, before `drop_in_place` (line 921); `o` is `map_size != 0` as read -/
  | drop (k : Kind) (a : Nat) (h : Inst) (v : Nat) (o : Bool)
  /-- `free_memory`, before `munmap` (line 926) -/
  | unmap (k : Kind) (a : Nat) (h : Inst) (v : Nat)
deriving DecidableEq, Repr

/-- Where a thread is in its own life.  src/thread/linux_raw.rs:627-768. -/
inductive Stage
  /-- created; the kernel has not yet done the `CHILD_SETTID` store (flags at lines 573-582) -/
  | born
  /-- running user code from `fn_` (line 678), or, for the main thread, anything -/
  | body
  /-- `fn_` returned `v`; running `at_exit` functions (`exit`, line 697) -/
  | dtors (v : Nat)
  /-- before the compare-exchange on `detached` (lines 703-707) -/
  | cas (v : Nat)
  /-- not detached: before the store of `return_value` (line 763) -/
  | storeRet (v : Nat)
  /-- detached: before reading the fields (lines 713-715) -/
  | dRead
  /-- detached: before `drop_in_place` (line 722) -/
  | dDrop (o : Bool)
  /-- detached: before `set_tid_address(null)` (line 729) -/
  | dSetTid
  /-- detached: before blocking signals (lines 733-737) -/
  | dMask
  /-- detached: before the `munmap` system call in `munmap_and_exit_thread` (line 742) -/
  | dUnmap
  /-- detached: between the `munmap` and the `exit` system calls of `munmap_and_exit_thread` -/
  | dExit
  /-- before `exit_thread(0)` (line 767) -/
  | exitCall
  /-- in the kernel's exit path, before the `CHILD_CLEARTID` store of 0 -/
  | kClear
  /-- in the kernel's exit path, after the store, before its `FUTEX_WAKE` of one waiter -/
  | kWake
  /-- gone -/
  | dead
deriving DecidableEq, Repr

/-- Progress (ghost) of the consumption of a handle.  Steps of `join` (src/thread/linux_raw.rs:835-866) and `detach` (803-824). -/
inductive Phase | start | waiting | freeing | freed | released
deriving DecidableEq, Repr

/-- A thread instance's state.  src/thread/linux_raw.rs:484-768; the kernel's part: flags at 573-582, `set_tid_address` at 729, signals at 733-737. -/
structure Thr where
  addr : Nat
  tid : Nat
  stage : Stage
  /-- kernel: `clear_child_tid` is set (to this thread's `thread_id`) -/
  clear : Bool
  /-- kernel: all signals blocked -/
  masked : Bool
  /-- ghost: what `fn_` returned -/
  ret : Option Nat
  /-- ghost: the kernel never had a `clear_child_tid` for this thread (true of no thread `create` starts; see Model/Fork.lean) -/
  forked : Bool := false
deriving DecidableEq, Repr

/-- Observable events.  Results and effects of the calls src/thread/linux_raw.rs:484-613, 684-928, 1051-1054. -/
inductive Ev
  /-- `parent` created instance `h` with handle `a`; the kernel gave it id `tid` -/
  | created (parent h : Inst) (a tid : Nat)
  /-- `h`'s function returned `v` (0 for `None`) -/
  | returned (h : Inst) (v : Nat)
  /-- `h` executed its last instruction (the `exit` system call) -/
  | exited (h : Inst)
  /-- the kernel processed `h`'s exit: it cleared the thread id word -/
  | cleared (h : Inst)
  /-- `j` called `join` on `h` -/
  | joinCall (j h : Inst)
  /-- that call returned `v` -/
  | joined (j h : Inst) (v : Nat)
  | detachCall (j h : Inst)
  | detachDone (j h : Inst)
  /-- `t` called `id` on `h` (or `current_id`, when `h = t`) and got `r` -/
  | idRes (t h : Inst) (r : Option Nat)
  /-- `h`'s mapping was unmapped, by `j` -/
  | unmap (h j : Inst)
  /-- `t` (or the kernel on behalf of `t`) touched the memory `h` was given when that is not mapped, or is
  mapped for another instance -/
  | fault (t h : Inst)
deriving DecidableEq, Repr

/-- The process as far as threads are concerned: records (src/thread/linux_raw.rs:92-106), threads and calls in progress (484-928); the rest is ghost
data. -/
structure State where
  recs : Nat → Option Rec
  thr : Inst → Option Thr
  /-- the API call each thread is in the middle of -/
  call : Inst → Option Call
  /-- ghost: who consumes an instance's handle, how, and how far it has got -/
  cons : Inst → Option (Inst × Kind × Phase)
  next : Inst
  log : List Ev

/-- Bookkeeping: store to the record at `a`, or unmap it (src/thread/linux_raw.rs:742, 816, 926, …). -/
def State.setRec (s : State) (a : Nat) (m : Option Rec) : State :=
  { s with recs := fun x => if x = a then m else s.recs x }

/-- Bookkeeping: change a thread's state (src/thread/linux_raw.rs:627-768). -/
def State.modThr (s : State) (t : Inst) (f : Thr → Thr) : State :=
  { s with thr := fun x => if x = t then (s.thr x).map f else s.thr x }

/-- Bookkeeping: add an event to the history (ghost; not in /repo; events of src/thread/linux_raw.rs:484-928). -/
def State.ev (s : State) (e : Ev) : State := { s with log := e :: s.log }

/-- Bookkeeping: where `t` is in an API call (src/thread/linux_raw.rs:803-928). -/
def State.setCall (s : State) (t : Inst) (c : Option Call) : State :=
  { s with call := fun x => if x = t then c else s.call x }
/-- Bookkeeping (ghost): how far `h`'s handle has been consumed (src/thread/linux_raw.rs:803-866). -/
def State.setCons (s : State) (h : Inst) (c : Inst × Kind × Phase) : State :=
  { s with cons := fun x => if x = h then some c else s.cons x }
/-- Bookkeeping: where `t` is in its own life (src/thread/linux_raw.rs:627-768). -/
def State.setStage (s : State) (t : Inst) (g : Stage) : State := s.modThr t fun T => { T with stage := g }

/-- The record at `a`, if it is there and is instance `h`'s.  (What a dereference of a `Thread` handle finds, src/thread/linux_raw.rs:816, 836, 1052.)
-/
def State.view (s : State) (a : Nat) (h : Inst) : Option Rec :=
  match s.recs a with
  | some r => if r.owner = h then some r else none
  | none => none

/-- What the scheduler, the kernel and user code can do next.  src/thread/linux_raw.rs:484-928, 1051-1054. -/
inductive Action
  /-- `t` calls `create`; `mmap` chooses the address `a`, the kernel the id `tid` -/
  | create (t : Inst) (a tid : Nat)
  /-- `t`'s function returns `v` -/
  | ret (t : Inst) (v : Nat)
  /-- `t`'s `at_exit` functions are finished -/
  | dtorsDone (t : Inst)
  | join (t h : Inst)
  | detach (t h : Inst)
  | id (t h : Inst)
  /-- `t` executes its next step -/
  | step (t : Inst)
  /-- `t`'s `futex::wait` is interrupted by a signal (`EINTR`) -/
  | intr (t : Inst)
  /-- the kernel's exit path for `t` wakes one waiter on `t`'s thread id word, or finds none -/
  | wake (t : Inst) (w : Option Inst)
  /-- a signal handler runs on `t`'s stack -/
  | signal (t : Inst)
deriving DecidableEq, Repr

/-- User code is running: `fn_` or an `at_exit` function, and no API call in progress.  (`fn_`, src/thread/linux_raw.rs:678; `call_dtors`, 772-791.)
-/
def State.inUser (s : State) (t : Inst) (T : Thr) : Bool :=
  (s.call t).isNone && (match T.stage with | .body | .dtors _ => true | _ => false)

/-- `wait_for_exit` returned: what comes next in `join` (line 858) and `detach` (line 822). -/
def afterWait (k : Kind) (a : Nat) (h : Inst) : Call :=
  match k with
  | .join => .loadRet a h
  | .detach => .readFields .detach a h 0

/-- A fault.  (An access through a dangling pointer in src/thread/linux_raw.rs:684-928.) -/
def State.faulted (s : State) (t h : Inst) : State := s.ev (.fault t h)

/-- `free_memory` is done (lines 923-927): `join` returns the value (line 865), `detach` returns. -/
def State.finish (s : State) (t : Inst) (k : Kind) (h : Inst) (v : Nat) : State :=
  match k with
  | .join => ((s.setCall t none).setCons h (t, .join, .freed)).ev (.joined t h v)
  | .detach => ((s.setCall t none).setCons h (t, .detach, .freed)).ev (.detachDone t h)

/-- One step of an API call in progress on `t` (the record at `a` is `r`).  src/thread/linux_raw.rs:803-928, line by line below. -/
def callStep (s : State) (t : Inst) (r : Rec) : Call → Option State
  -- src/thread/linux_raw.rs:816 `detached.swap(DETACHED) == ABANDONED`
  | .swap a h =>
    let s := s.setRec a (some { r with detached := .detached })
    if r.detached = .abandoned then
      some ((s.setCall t (some (.load .detach a h))).setCons h (t, .detach, .waiting))
    else
      some (((s.setCall t none).setCons h (t, .detach, .released)).ev (.detachDone t h))
  -- src/thread/linux_raw.rs:880 `while let Some(id_value) = ThreadId::from_raw(thread_id.load(SeqCst))`
  | .load k a h =>
    if r.tid = 0 then some ((s.setCall t (some (afterWait k a h))).setCons h (t, k, .freeing))
    else some (s.setCall t (some (.wait k a h r.tid)))
  -- src/thread/linux_raw.rs:885-890: the kernel compares atomically; a difference gives `EAGAIN`,
  -- after which (line 893) the loop continues
  | .wait k a h v =>
    if r.tid = v then some (s.setCall t (some (.blocked k a h)))
    else some (s.setCall t (some (.load k a h)))
  | .blocked .. => none
  -- src/thread/linux_raw.rs:858
  | .loadRet a h => some (s.setCall t (some (.readFields .join a h r.ret)))
  -- src/thread/linux_raw.rs:916-918
  | .readFields k a h v => some (s.setCall t (some (.drop k a h v r.owned)))
  -- src/thread/linux_raw.rs:921-924
  | .drop k a h v o =>
    if o then some (s.setCall t (some (.unmap k a h v))) else some (s.finish t k h v)
  -- src/thread/linux_raw.rs:926 (that the range is the mapping: C09)
  | .unmap k a h v => some (((s.setRec a none).ev (.unmap h t)).finish t k h v)

/-- Handle address and instance of a call.  (The argument of the calls src/thread/linux_raw.rs:803, 835, 872, 911.) -/
def Call.addr : Call → Nat
  | .swap a _ | .load _ a _ | .wait _ a _ _ | .blocked _ a _ | .loadRet a _ | .readFields _ a _ _
  | .drop _ a _ _ _ | .unmap _ a _ _ => a
/-- (Ghost) the instance a call's handle denotes; see `Call.addr` (src/thread/linux_raw.rs:803, 835, 872, 911). -/
def Call.target : Call → Inst
  | .swap _ h | .load _ _ h | .wait _ _ h _ | .blocked _ _ h | .loadRet _ h | .readFields _ _ h _
  | .drop _ _ h _ _ | .unmap _ _ h _ => h

/-- One step of thread `t`'s own exit path (`r` is its own record).  src/thread/linux_raw.rs:684-768, line by line below. -/
def ownStep (sig : Bool) (s : State) (t : Inst) (T : Thr) (r : Rec) : Option State :=
  match T.stage with
  -- the kernel's `CHILD_SETTID` store (src/thread/linux_raw.rs:573-582)
  | .born => some ((s.setRec T.addr (some { r with tid := T.tid })).setStage t .body)
  -- src/thread/linux_raw.rs:703-707
  | .cas v =>
    if r.detached = .initial then
      some ((s.setRec T.addr (some { r with detached := .abandoned })).setStage t (.storeRet v))
    else some (s.setStage t .dRead)
  -- src/thread/linux_raw.rs:757-763
  | .storeRet v => some ((s.setRec T.addr (some { r with ret := v })).setStage t .exitCall)
  -- src/thread/linux_raw.rs:713-715
  | .dRead => some (s.setStage t (.dDrop r.owned))
  -- src/thread/linux_raw.rs:722-726
  | .dDrop o => some (s.setStage t (if o then .dSetTid else .exitCall))
  -- src/thread/linux_raw.rs:729
  | .dSetTid => some ((s.modThr t fun T => { T with clear := false }).setStage t .dMask)
  -- src/thread/linux_raw.rs:733-737 (only with the `signal` feature)
  | .dMask => some ((s.modThr t fun T => { T with masked := sig }).setStage t .dUnmap)
  -- src/thread/linux_raw.rs:741-742, first system call of src/arch/*.rs `munmap_and_exit_thread`
  | .dUnmap => some (((s.setRec T.addr none).ev (.unmap t t)).setStage t .dExit)
  -- src/thread/linux_raw.rs:767
  | .exitCall => some ((s.ev (.exited t)).setStage t .kClear)
  | _ => none

/-- No instance is asleep on the futex word at `a`.  (Kernel: waits made at src/thread/linux_raw.rs:885-890.) -/
def State.noWaiter (s : State) (a : Nat) : Bool :=
  (List.range s.next).all fun j =>
    match s.call j with
    | some (.blocked _ b _) => b != a
    | _ => true

/-- No instance the kernel still knows has thread id `tid`.  (Kernel: ids given at src/thread/linux_raw.rs:583-591.) -/
def State.tidFree (s : State) (tid : Nat) : Bool :=
  (List.range s.next).all fun j =>
    match s.thr j with
    | some T => T.stage = .dead || T.tid != tid
    | none => true

/-- The transition function: `none` when the action is not possible in `s`.  `sig` is the `signal`
feature.  Client contract built in (the `# Safety` sections of `join`, `detach`, `id`): a handle is
passed to `join` or `detach` at most once, and `id` is not called on a handle after that, except by the
thread itself.  src/thread/linux_raw.rs:484-928 and 1051-1054, line by line below. -/
def step (sig : Bool) (s : State) : Action → Option State
  | .create t a tid =>
    match s.thr t with
    | some T =>
      if s.inUser t T ∧ (s.recs a).isNone ∧ tid ≠ 0 ∧ s.tidFree tid then
        if (s.view T.addr t).isNone then some (s.faulted t t) else
        -- src/thread/linux_raw.rs:484-613; the record as `initialize_tls` (line 456) and the kernel's
        -- `PARENT_SETTID` store leave it
        some ({ s with
          recs := fun x => if x = a then some ⟨s.next, tid, .initial, 0, true⟩ else s.recs x,
          thr := fun x => if x = s.next then
            some ⟨a, tid, .born, true, false, none, false⟩ else s.thr x,
          next := s.next + 1 }.ev (.created t s.next a tid))
      else none
    | none => none
  | .ret t v =>
    match s.thr t with
    | some T =>
      -- src/thread/linux_raw.rs:678-680; the main thread (instance 0) has no `fn_`
      if (s.call t).isNone ∧ T.stage = .body ∧ t ≠ 0 then
        if (s.view T.addr t).isNone then some (s.faulted t t) else
        some ((s.modThr t fun T => { T with ret := some v, stage := .dtors v }).ev (.returned t v))
      else none
    | none => none
  | .dtorsDone t =>
    match s.thr t with
    | some T =>
      match T.stage, s.call t with
      | .dtors v, none =>
        if (s.view T.addr t).isNone then some (s.faulted t t) else some (s.setStage t (.cas v))
      | _, _ => none
    | none => none
  | .join t h =>
    match s.thr t, s.thr h with
    | some T, some H =>
      if s.inUser t T ∧ (s.cons h).isNone then
        if (s.view T.addr t).isNone then some (s.faulted t t) else
        -- src/thread/linux_raw.rs:835-850
        some (((s.setCall t (some (.load .join H.addr h))).setCons h (t, .join, .waiting)).ev (.joinCall t h))
      else none
    | _, _ => none
  | .detach t h =>
    match s.thr t, s.thr h with
    | some T, some H =>
      if s.inUser t T ∧ (s.cons h).isNone then
        if (s.view T.addr t).isNone then some (s.faulted t t) else
        -- src/thread/linux_raw.rs:803-816
        some (((s.setCall t (some (.swap H.addr h))).setCons h (t, .detach, .start)).ev (.detachCall t h))
      else none
    | _, _ => none
  | .id t h =>
    match s.thr t, s.thr h with
    | some T, some H =>
      if s.inUser t T ∧ ((s.cons h).isNone ∨ h = t) then
        if (s.view T.addr t).isNone then some (s.faulted t t) else
        -- src/thread/linux_raw.rs:1051-1054 (and 963-973)
        match s.view H.addr h with
        | some r => some (s.ev (.idRes t h (if r.tid = 0 then none else some r.tid)))
        | none => some (s.faulted t h)
      else none
    | _, _ => none
  | .step t =>
    match s.thr t with
    | some T =>
      match T.stage with
      -- src/arch/*.rs `munmap_and_exit_thread`, second system call: touches no memory (C44)
      | .dExit => some ((s.ev (.exited t)).setStage t .kClear)
      | .kClear =>
        -- kernel `mm_release`: store 0 through `clear_child_tid` if set, then wake
        if T.clear then
          match s.view T.addr t with
          | some r =>
            some (((s.setRec T.addr (some { r with tid := 0 })).ev (.cleared t)).setStage t .kWake)
          | none => some (s.faulted t t)
        else some (s.setStage t .dead)
      | .kWake => none
      | .dead => none
      | _ =>
        match s.view T.addr t with
        | none => some (s.faulted t t)
        | some r =>
          match s.call t with
          | some c =>
            match c with
            | .blocked .. => none
            | _ =>
              match s.view c.addr c.target with
              | none => some (s.faulted t c.target)
              | some rc => callStep s t rc c
          | none => ownStep sig s t T r
    | none => none
  | .intr t =>
    match s.call t with
    -- src/thread/linux_raw.rs:892
    | some (.blocked k a h) => some (s.setCall t (some (.load k a h)))
    | _ => none
  | .wake t w =>
    match s.thr t with
    | some T =>
      if T.stage = .kWake then
        match w with
        | none => if s.noWaiter T.addr then some (s.setStage t .dead) else none
        | some j =>
          match s.call j with
          | some (.blocked k a h) =>
            -- src/thread/linux_raw.rs:891 `Ok(_) => break`
            if a = T.addr then
              some (((s.setStage t .dead).setCall j (some (afterWait k a h))).setCons h (j, k, .freeing))
            else none
          | _ => none
      else none
    | none => none
  | .signal t =>
    match s.thr t with
    | some T =>
      if T.masked then none else
      match T.stage with
      | .kClear | .kWake | .dead => none
      | _ => if (s.view T.addr t).isNone then some (s.faulted t t) else some s
    | none => none

/-- After startup: only the main thread, instance 0, whose record (at `a`) has `map_size` 0
(src/thread/linux_raw.rs:353-383). -/
def init (a tid : Nat) : State :=
  { recs := fun x => if x = a then some ⟨0, tid, .initial, 0, false⟩ else none,
    thr := fun x => if x = 0 then some ⟨a, tid, .body, true, false, none, false⟩ else none,
    call := fun _ => none,
    cons := fun _ => none,
    next := 1,
    log := [.created 0 0 a tid] }

/-- Run a list of actions.  (Actions: src/thread/linux_raw.rs:484-928, 1051-1054.) -/
def run (sig : Bool) (s : State) : List Action → Option State
  | [] => some s
  | x :: xs => (step sig s x).bind (run sig · xs)

/-- States reachable from startup by actions satisfying `P`.  (Actions: src/thread/linux_raw.rs:484-928, 1051-1054.) -/
inductive Reach (sig : Bool) (P : State → Action → Prop) : State → Prop
  | init (a tid) : tid ≠ 0 → Reach sig P (init a tid)
  | step {s a s'} : Reach sig P s → P s a → Life.step sig s a = some s' → Reach sig P s'

end Origin.Life
