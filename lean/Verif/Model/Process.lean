import Verif.Model.Startup
/-!
# Program start, `at_exit`, thread exit and program exit, with any number of threads

Models src/program/linux_raw.rs:93-164 (`entry`), 249-257 (`at_exit`), 261-327 (`exit`), 332-338
(`immediate_exit`), and src/thread/linux_raw.rs:684-697 (the start of a thread's `exit`), 772-791
(`call_dtors`), 932-938 (`at_exit`).

Each thread has a stack of frames; user code (constructors, `origin_main`, thread functions, `at_exit` and
`.fini_array` functions) is an opaque frame that may at any point call any of these functions, return, or
go on for ever.  All threads interleave arbitrarily; the steps of the locked regions are separate steps.
`rustix_futex_sync::Mutex` is modelled as a lock that is taken atomically when free.  Allocation failure
is not modelled; panics in user code are added by `Model/Unwind.lean`, signal handlers by `Model/Signals.lean`.

Ghost data: registered functions and calls of `exit`/`immediate_exit` are numbered in order; `log` is the
history of observable events, newest first.
-/

namespace Origin.Proc

open Boot (Args)

/-- Cargo features and linker-provided addresses (`__init_array_start` … `__fini_array_end`,
src/program/linux_raw.rs:115-124, 303-310), and the arguments `compute_args` found. -/
structure Cfg where
  thread : Bool
  threadAtExit : Bool
  programAtExit : Bool
  initArray : Bool
  finiArray : Bool
  initStart : Nat
  initEnd : Nat
  finiStart : Nat
  finiEnd : Nat
  /-- size of a function pointer -/
  ws : Nat
  args : Args

/-- A thread: 0 is the main thread, the others are numbered in the order of the calls of `create` (src/thread/linux_raw.rs:484). -/
abbrev Tid := Nat
/-- A registered function (numbered in order of registration).  src/program/linux_raw.rs:249, src/thread/linux_raw.rs:932. -/
abbrev FnId := Nat
/-- A call of `exit` or `immediate_exit` (numbered in order).  src/program/linux_raw.rs:261, 332. -/
abbrev Exit := Nat

/-- The user function a user frame runs.  The calls are at src/program/linux_raw.rs:139 and 155, src/thread/linux_raw.rs:678 and 789,
src/program/linux_raw.rs:284 and 321. -/
inductive Fn
  | ctor (p : Nat)
  | main
  | start
  | tdtor (f : FnId)
  | pdtor (f : FnId)
  | fini (p : Nat)
deriving DecidableEq, Repr

/-- A frame of a thread's call stack: what it does next when it is on top.  src/program/linux_raw.rs:93-164, 249-257, 261-338;
src/thread/linux_raw.rs:684-697, 772-791. -/
inductive Frame
  /-- user code -/
  | user (fn : Fn)
  /-- program `entry`, before `init_runtime` (src/program/linux_raw.rs:104) -/
  | entry
  /-- program `entry`, the `.init_array` loop, `init == p` (lines 129-142) -/
  | init (p : Nat)
  /-- thread `exit`, the `call_dtors` loop (src/thread/linux_raw.rs:780) -/
  | thrLoop
  /-- program `at_exit`, before `DTORS.lock()` (src/program/linux_raw.rs:251) -/
  | regLock
  /-- program `at_exit`, before `push` (line 256) -/
  | regPush
  /-- program `at_exit`, before the guard is dropped and it returns (line 257) -/
  | regUnlock (f : FnId)
  /-- `exit`, the `call_dtors` loop (line 264) -/
  | exitThr (e : Exit) (st : Int)
  /-- `exit`, before `DTORS.lock()` (line 272) -/
  | exitLock (e : Exit) (st : Int)
  /-- `exit`, before `dtors.pop()` (line 277) -/
  | exitPop (e : Exit) (st : Int)
  /-- `exit`, before `drop(dtors)` (line 279) -/
  | exitUnlock (e : Exit) (st : Int) (f : FnId)
  /-- `exit`, before `func()` (line 284) -/
  | exitCall (e : Exit) (st : Int) (f : FnId)
  /-- `exit`, the `.fini_array` loop, `fini == p` (lines 315-322) -/
  | exitFini (e : Exit) (st : Int) (p : Nat)
  /-- `immediate_exit`, before `exit_group` (line 337) -/
  | exitImm (e : Exit) (st : Int)
deriving DecidableEq, Repr

/-- Observable events.  Calls made and effects of src/program/linux_raw.rs:93-164, 249-257, 261-338; src/thread/linux_raw.rs:684-697, 772-791,
932-938. -/
inductive Ev
  | runtimeInit
  | ctor (p : Nat) (a : Args)
  | main (a : Args)
  /-- `origin_main` returned `st` -/
  | mainRet (st : Int)
  | spawned (t : Tid)
  /-- `t` registered `f` with `thread::at_exit` -/
  | tReg (t : Tid) (f : FnId)
  /-- `f` is called on `t`, by `exit` call `o`, or (`none`) by the thread's own exit -/
  | tCall (t : Tid) (o : Option Exit) (f : FnId)
  /-- `t` has exited (went on from its `at_exit` functions to releasing its memory) -/
  | released (t : Tid)
  /-- `t` registered `f` with `program::at_exit` -/
  | pReg (t : Tid) (f : FnId)
  /-- that call returned -/
  | pRegRet (t : Tid) (f : FnId)
  /-- `t` called `exit(st)` -/
  | exitBegin (t : Tid) (e : Exit) (st : Int)
  /-- `exit` call `e` is finished with the thread's functions -/
  | tDone (t : Tid) (e : Exit)
  /-- `exit` call `e` took `f` off the list -/
  | pTake (t : Tid) (e : Exit) (f : FnId)
  /-- and called it -/
  | pCall (t : Tid) (e : Exit) (f : FnId)
  /-- `exit` call `e` is finished with the program's functions -/
  | pDone (t : Tid) (e : Exit)
  /-- the `.fini_array` function in slot `p` is called -/
  | fini (t : Tid) (e : Exit) (p : Nat)
  /-- `t` called `immediate_exit(st)` -/
  | immBegin (t : Tid) (e : Exit) (st : Int)
  /-- the process ends with status `st` -/
  | group (t : Tid) (e : Exit) (st : Int)
deriving DecidableEq, Repr

/-- The process: call stacks, `ThreadData::dtors` (src/thread/linux_raw.rs:105, newest first), `DTORS` and its lock
(src/program/linux_raw.rs:227-229), whether `exit_group` (src/program/linux_raw.rs:337) was called; counters and history are ghost data. -/
structure State where
  stk : Tid → List Frame
  tdtors : Tid → List FnId
  dtors : List FnId
  lock : Option Tid
  nextT : Tid
  nextF : FnId
  nextE : Exit
  dead : Bool
  log : List Ev

/-- Bookkeeping: thread `t`'s call stack becomes `l` (calls and returns in src/program/linux_raw.rs:93-338, src/thread/linux_raw.rs:684-697, 772-791).
-/
def State.setStk (s : State) (t : Tid) (l : List Frame) : State :=
  { s with stk := fun x => if x = t then l else s.stk x }
/-- Store to `ThreadData::dtors`: src/thread/linux_raw.rs:105, 780, 936. -/
def State.setTd (s : State) (t : Tid) (l : List FnId) : State :=
  { s with tdtors := fun x => if x = t then l else s.tdtors x }
/-- Bookkeeping: add an event to the history (ghost; not in /repo; events of src/program/linux_raw.rs:93-338). -/
def State.ev (s : State) (e : Ev) : State := { s with log := e :: s.log }

/-- What user code on `t` can do, and `t`'s next step inside origin.  src/program/linux_raw.rs:155-162, 249, 261, 332; src/thread/linux_raw.rs:484,
678, 932. -/
inductive Action
  /-- create a thread (the details of `thread::create` are the subject of other models) -/
  | spawn (t : Tid)
  /-- `thread::at_exit` -/
  | regThr (t : Tid)
  /-- `program::at_exit` -/
  | regProg (t : Tid)
  | exit (t : Tid) (st : Int)
  | immExit (t : Tid) (st : Int)
  /-- the user function returns; `st` matters for `origin_main` only -/
  | ret (t : Tid) (st : Int)
  | step (t : Tid)
deriving DecidableEq, Repr

/-- The thread that does it (src/program/linux_raw.rs:155-162, 249, 261, 332; src/thread/linux_raw.rs:484, 678, 932). -/
def Action.tid : Action → Tid
  | .spawn t | .regThr t | .regProg t | .exit t _ | .immExit t _ | .ret t _ | .step t => t

/-- `DTORS.lock()`, or nothing without the "thread" feature: src/program/linux_raw.rs:250-254, 271-275. -/
def State.acquire (c : Cfg) (s : State) (t : Tid) : Option State :=
  if c.thread then (if s.lock = none then some { s with lock := some t } else none) else some s

/-- Dropping the guard: src/program/linux_raw.rs:257, 279. -/
def State.release (c : Cfg) (s : State) : State := if c.thread then { s with lock := none } else s

/-- Entry to `exit`: src/program/linux_raw.rs:261-264. -/
def State.beginExit (s : State) (t : Tid) (rest : List Frame) (st : Int) : State :=
  ({ s with nextE := s.nextE + 1 }.setStk t (.exitThr s.nextE st :: rest)).ev (.exitBegin t s.nextE st)

/-- Where the `.fini_array` loop starts: src/program/linux_raw.rs:295-313 (without the feature there is no
loop: its end). -/
def Cfg.finiFirst (c : Cfg) : Nat := if c.finiArray then c.finiEnd else c.finiStart

/-- Where the `.init_array` loop starts: src/program/linux_raw.rs:107-127. -/
def Cfg.initFirst (c : Cfg) : Nat := if c.initArray then c.initStart else c.initEnd

/-- One step of origin's own code with `fr` on top of `rest` on thread `t`.  src/program/linux_raw.rs:93-164, 249-257, 261-338;
src/thread/linux_raw.rs:772-791; line by line below. -/
def frameStep (c : Cfg) (s : State) (t : Tid) (rest : List Frame) : Frame → Option State
  | .user _ => none
  -- init_runtime: src/program/linux_raw.rs:104
  | .entry => some ((s.setStk t (.init c.initFirst :: rest)).ev .runtimeInit)
  -- src/program/linux_raw.rs:129-142, then 155
  | .init p =>
    if p = c.initEnd then some ((s.setStk t (.user .main :: rest)).ev (.main c.args))
    else some ((s.setStk t (.user (.ctor p) :: .init (p + c.ws) :: rest)).ev (.ctor p c.args))
  -- src/thread/linux_raw.rs:780-790, then the rest of the thread's exit
  | .thrLoop =>
    match c.threadAtExit, s.tdtors t with
    | true, f :: fs => some (((s.setTd t fs).setStk t (.user (.tdtor f) :: .thrLoop :: rest)).ev (.tCall t none f))
    | _, _ => some ((s.setStk t []).ev (.released t))
  -- src/program/linux_raw.rs:251-257
  | .regLock => (s.acquire c t).map fun s => s.setStk t (.regPush :: rest)
  | .regPush => some (({ s with dtors := s.nextF :: s.dtors, nextF := s.nextF + 1 }.setStk t
      (.regUnlock s.nextF :: rest)).ev (.pReg t s.nextF))
  | .regUnlock f => some (((s.release c).setStk t rest).ev (.pRegRet t f))
  -- src/program/linux_raw.rs:263-264
  | .exitThr e st =>
    match c.threadAtExit, s.tdtors t with
    | true, f :: fs => some (((s.setTd t fs).setStk t (.user (.tdtor f) :: .exitThr e st :: rest)).ev (.tCall t (some e) f))
    | _, _ => some ((s.setStk t (.exitLock e st :: rest)).ev (.tDone t e))
  -- src/program/linux_raw.rs:269-275
  | .exitLock e st =>
    if c.programAtExit then (s.acquire c t).map fun s => s.setStk t (.exitPop e st :: rest)
    else some ((s.setStk t (.exitFini e st c.finiFirst :: rest)).ev (.pDone t e))
  -- src/program/linux_raw.rs:277-291 (the lock is leaked, line 289)
  | .exitPop e st =>
    match s.dtors with
    | f :: fs => some (({ s with dtors := fs }.setStk t (.exitUnlock e st f :: rest)).ev (.pTake t e f))
    | [] => some ((s.setStk t (.exitFini e st c.finiFirst :: rest)).ev (.pDone t e))
  | .exitUnlock e st f => some ((s.release c).setStk t (.exitCall e st f :: rest))
  | .exitCall e st f => some ((s.setStk t (.user (.pdtor f) :: .exitLock e st :: rest)).ev (.pCall t e f))
  -- src/program/linux_raw.rs:315-322, then 326
  | .exitFini e st p =>
    if p = c.finiStart then some (s.setStk t (.exitImm e st :: rest))
    else some ((s.setStk t (.user (.fini (p - c.ws)) :: .exitFini e st (p - c.ws) :: rest)).ev (.fini t e (p - c.ws)))
  -- src/program/linux_raw.rs:337
  | .exitImm e st => some ({ s with dead := true }.ev (.group t e st))

/-- A call user code makes, or its return.  src/program/linux_raw.rs:155-162, 249, 261, 332; src/thread/linux_raw.rs:484, 678, 932; line by line
below. -/
def userStep (c : Cfg) (s : State) (t : Tid) (fn : Fn) (rest : List Frame) : Action → Option State
  | .spawn _ =>
    if c.thread then
      some (({ s with nextT := s.nextT + 1 }.setStk s.nextT [.user .start]).ev (.spawned s.nextT))
    else none
  -- src/thread/linux_raw.rs:932-938
  | .regThr _ =>
    if c.threadAtExit then
      some (({ s with nextF := s.nextF + 1 }.setTd t (s.nextF :: s.tdtors t)).ev (.tReg t s.nextF))
    else none
  | .regProg _ => if c.programAtExit then some (s.setStk t (.regLock :: .user fn :: rest)) else none
  | .exit _ st => some (s.beginExit t (.user fn :: rest) st)
  | .immExit _ st =>
    some (({ s with nextE := s.nextE + 1 }.setStk t (.exitImm s.nextE st :: .user fn :: rest)).ev (.immBegin t s.nextE st))
  | .ret _ st =>
    match fn with
    -- src/program/linux_raw.rs:155-162
    | .main => some ((s.ev (.mainRet st)).beginExit t rest st)
    -- src/thread/linux_raw.rs:678-697
    | .start => some (s.setStk t (.thrLoop :: rest))
    | _ => some (s.setStk t rest)
  | .step _ => none

/-- `x` happens (`none`: it cannot happen in state `s`).  src/program/linux_raw.rs:93-164, 249-257, 261-338; src/thread/linux_raw.rs:684-697, 772-791,
932-938. -/
def step (c : Cfg) (s : State) (x : Action) : Option State :=
  if s.dead then none
  else match s.stk x.tid with
    | [] => none
    | .user fn :: rest => userStep c s x.tid fn rest x
    | fr :: rest => if x = .step x.tid then frameStep c s x.tid rest fr else none

/-- Thread 0 is the main thread, at the start of `entry` (after `compute_args` and relocation).  src/program/linux_raw.rs:93-104. -/
def init : State where
  stk t := if t = 0 then [.entry] else []
  tdtors _ := []
  dtors := []
  lock := none
  nextT := 1
  nextF := 0
  nextE := 0
  dead := false
  log := []

/-- Run a list of actions (of src/program/linux_raw.rs:93-338, src/thread/linux_raw.rs:684-697, 772-791, 932-938). -/
def run (c : Cfg) (s : State) : List Action → Option State
  | [] => some s
  | x :: xs => (step c s x).bind (run c · xs)

/-- States reachable from the start of the program, src/program/linux_raw.rs:93, by any actions (see `step`). -/
inductive Reach (c : Cfg) : State → Prop
  | init : Reach c init
  | step {s s' : State} {x : Action} : Reach c s → step c s x = some s' → Reach c s'

end Origin.Proc
