import Verif.Model.Process
/-!
# Program start, `at_exit` and exit with the `log` feature

With the `log` feature these functions call `log::trace!` at the places marked below; if tracing is enabled this calls the program's logger: a function of the
program's own, on the same stack, which may call back into origin.  This is the model of `Model/Process.lean` with these calls; the logger is user code that may do anything
other user code may.  (A message that is not enabled is a logger that returns at once.)  The messages of `join` and `detach` (src/thread/linux_raw.rs:806-815, 838-849,
899-903) are not here: these functions are called from user code and do not touch what is modelled here, so for this model their messages are part of the user
code that called them.
-/

namespace Origin.LogProc

open Proc (Cfg Fn Tid FnId Exit Ev Action)

/-- The messages.  Lines of src/program/linux_raw.rs and src/thread/linux_raw.rs (T). -/
inductive Msg
  /-- "Calling `.init_array`-registered function": lines 131-137 -/
  | ctor (p : Nat)
  /-- "Calling `origin_main(..)`": line 152 -/
  | main
  /-- "`origin_main` returned": line 158 -/
  | mainRet (st : Int)
  /-- "launched thread", by the caller of `create`: T 594-607 -/
  | created (u : Tid)
  /-- "launched", by the new thread: T 633 -/
  | launched
  /-- "returned": T 687-694 -/
  | returned
  /-- "calling `thread::at_exit`-registered function": T 781-787 -/
  | tdtor (o : Option Exit) (f : FnId)
  /-- "exiting as detached" or "exiting as joinable": T 717-718, 747-753 -/
  | gone
  /-- "Calling `at_exit`-registered function": line 282 -/
  | pdtor (e : Exit) (f : FnId)
  /-- "Calling `.fini_array`-registered function": line 319 -/
  | fini (e : Exit) (p : Nat)
  /-- "Program exiting with status", in `exit` (`some e`) or in an `immediate_exit` called by the program: line 334 -/
  | exiting (o : Option Exit) (st : Int)
deriving DecidableEq, Repr

/-- Frames of a thread's call stack: those of `Proc.Frame`, the logger, and the points after each message.  src/program/linux_raw.rs:93-164, 249-257, 261-338;
src/thread/linux_raw.rs:627-681, 684-768, 772-791. -/
inductive Frame
  /-- user code -/
  | user (fn : Fn)
  /-- the logger, called with message `m` -/
  | logger (m : Msg)
  /-- program `entry`, before `init_runtime` (src/program/linux_raw.rs:104) -/
  | entry
  /-- program `entry`, the `.init_array` loop, `init == p` (line 129) -/
  | init (p : Nat)
  /-- after the message, before `(*init)(..)` (line 139) -/
  | callCtor (p : Nat)
  /-- after the message, before `origin_main(..)` (line 155) -/
  | callMain
  /-- after the message that `origin_main` returned (line 162) -/
  | mainDone (st : Int)
  /-- `create`, after `clone`, before its message (src/thread/linux_raw.rs:593) -/
  | createdMsg (u : Tid)
  /-- thread `entry`, before its message (src/thread/linux_raw.rs:632) -/
  | launch
  /-- thread `entry`, after its message, before `fn_(args)` (src/thread/linux_raw.rs:678) -/
  | callStart
  /-- thread `exit`, after its first message (src/thread/linux_raw.rs:697) -/
  | startDone
  /-- thread `exit`, the `call_dtors` loop (src/thread/linux_raw.rs:780) -/
  | thrLoop
  /-- `call_dtors`, after the message, before `func()` (src/thread/linux_raw.rs:789) -/
  | callT (o : Option Exit) (f : FnId)
  /-- thread `exit`, after its last message (src/thread/linux_raw.rs:719, 755) -/
  | thrGone
  /-- program `at_exit`, before `DTORS.lock()` (src/program/linux_raw.rs:251) -/
  | regLock
  /-- program `at_exit`, before `push` (line 256) -/
  | regPush
  /-- program `at_exit`, before the guard is dropped and it returns (line 257) -/
  | regUnlock (f : FnId)
  /-- `exit`, the `call_dtors` loop (line 264) -/
  | exitThr (e : Exit) (st : Int)
  /-- `exit`, before `DTORS.lock()` (line 272) -/
  | exitLock (e : Exit) (st : Int)
  /-- `exit`, before `dtors.pop()` (line 277) -/
  | exitPop (e : Exit) (st : Int)
  /-- `exit`, before `drop(dtors)` (line 279) -/
  | exitUnlock (e : Exit) (st : Int) (f : FnId)
  /-- `exit`, before the message (line 282) -/
  | exitMsg (e : Exit) (st : Int) (f : FnId)
  /-- `exit`, after the message, before `func()` (line 284) -/
  | exitCall (e : Exit) (st : Int) (f : FnId)
  /-- `exit`, the `.fini_array` loop, `fini == p` (line 315) -/
  | exitFini (e : Exit) (st : Int) (p : Nat)
  /-- `exit`, after the message, before `(*fini)()` (line 321) -/
  | callFini (e : Exit) (p : Nat)
  /-- `immediate_exit` called by `exit`, after its message, before `exit_group` (line 337) -/
  | exitGrp (e : Exit) (st : Int)
  /-- `immediate_exit` called by the program, after its message, before `exit_group` (line 337) -/
  | immGrp (st : Int)
deriving DecidableEq, Repr

/-- Observable events: those of `Proc.Ev`, and the calls of the logger.  (For `origin_main`'s return and for `immediate_exit` calls the event of `Proc.Ev` is recorded
when origin goes on after the message; the message is the record of the call itself.)  src/program/linux_raw.rs:93-338, src/thread/linux_raw.rs:627-938. -/
inductive LEv
  | ev (e : Ev)
  | msg (t : Tid) (m : Msg)
deriving DecidableEq, Repr

/-- The process; as `Proc.State`.  `ThreadData::dtors` (src/thread/linux_raw.rs:105), `DTORS` and its lock (src/program/linux_raw.rs:227-229). -/
structure State where
  stk : Tid → List Frame
  tdtors : Tid → List FnId
  dtors : List FnId
  lock : Option Tid
  nextT : Tid
  nextF : FnId
  nextE : Exit
  dead : Bool
  log : List LEv

/-- Bookkeeping: thread `t`'s call stack becomes `l` (calls and returns in src/program/linux_raw.rs:93-338, src/thread/linux_raw.rs:627-791). -/
def State.setStk (s : State) (t : Tid) (l : List Frame) : State :=
  { s with stk := fun x => if x = t then l else s.stk x }
/-- Store to `ThreadData::dtors`: src/thread/linux_raw.rs:105, 780, 936. -/
def State.setTd (s : State) (t : Tid) (l : List FnId) : State :=
  { s with tdtors := fun x => if x = t then l else s.tdtors x }
/-- Bookkeeping: add an event to the history (ghost; events of src/program/linux_raw.rs:93-338, src/thread/linux_raw.rs:627-791). -/
def State.ev (s : State) (e : Ev) : State := { s with log := .ev e :: s.log }

/-- `log::trace!` on `t`, with `rest` to come back to (src/program/linux_raw.rs:131, 152, 158, 282, 319, 334; src/thread/linux_raw.rs:596, 633, 689, 718, 749,
783). -/
def State.trace (s : State) (t : Tid) (m : Msg) (rest : List Frame) : State :=
  { s.setStk t (.logger m :: rest) with log := .msg t m :: s.log }

/-- `DTORS.lock()`, or nothing without the "thread" feature: src/program/linux_raw.rs:250-254, 271-275. -/
def State.acquire (c : Cfg) (s : State) (t : Tid) : Option State :=
  if c.thread then (if s.lock = none then some { s with lock := some t } else none) else some s

/-- Dropping the guard: src/program/linux_raw.rs:257, 279. -/
def State.release (c : Cfg) (s : State) : State := if c.thread then { s with lock := none } else s

/-- Entry to `exit`: src/program/linux_raw.rs:261-264. -/
def State.beginExit (s : State) (t : Tid) (rest : List Frame) (st : Int) : State :=
  ({ s with nextE := s.nextE + 1 }.setStk t (.exitThr s.nextE st :: rest)).ev (.exitBegin t s.nextE st)

/-- One step of origin's own code with `fr` on top of `rest` on thread `t`.  src/program/linux_raw.rs:93-164, 249-257, 261-338; src/thread/linux_raw.rs:627-681, 684-768,
772-791; line by line below (T: src/thread/linux_raw.rs, otherwise src/program/linux_raw.rs). -/
def frameStep (c : Cfg) (s : State) (t : Tid) (rest : List Frame) : Frame → Option State
  | .user _ => none
  | .logger _ => none
  -- init_runtime: 104
  | .entry => some ((s.setStk t (.init c.initFirst :: rest)).ev .runtimeInit)
  -- 129-137, 152
  | .init p =>
    if p = c.initEnd then some (s.trace t .main (.callMain :: rest))
    else some (s.trace t (.ctor p) (.callCtor p :: .init (p + c.ws) :: rest))
  -- 139
  | .callCtor p => some ((s.setStk t (.user (.ctor p) :: rest)).ev (.ctor p c.args))
  -- 155
  | .callMain => some ((s.setStk t (.user .main :: rest)).ev (.main c.args))
  -- 162
  | .mainDone st => some ((s.ev (.mainRet st)).beginExit t rest st)
  -- T 594-607
  | .createdMsg u => some (s.trace t (.created u) rest)
  -- T 633
  | .launch => some (s.trace t .launched (.callStart :: rest))
  -- T 678
  | .callStart => some (s.setStk t (.user .start :: rest))
  -- T 697
  | .startDone => some (s.setStk t (.thrLoop :: rest))
  -- T 780-787, then 717-718 or 747-753
  | .thrLoop =>
    match c.threadAtExit, s.tdtors t with
    | true, f :: fs => some ((s.setTd t fs).trace t (.tdtor none f) (.callT none f :: .thrLoop :: rest))
    | _, _ => some (s.trace t .gone (.thrGone :: rest))
  -- T 789
  | .callT o f => some ((s.setStk t (.user (.tdtor f) :: rest)).ev (.tCall t o f))
  -- the rest of the thread's exit: T 719-768
  | .thrGone => some ((s.setStk t []).ev (.released t))
  -- 251-257
  | .regLock => (s.acquire c t).map fun s => s.setStk t (.regPush :: rest)
  | .regPush => some (({ s with dtors := s.nextF :: s.dtors, nextF := s.nextF + 1 }.setStk t
      (.regUnlock s.nextF :: rest)).ev (.pReg t s.nextF))
  | .regUnlock f => some (((s.release c).setStk t rest).ev (.pRegRet t f))
  -- 263-264, T 780-787
  | .exitThr e st =>
    match c.threadAtExit, s.tdtors t with
    | true, f :: fs => some ((s.setTd t fs).trace t (.tdtor (some e) f) (.callT (some e) f :: .exitThr e st :: rest))
    | _, _ => some ((s.setStk t (.exitLock e st :: rest)).ev (.tDone t e))
  -- 269-275
  | .exitLock e st =>
    if c.programAtExit then (s.acquire c t).map fun s => s.setStk t (.exitPop e st :: rest)
    else some ((s.setStk t (.exitFini e st c.finiFirst :: rest)).ev (.pDone t e))
  -- 277-291 (the lock is leaked, line 289)
  | .exitPop e st =>
    match s.dtors with
    | f :: fs => some (({ s with dtors := fs }.setStk t (.exitUnlock e st f :: rest)).ev (.pTake t e f))
    | [] => some ((s.setStk t (.exitFini e st c.finiFirst :: rest)).ev (.pDone t e))
  -- 279
  | .exitUnlock e st f => some ((s.release c).setStk t (.exitMsg e st f :: rest))
  -- 282
  | .exitMsg e st f => some (s.trace t (.pdtor e f) (.exitCall e st f :: rest))
  -- 284
  | .exitCall e st f => some ((s.setStk t (.user (.pdtor f) :: .exitLock e st :: rest)).ev (.pCall t e f))
  -- 315-319, then 326, 334
  | .exitFini e st p =>
    if p = c.finiStart then some (s.trace t (.exiting (some e) st) (.exitGrp e st :: rest))
    else some (s.trace t (.fini e (p - c.ws)) (.callFini e (p - c.ws) :: .exitFini e st (p - c.ws) :: rest))
  -- 321
  | .callFini e p => some ((s.setStk t (.user (.fini p) :: rest)).ev (.fini t e p))
  -- 337
  | .exitGrp e st => some ({ s with dead := true }.ev (.group t e st))
  | .immGrp st => some (({ s with dead := true, nextE := s.nextE + 1 }.ev (.immBegin t s.nextE st)).ev (.group t s.nextE st))

/-- A call that user code or the logger (`top`) makes, or its return.  src/program/linux_raw.rs:155-162, 249, 261, 332; src/thread/linux_raw.rs:484, 678,
932; line by line below. -/
def userStep (c : Cfg) (s : State) (t : Tid) (top : Frame) (rest : List Frame) : Action → Option State
  -- src/thread/linux_raw.rs:484-592; the new thread begins at line 632
  | .spawn _ =>
    if c.thread then
      some ((({ s with nextT := s.nextT + 1 }.setStk s.nextT [.launch]).setStk t (.createdMsg s.nextT :: top :: rest)).ev (.spawned s.nextT))
    else none
  -- src/thread/linux_raw.rs:932-938
  | .regThr _ =>
    if c.threadAtExit then
      some (({ s with nextF := s.nextF + 1 }.setTd t (s.nextF :: s.tdtors t)).ev (.tReg t s.nextF))
    else none
  | .regProg _ => if c.programAtExit then some (s.setStk t (.regLock :: top :: rest)) else none
  | .exit _ st => some (s.beginExit t (top :: rest) st)
  -- src/program/linux_raw.rs:332-334
  | .immExit _ st => some (s.trace t (.exiting none st) (.immGrp st :: top :: rest))
  | .ret _ st =>
    match top with
    -- src/program/linux_raw.rs:155-158
    | .user .main => some (s.trace t (.mainRet st) (.mainDone st :: rest))
    -- src/thread/linux_raw.rs:678-694
    | .user .start => some (s.trace t .returned (.startDone :: rest))
    | _ => some (s.setStk t rest)
  | .step _ => none

/-- Whether a frame is code of the program's own (the calls at src/program/linux_raw.rs:139, 155, 284, 321, src/thread/linux_raw.rs:678, 789, and the messages). -/
def Frame.users : Frame → Bool
  | .user _ | .logger _ => true
  | _ => false

/-- `x` happens (`none`: it cannot happen in state `s`).  src/program/linux_raw.rs:93-164, 249-257, 261-338; src/thread/linux_raw.rs:627-681, 684-768, 772-791,
932-938. -/
def step (c : Cfg) (s : State) (x : Action) : Option State :=
  if s.dead then none
  else match s.stk x.tid with
    | [] => none
    | top :: rest => if top.users then userStep c s x.tid top rest x else if x = .step x.tid then frameStep c s x.tid rest top else none

/-- Thread 0 is the main thread, at the start of `entry` (after `compute_args` and relocation).  src/program/linux_raw.rs:93-104. -/
def init : State where
  stk t := if t = 0 then [.entry] else []
  tdtors _ := []
  dtors := []
  lock := none
  nextT := 1
  nextF := 0
  nextE := 0
  dead := false
  log := []

/-- Run a list of actions (of src/program/linux_raw.rs:93-338, src/thread/linux_raw.rs:627-938). -/
def run (c : Cfg) (s : State) : List Action → Option State
  | [] => some s
  | x :: xs => (step c s x).bind (run c · xs)

/-- States reachable from the start of the program, src/program/linux_raw.rs:93, by any actions (see `step`). -/
inductive Reach (c : Cfg) : State → Prop
  | init : Reach c init
  | step {s s' : State} {x : Action} : Reach c s → step c s x = some s' → Reach c s'

end Origin.LogProc
