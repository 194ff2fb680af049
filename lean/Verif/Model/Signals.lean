import Verif.Model.Process
/-!
# Signal handlers, in the process model

A handler installed with `sigaction` (src/signal/linux_raw.rs:19) may run on any thread, at any moment: on top of user code, or of origin's own code
(src/program/linux_raw.rs:93-338, src/thread/linux_raw.rs:684-697, 772-791, 932-938), or of another handler.  Until it returns, the code it interrupted
stands still; how it returns is the subject of C42.  A handler is user code, and may make any call that user code may make.

Each handler has a call stack of its own here, so that the interrupted code's stack stays as it is.  The calls of `thread::at_exit` are one step in `Proc.step`: a
handler that interrupts one in the middle is not distinguished from one that comes before or after it.
-/

namespace Origin.Proc

/-- A process with signal handlers: `s` with the stacks of the code outside handlers, `hnd t` the stacks of the handlers that run on thread `t`, innermost first,
and `killed` (ghost) the thread and the status if a handler itself called `immediate_exit`.
src/signal/linux_raw.rs:19, src/program/linux_raw.rs:332-338. -/
structure SState where
  s : State
  hnd : Tid → List (List Frame)
  killed : Option (Tid × Int)

/-- What can happen: what happens without signals, or the delivery of a signal to thread `t` (src/signal/linux_raw.rs:19). -/
inductive SAct
  | act (x : Action)
  | signal (t : Tid)
deriving DecidableEq, Repr

/-- The user function a handler's first frame is labelled with: any one which, unlike `origin_main` and a thread's function, just returns
(src/signal/linux_raw.rs:19). -/
def handlerFn : Fn := .ctor 0

/-- The stack that thread `t` is executing on (src/signal/linux_raw.rs:19). -/
def SState.cur (g : SState) (t : Tid) : List Frame :=
  match g.hnd t with
  | [] => g.s.stk t
  | l :: _ => l

/-- The stacks of the code on thread `t` that stands still: what the innermost handler has interrupted, what that has interrupted if it is a handler too,
and so on (src/signal/linux_raw.rs:19). -/
def SState.interrupted (g : SState) (t : Tid) : List (List Frame) :=
  match g.hnd t with
  | [] => []
  | _ :: ls => ls ++ [g.s.stk t]

/-- Bookkeeping: the handlers on `t` become `ls` (src/signal/linux_raw.rs:19). -/
def SState.setHnd (g : SState) (t : Tid) (ls : List (List Frame)) : SState :=
  { g with hnd := fun x => if x = t then ls else g.hnd x }

/-- After a step of the innermost handler on `t`, which led to `s'`, with the handlers `ls` further out: if its stack is empty, it has
returned.  src/signal/linux_raw.rs:19, 28-30. -/
def SState.resume (g : SState) (t : Tid) (ls : List (List Frame)) (s' : State) : SState :=
  { g with s := s'.setStk t (g.s.stk t) }.setHnd t (if s'.stk t = [] then ls else s'.stk t :: ls)

/-- `x` happens (`none`: it cannot).  A call of `immediate_exit` by a handler itself ends the process at once: the system call (src/program/linux_raw.rs:337) is
all it does.  src/signal/linux_raw.rs:19, src/program/linux_raw.rs:93-338, src/thread/linux_raw.rs:684-697, 772-791, 932-938. -/
def sstep (c : Cfg) (g : SState) (x : SAct) : Option SState :=
  if g.s.dead then none
  else match x with
    | .signal t => if g.cur t = [] then none else some (g.setHnd t ([.user handlerFn] :: g.hnd t))
    | .act x =>
      match g.hnd x.tid with
      | [] => (step c g.s x).map fun s' => { g with s := s' }
      | l :: ls =>
        match x, l with
        | .immExit t st, [.user _] => some { g with s := { g.s with dead := true }, killed := some (t, st) }
        | _, _ => (step c (g.s.setStk x.tid l) x).map (g.resume x.tid ls)

/-- Program start (src/program/linux_raw.rs:93). -/
def sinit : SState where
  s := init
  hnd _ := []
  killed := none

/-- Run a list of actions (of src/program/linux_raw.rs:93-338, src/thread/linux_raw.rs:684-697, 772-791, 932-938, src/signal/linux_raw.rs:19). -/
def srun (c : Cfg) (g : SState) : List SAct → Option SState
  | [] => some g
  | x :: xs => (sstep c g x).bind (srun c · xs)

/-- What handlers may do: return or call `immediate_exit`; and whatever user code may do, if neither it nor a handler that it interrupted has interrupted
origin's own code.  (A condition on the program, see src/program/linux_raw.rs:227-229, 332 and src/thread/linux_raw.rs:105.) -/
def SState.Allowed (g : SState) : SAct → Prop
  | .signal _ => True
  | .act x => g.hnd x.tid = [] ∨ (∃ st, x = .ret x.tid st) ∨ (∃ st, x = .immExit x.tid st) ∨ ∀ l ∈ g.interrupted x.tid, ∃ fn rest, l = .user fn :: rest

/-- States reachable from program start (src/program/linux_raw.rs:93), with any number of signals at any moments, by actions that `P` permits. -/
inductive SReach (c : Cfg) (P : SState → SAct → Prop) : SState → Prop
  | init : SReach c P sinit
  | step {g g' : SState} {x : SAct} : SReach c P g → P g x → sstep c g x = some g' → SReach c P g'

end Origin.Proc
