import Verif.Model.Process
/-!
# Panics in user code, with unwinding

The functions origin calls may panic.  With `panic = "unwind"` (the `unwinding` feature, src/lib.rs:25-29, or the standard library on top
of origin) the panic unwinds the thread's stack, until user code catches it, or until it gets to a function with the "C" ABI, which a
panic may not leave: then the process is aborted.  Origin catches no panics, so what a panic does depends on the functions it passes:

* `.init_array` and `.fini_array` functions have the "C" ABI (src/program/linux_raw.rs:122, 308): a panic in one aborts;
* `origin_main` and a thread's function are called by the two `entry` functions, which have the "C" ABI (src/program/linux_raw.rs:49, 155;
  src/thread/linux_raw.rs:627, 678): a panic in one aborts, unless it is caught inside, which is user code's business;
* so does a panic in a function registered with `thread::at_exit` when the thread exits: it passes `call_dtors` (src/thread/linux_raw.rs:774, 789),
  the thread's `exit` (line 684) and gets to `entry`;
* a panic in a function called by `program::exit` passes `call_dtors` and `exit` (src/program/linux_raw.rs:261, 264, 284), which hold no guard at that
  moment (the lock is released at line 279), so that nothing is dropped.  If it was `entry` that called `exit` (line 162), it aborts; if it was user code,
  user code may catch the panic, and goes on.  The function has been taken off its list, and is gone.

A panic that user code catches before it gets to origin's code is part of user code, and so is a second panic while a panic unwinds (it
aborts).  Panics in origin's own code are the subject of C57.
-/

namespace Origin.Proc

/-- A process whose functions may panic.  `left` (ghost): the `exit` calls that a panic has left, each with the function that panicked, newest first.
src/program/linux_raw.rs:261-327. -/
structure UState where
  s : State
  left : List (Exit × Fn)
  aborted : Bool

/-- What can happen: what happens without panics, or a panic in the user function that thread `t` is executing.
src/program/linux_raw.rs:139, 155, 284, 321; src/thread/linux_raw.rs:678, 789. -/
inductive UAct
  | act (x : Action)
  | panic (t : Tid)
deriving DecidableEq, Repr

/-- Unwinding out of `fn`, which thread `t` is executing, with `rest` under it: the call of `exit` that called it is left, if it was made
by user code; the process is aborted otherwise.  src/program/linux_raw.rs:49, 122, 162, 261-284, 308; src/thread/linux_raw.rs:627, 684-697, 774-790. -/
def UState.unwind (u : UState) (t : Tid) (fn : Fn) (rest : List Frame) : UState :=
  match fn, rest with
  | .tdtor f, .exitThr e _ :: .user g :: below => { u with s := u.s.setStk t (.user g :: below), left := (e, .tdtor f) :: u.left }
  | .pdtor f, .exitLock e _ :: .user g :: below => { u with s := u.s.setStk t (.user g :: below), left := (e, .pdtor f) :: u.left }
  | _, _ => { u with aborted := true }

/-- `x` happens (`none`: it cannot happen in `u`).  src/program/linux_raw.rs:93-338, src/thread/linux_raw.rs:627-697, 772-791, 932-938. -/
def ustep (c : Cfg) (u : UState) (x : UAct) : Option UState :=
  if u.aborted then none
  else match x with
    | .act x => (step c u.s x).map fun s => { u with s := s }
    | .panic t =>
      if u.s.dead then none
      else match u.s.stk t with
        | .user fn :: rest => some (u.unwind t fn rest)
        | _ => none

/-- Program start (src/program/linux_raw.rs:93). -/
def uinit : UState where
  s := init
  left := []
  aborted := false

/-- Run a list of actions (of src/program/linux_raw.rs:93-338, src/thread/linux_raw.rs:627-697, 772-791, 932-938). -/
def urun (c : Cfg) (u : UState) : List UAct → Option UState
  | [] => some u
  | x :: xs => (ustep c u x).bind (urun c · xs)

/-- States reachable from program start (src/program/linux_raw.rs:93), with any number of panics. -/
inductive UReach (c : Cfg) : UState → Prop
  | init : UReach c uinit
  | step {u u' : UState} {x : UAct} : UReach c u → ustep c u x = some u' → UReach c u'

end Origin.Proc
