import Verif.Model.Lifecycle
import Verif.Model.Process
/-!
# Threads and their `at_exit` functions together

`Model/Lifecycle.lean` has the life and death of threads (create, join, detach, memory) and says of a thread's `at_exit` functions only that they
"are finished" at some point; `Model/Process.lean` has the registered functions, the order in which they are called and program exit, and says of a
thread's end only that it is "released".  Here the two run together, in lock step where they meet: a thread is created in both at once, its function
returns in both at once, and `call_dtors` returning (src/thread/linux_raw.rs:697) is the `released` of the one and the `dtorsDone` of the other.
Thread numbers are the same in both.

A thread makes a step of the one only if the other has it at a point where the step is possible: an API call needs user code on top of the thread's
stack; user code and origin's exit code run only while no `create`/`join`/`detach`/`id` call is in progress on that thread.  A fault (see
`Model/Lifecycle.lean`) ends the process.
-/

namespace Origin.Whole

/-- Events of both.  src/thread/linux_raw.rs:484-938, src/program/linux_raw.rs:93-338. -/
abbrev Ev := Life.Ev ⊕ Proc.Ev

/-- The process: threads (src/thread/linux_raw.rs:484-938) and program start and exit (src/program/linux_raw.rs:93-338) together. -/
structure State where
  l : Life.State
  p : Proc.State
  /-- the process was killed by a fault -/
  crashed : Bool
  /-- all events, newest first -/
  log : List Ev

/-- What can happen in the process: src/thread/linux_raw.rs:484-938, src/program/linux_raw.rs:93-338. -/
inductive Action
  /-- `join`, `detach`, `id`, and the steps of these, of the thread's own exit and of the kernel -/
  | life (x : Life.Action)
  /-- registrations, `exit`, steps of origin's exit code, user functions other than the thread's own returning -/
  | proc (x : Proc.Action)
  /-- `create` succeeds: src/thread/linux_raw.rs:484-613 -/
  | create (t : Nat) (a tid : Nat)
  /-- the thread's function returns `v`: src/thread/linux_raw.rs:678-697 -/
  | ret (t : Nat) (v : Nat)
  /-- `call_dtors` returns: src/thread/linux_raw.rs:697 -/
  | release (t : Nat)
deriving DecidableEq, Repr

/-- The events of `new` that `old` does not have.  Bookkeeping; not in /repo (events of src/thread/linux_raw.rs:484-938,
src/program/linux_raw.rs:93-338). -/
def news {α : Type} (old new : List α) : List α := new.take (new.length - old.length)

/-- The event is a fault: an access through a dangling pointer in src/thread/linux_raw.rs:684-928. -/
def isFault : Life.Ev → Bool
  | .fault .. => true
  | _ => false

/-- `t` is in user code as far as the call stacks are concerned.  (`fn_`, src/thread/linux_raw.rs:678, or another user function called at
src/thread/linux_raw.rs:789, src/program/linux_raw.rs:139, 155, 284, 321.) -/
def userTop (p : Proc.State) (t : Nat) : Bool :=
  match p.stk t with
  | .user _ :: _ => true
  | _ => false

/-- `t` is between its start and the end of its `at_exit` functions, with no API call in progress and its memory in place.  (A thread whose memory
is gone cannot go on: all it can do is fault, which is `Life.Action.signal` here.)  (src/thread/linux_raw.rs:678-698.) -/
def running (l : Life.State) (t : Nat) : Bool :=
  match l.thr t with
  | some T => l.inUser t T && (l.view T.addr t).isSome
  | none => false

/-- The next state: `l` and `p` become `l'` and `p'`.  Bookkeeping; not in /repo (steps of src/thread/linux_raw.rs:484-938,
src/program/linux_raw.rs:93-338). -/
def State.next (s : State) (l' : Life.State) (p' : Proc.State) : State :=
  if (news s.l.log l'.log).any isFault then
    { s with l := l', crashed := true, log := (news s.l.log l'.log).map .inl ++ s.log }
  else { l := l', p := p', crashed := false,
         log := (news s.p.log p'.log).map .inr ++ (news s.l.log l'.log).map .inl ++ s.log }

/-- The lifecycle action of an action.  (Of src/thread/linux_raw.rs:484-928.) -/
def Action.life? : Action → Option Life.Action
  | .life x => some x
  | .create t a tid => some (.create t a tid)
  | .ret t v => some (.ret t v)
  | .release t => some (.dtorsDone t)
  | .proc _ => none

/-- `x` happens (`none`: it cannot happen in state `s`).  `c`: features; `sig`: the `signal` feature.  src/thread/linux_raw.rs:484-938,
src/program/linux_raw.rs:93-338. -/
def step (c : Proc.Cfg) (sig : Bool) (s : State) (x : Action) : Option State :=
  if s.p.dead || s.crashed then none
  else match x with
    | .life y =>
      match y with
      | .create .. | .ret .. | .dtorsDone .. => none
      | .join t _ | .detach t _ | .id t _ =>
        if userTop s.p t then (Life.step sig s.l y).map fun l' => s.next l' s.p else none
      | _ => (Life.step sig s.l y).map fun l' => s.next l' s.p
    | .proc y =>
      if running s.l y.tid then
        match y with
        | .spawn _ => none
        | .ret t _ =>
          if s.p.stk t = [.user .start] then none else (Proc.step c s.p y).map fun p' => s.next s.l p'
        | _ => (Proc.step c s.p y).bind fun p' => if p'.stk y.tid = [] then none else some (s.next s.l p')
      else none
    | .create t a tid =>
      (Life.step sig s.l (.create t a tid)).bind fun l' => (Proc.step c s.p (.spawn t)).map fun p' => s.next l' p'
    | .ret t v =>
      if s.p.stk t = [.user .start] then
        (Life.step sig s.l (.ret t v)).bind fun l' => (Proc.step c s.p (.ret t 0)).map fun p' => s.next l' p'
      else none
    | .release t =>
      (Life.step sig s.l (.dtorsDone t)).bind fun l' =>
        (Proc.step c s.p (.step t)).bind fun p' => if s.p.stk t ≠ [] ∧ p'.stk t = [] then some (s.next l' p') else none

/-- After relocation: the main thread at the start of `entry`; its record (at address `a`, set up by `init_runtime`, before any user code) is taken to
be there from the start.  src/program/linux_raw.rs:104, src/thread/linux_raw.rs:326-384. -/
def init (a tid : Nat) : State :=
  { l := Life.init a tid, p := Proc.init, crashed := false, log := (Life.init a tid).log.map .inl }

/-- Run a list of actions (of src/thread/linux_raw.rs:484-938, src/program/linux_raw.rs:93-338). -/
def run (c : Proc.Cfg) (sig : Bool) (s : State) : List Action → Option State
  | [] => some s
  | x :: xs => (step c sig s x).bind (run c sig · xs)

/-- States reachable by actions whose lifecycle part satisfies `P`.  (Actions of src/thread/linux_raw.rs:484-938, src/program/linux_raw.rs:93-338.) -/
inductive Reach (c : Proc.Cfg) (sig : Bool) (P : Life.State → Life.Action → Prop) : State → Prop
  | init (a tid) : tid ≠ 0 → Reach c sig P (init a tid)
  | step {s x s'} : Reach c sig P s → (∀ y, x.life? = some y → P s.l y) → step c sig s x = some s' → Reach c sig P s'

end Origin.Whole
