import Verif.Model.Whole
import Verif.Spec.Process
/-!
# User programs running on origin

`Model/Whole.lean` leaves user code open: at any point it may call anything.  Here user code is a *program*: a set of program points, and at each
point one operation — an access to the program's own memory (which may stand for anything else of the program's: output, locks, …), a call of
origin's API, or a return.  The program says what a function registered with `at_exit` or passed to `create` does by giving the program point where
it starts.  Everything origin does is as in `Model/Whole.lean`: its call stacks, lists, lock, records, futexes; the results the program gets are those
of the events there.

Programs may loop, compute with the values `join`, `create` and `id` return, share memory between their threads (one access is one atomic step), and
register functions and create threads from anywhere.

What the kernel answers the program (`read`, `write`, …), and whether it refuses a `create` (which then changes nothing of origin's, C17), is part of
the program's memory: a program point that may get an error is a `mem` step that takes the next answer from a stream there, and goes on to the error
path or to the `create` that succeeds.  The theorems hold for every memory, so for every stream of answers.
-/

namespace Origin.User
open Proc (Frame Fn)
open Whole (userTop running news)

/-- What a program does at a program point.  `σ`: its memory; `C`: program points.  The calls are src/thread/linux_raw.rs:484, 803, 835, 932, 1051,
src/program/linux_raw.rs:249, 261, 332; user functions return to src/program/linux_raw.rs:139, 155, 284, 321, src/thread/linux_raw.rs:678, 789. -/
inductive Op (σ C : Type)
  /-- a step of the program's own -/
  | mem (f : σ → σ × C)
  /-- the function returns; `v` matters for `origin_main` (its status) and the function of a thread (its value) -/
  | ret (v : Int)
  /-- `thread::at_exit` of the function starting at `g` -/
  | atExitT (g k : C)
  /-- `program::at_exit` of the function starting at `g` -/
  | atExitP (g k : C)
  /-- `create` of a thread whose function starts at `g`; `k` gets the thread's number (for a `Thread`) -/
  | create (g : C) (k : Nat → C)
  /-- `join`; `k` gets the value it returns -/
  | join (u : Nat) (k : Nat → C)
  | detach (u : Nat) (k : C)
  /-- `id` (or `current_id`); `k` gets what it returns -/
  | id (u : Nat) (k : Option Nat → C)
  | exit (st : Int)
  /-- `immediate_exit` -/
  | immExit (st : Int)

/-- A program: its operations, where `origin_main` starts, where the functions in the slots of `.init_array` and `.fini_array` (src/program/linux_raw.rs:115-124,
303-310) start. -/
structure Prg (σ C : Type) where
  op : C → Op σ C
  main : C
  ctors : List C
  finis : List C

/-- The process running a program: origin's state; for each thread the program points of the user functions on its call stack (innermost first); for
each registered function (src/program/linux_raw.rs:249, src/thread/linux_raw.rs:932) where it starts; the program's memory. -/
structure State (σ C : Type) where
  w : Whole.State
  code : Nat → List C
  fcode : Nat → Option C
  mem : σ

variable {σ C : Type}

/-- Thread `t`'s user functions on the stack become `l`.  Bookkeeping for calls of and returns from user functions, src/program/linux_raw.rs:139, 155, 284, 321,
src/thread/linux_raw.rs:678, 789. -/
def State.setCode (e : State σ C) (t : Nat) (l : List C) : State σ C := { e with code := fun x => if x = t then l else e.code x }

/-- Origin calls a user function on `t`.  src/program/linux_raw.rs:139, 155, 284, 321, src/thread/linux_raw.rs:789. -/
def State.call (e : State σ C) (t : Nat) : Option C → State σ C
  | some c => e.setCode t (c :: e.code t)
  | none => e

/-- The function registered as `f` starts at `g` (`Box<dyn FnOnce()>` pushed at src/program/linux_raw.rs:256, src/thread/linux_raw.rs:936). -/
def State.bindFn (e : State σ C) (f : Nat) (g : C) : State σ C := { e with fcode := fun x => if x = f then some g else e.fcode x }

/-- What an event means to the program: a function of its is called, or a call it made takes effect and returns.  src/program/linux_raw.rs:139, 155,
256, 284, 321; src/thread/linux_raw.rs:612, 678, 789, 803, 865, 936, 1053. -/
def react (pr : Prg σ C) (c : Proc.Cfg) (e : State σ C) : Whole.Ev → State σ C
  | .inr (.ctor p _) => e.call 0 (pr.ctors[(p - c.initStart) / c.ws]?)
  | .inr (.main _) => e.call 0 (some pr.main)
  | .inr (.tCall t _ f) => e.call t (e.fcode f)
  | .inr (.pCall t _ f) => e.call t (e.fcode f)
  | .inr (.fini t _ p) => e.call t (pr.finis[(p - c.finiStart) / c.ws]?)
  | .inr (.tReg t f) =>
    match e.code t with
    | cd :: cs => match pr.op cd with | .atExitT g k => (e.bindFn f g).setCode t (k :: cs) | _ => e
    | [] => e
  | .inr (.pReg t f) =>
    match e.code t with
    | cd :: cs => match pr.op cd with | .atExitP g k => (e.bindFn f g).setCode t (k :: cs) | _ => e
    | [] => e
  | .inl (.created t u _ _) =>
    match e.code t with
    | cd :: cs => match pr.op cd with | .create g k => (e.setCode t (k u :: cs)).setCode u [g] | _ => e
    | [] => e
  | .inl (.joined t _ v) =>
    match e.code t with
    | cd :: cs => match pr.op cd with | .join _ k => e.setCode t (k v :: cs) | _ => e
    | [] => e
  | .inl (.detachCall t _) =>
    match e.code t with
    | cd :: cs => match pr.op cd with | .detach _ k => e.setCode t (k :: cs) | _ => e
    | [] => e
  | .inl (.idRes t _ r) =>
    match e.code t with
    | cd :: cs => match pr.op cd with | .id _ k => e.setCode t (k r :: cs) | _ => e
    | [] => e
  | _ => e

/-- Origin's state becomes `w'`, and the program sees what happened.  Bookkeeping (events of src/thread/linux_raw.rs:484-938, src/program/linux_raw.rs:93-338). -/
def State.absorb (pr : Prg σ C) (c : Proc.Cfg) (e : State σ C) (w' : Whole.State) : State σ C :=
  (news e.w.log w'.log).reverse.foldl (react pr c) { e with w := w' }

/-- The action of origin's that an operation of `t`'s is, if any.  `a`, `tid`: the address and the id the kernel chooses for a new thread.
src/thread/linux_raw.rs:484, 803, 835, 932, 1051, 678; src/program/linux_raw.rs:249, 261, 332. -/
def Op.action (p : Proc.State) (t a tid : Nat) : Op σ C → Option Whole.Action
  | .mem _ => none
  | .ret v => some (if p.stk t = [.user .start] then .ret t v.toNat else .proc (.ret t v))
  | .atExitT .. => some (.proc (.regThr t))
  | .atExitP .. => some (.proc (.regProg t))
  | .create .. => some (.create t a tid)
  | .join u _ => some (.life (.join t u))
  | .detach u _ => some (.life (.detach t u))
  | .id u _ => some (.life (.id t u))
  | .exit st => some (.proc (.exit t st))
  | .immExit st => some (.proc (.immExit t st))

/-- Actions that are not user code's: steps of origin's own code and of the kernel.  src/thread/linux_raw.rs:684-938, src/program/linux_raw.rs:93-338. -/
def isSys : Whole.Action → Bool
  | .life (.step _) | .life (.intr _) | .life (.wake ..) | .life (.signal _) | .proc (.step _) | .release _ => true
  | _ => false

/-- What can happen: `t`'s user code makes its next operation, or origin or the kernel a step (src/thread/linux_raw.rs:484-938,
src/program/linux_raw.rs:93-338). -/
inductive Action
  | user (t a tid : Nat)
  | sys (x : Whole.Action)
deriving DecidableEq, Repr

/-- The operation user code of `t` is at.  (User code: called at src/program/linux_raw.rs:139, 155, 284, 321, src/thread/linux_raw.rs:678, 789.) -/
def State.op (pr : Prg σ C) (e : State σ C) (t : Nat) : Option (Op σ C) := (e.code t).head?.map pr.op

/-- The action of origin's in an action.  src/thread/linux_raw.rs:484-938, src/program/linux_raw.rs:93-338. -/
def Action.whole (pr : Prg σ C) (e : State σ C) : Action → Option Whole.Action
  | .user t a tid => (e.op pr t).bind (·.action e.w.p t a tid)
  | .sys x => some x

/-- `x` happens (`none`: it cannot happen in state `e`).  src/thread/linux_raw.rs:484-938, src/program/linux_raw.rs:93-338. -/
def step (pr : Prg σ C) (c : Proc.Cfg) (sig : Bool) (e : State σ C) : Action → Option (State σ C)
  | .sys x => if isSys x then (Whole.step c sig e.w x).map (e.absorb pr c) else none
  | .user t a tid =>
    match e.code t with
    | [] => none
    | cd :: cs =>
      match pr.op cd with
      | .mem f =>
        if !e.w.p.dead && !e.w.crashed && userTop e.w.p t && running e.w.l t then
          some ({ e with mem := (f e.mem).1 }.setCode t ((f e.mem).2 :: cs))
        else none
      | .ret v => ((Op.ret v : Op σ C).action e.w.p t a tid).bind fun x => (Whole.step c sig e.w x).map fun w' => (e.setCode t cs).absorb pr c w'
      | o => (o.action e.w.p t a tid).bind fun x => (Whole.step c sig e.w x).map (e.absorb pr c)

/-- The start: no user function is running (src/program/linux_raw.rs:93-104). -/
def init (m : σ) (a tid : Nat) : State σ C := { w := Whole.init a tid, code := fun _ => [], fcode := fun _ => none, mem := m }

/-- Run a list of actions (of src/thread/linux_raw.rs:484-938, src/program/linux_raw.rs:93-338). -/
def run (pr : Prg σ C) (c : Proc.Cfg) (sig : Bool) (e : State σ C) : List Action → Option (State σ C)
  | [] => some e
  | x :: xs => (step pr c sig e x).bind (run pr c sig · xs)

/-- States reachable, from memory `m`, by actions whose lifecycle part satisfies `P` (of src/thread/linux_raw.rs:484-938, src/program/linux_raw.rs:93-338). -/
inductive Reach (pr : Prg σ C) (c : Proc.Cfg) (sig : Bool) (m : σ) (P : Life.State → Life.Action → Prop) : State σ C → Prop
  | init (a tid) : tid ≠ 0 → Reach pr c sig m P (init m a tid)
  | step {e x e'} : Reach pr c sig m P e → (∀ y z, x.whole pr e = some y → y.life? = some z → P e.w.l z) → step pr c sig e x = some e' →
      Reach pr c sig m P e'

end Origin.User
