import Verif.Spec.FairProc
/-!
# Happens-before in the process model

The relation of the C++/Rust memory model between the steps of an execution of the process model (`Model/Process.lean`), named by their position.
-/

namespace Origin.Proc

/-- Step `i`: thread `t` takes the lock of the program's functions (`DTORS.lock()`). -/
def Locks (c : Cfg) (st : Nat → State) (act : Nat → Option Action) (i : Nat) (t : Tid) : Prop :=
  act i = some (.step t) ∧ c.thread = true ∧
    ((∃ r, (st i).stk t = .regLock :: r) ∨ ∃ e v r, (st i).stk t = .exitLock e v :: r ∧ c.programAtExit = true)

/-- Step `i`: thread `t` gives the lock back (the guard is dropped). -/
def Unlocks (c : Cfg) (st : Nat → State) (act : Nat → Option Action) (i : Nat) (t : Tid) : Prop :=
  act i = some (.step t) ∧ c.thread = true ∧ ((∃ f r, (st i).stk t = .regUnlock f :: r) ∨ ∃ e v f r, (st i).stk t = .exitUnlock e v f :: r)

/-- Step `i`: thread `t` reads and writes the list of the program's functions (`push` in `at_exit`, `pop` in `exit`). -/
def Accesses (st : Nat → State) (act : Nat → Option Action) (i : Nat) (t : Tid) : Prop :=
  act i = some (.step t) ∧ ((∃ r, (st i).stk t = .regPush :: r) ∨ ∃ e v r, (st i).stk t = .exitPop e v :: r)

/-- Step `i` happens before step `j`. -/
inductive HB (c : Cfg) (st : Nat → State) (act : Nat → Option Action) : Nat → Nat → Prop
  /-- program order -/
  | po {i j x y} : i < j → act i = some x → act j = some y → x.tid = y.tid → HB c st act i j
  /-- giving back a mutex synchronises with taking it later -/
  | lock {i j t u} : i < j → Unlocks c st act i t → Locks c st act j u → HB c st act i j
  /-- creating a thread synchronises with what the new thread does -/
  | spawn {i j p y} : i < j → act i = some (.spawn p) → act j = some y → y.tid = (st i).nextT → HB c st act i j
  | trans {i j k} : HB c st act i j → HB c st act j k → HB c st act i k

/-- `e` happens, for the first time, in step `i`. -/
def Happens (st : Nat → State) (i : Nat) (e : Ev) : Prop := e ∉ (st i).log ∧ e ∈ (st (i + 1)).log

end Origin.Proc
