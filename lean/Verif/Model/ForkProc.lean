import Verif.Model.Process
/-!
# `fork`, `at_exit` and `exit`

Origin has no `fork`; src/thread/linux_raw.rs:975-1002 (`set_current_id_after_a_fork`) is there for libraries that make one.  A thread that is running user
code calls such a library's wrapper: the kernel makes a second process, with a copy of the memory, whose only thread is a copy of the
caller.  In the parent nothing changes.  Here the child is modelled; it goes on with the transitions of `Proc.step`.
-/

namespace Origin.Proc

/-- The child process of a `fork` called by user code on `t` (`none` if `t` is not running user code).  `DTORS` and the word of its lock
(src/program/linux_raw.rs:227-229), and the threads' `ThreadData::dtors` (src/thread/linux_raw.rs:105), are copied as they are; nothing in
`set_current_id_after_a_fork` (src/thread/linux_raw.rs:989-1002) or elsewhere in origin touches them.  No thread but `t` is left.  Ghost data: the history of the
child begins with that of its parent up to the fork. -/
def forkChild (s : State) (t : Tid) : Option State :=
  if s.dead then none
  else match s.stk t with
    | .user _ :: _ => some { s with stk := fun x => if x = t then s.stk t else [] }
    | _ => none

/-- States of processes reachable from the start of the program by any actions and any number of forks, following the child each time.
(Actions: src/program/linux_raw.rs:93-338, src/thread/linux_raw.rs:684-697, 772-791, 932-938; forks: src/thread/linux_raw.rs:975-1002.) -/
inductive ReachF (c : Cfg) : State → Prop
  | init : ReachF c init
  | step {s s' : State} {x : Action} : ReachF c s → step c s x = some s' → ReachF c s'
  | fork {s s' : State} {t : Tid} : ReachF c s → forkChild s t = some s' → ReachF c s'

/-- States of one process, from state `s` on (no forks, or following the parent: for a parent a fork changes nothing).  src/program/linux_raw.rs:93-338,
src/thread/linux_raw.rs:684-697, 772-791, 932-938. -/
inductive From (c : Cfg) (s : State) : State → Prop
  | refl : From c s s
  | step {s1 s2 : State} {x : Action} : From c s s1 → step c s1 x = some s2 → From c s s2

end Origin.Proc
