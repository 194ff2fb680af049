import Verif.Model.ForkProc
import Verif.Spec.FairProc
/-!
# Executions of the child of a fork
-/

namespace Origin.Proc

/-- An infinite execution of the child process that thread `t` makes by a `fork` in state `s` of some process (itself made by any number of forks). -/
structure IsChild (c : Cfg) (s : State) (t : Tid) (st : Nat → State) (act : Nat → Option Action) : Prop extends Steps c st act where
  parent : ReachF c s
  start : forkChild s t = some (st 0)

/-- Thread `u` is inside `program::at_exit` or `exit`: one of their frames is on its stack. -/
def InExit (s : State) (u : Tid) : Prop :=
  ∃ fr ∈ s.stk u, match fr with
    | .regLock | .regPush | .regUnlock _ | .exitThr .. | .exitLock .. | .exitPop .. | .exitUnlock .. | .exitCall .. | .exitFini .. | .exitImm .. => True
    | _ => False

/-- Nobody holds the lock of the program's `at_exit` functions, or the calling thread does, because it is running a `.fini_array` function. -/
def GoodFork (s : State) (t : Tid) : Prop := s.lock = none ∨ ∃ p, Running s t (.fini p)

end Origin.Proc
