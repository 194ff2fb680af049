import Verif.Model.LogProc
import Verif.Spec.Process
/-!
# Histories with messages
-/

namespace Origin.LogProc

open Proc (Cfg Fn Tid FnId Exit Ev Action)

/-- What a message announces: the call of a function (the logger's own doings then count as that function's). -/
def Msg.announces (c : Cfg) (t : Tid) : Msg → Option Ev
  | .ctor p => some (.ctor p c.args)
  | .main => some (.main c.args)
  | .tdtor o f => some (.tCall t o f)
  | .pdtor e f => some (.pCall t e f)
  | .fini e p => some (.fini t e p)
  | _ => none

/-- Events announced by a message. -/
def announced : Ev → Bool
  | .ctor .. | .main _ | .tCall .. | .pCall .. | .fini .. => true
  | _ => false

/-- The history with each function call moved to where its message is, and the messages forgotten. -/
def plain (c : Cfg) (l : List LEv) : List Ev :=
  l.filterMap fun
    | .ev e => if announced e then none else some e
    | .msg t m => m.announces c t

/-- The history without the messages: the calls where they are. -/
def real (l : List LEv) : List Ev :=
  l.filterMap fun
    | .ev e => some e
    | .msg _ _ => none

/-- What the logger is asked not to do: register a function for a thread with `thread::at_exit` once the thread's functions have been called and the thread announces its exit;
and call back into origin from the last message of `exit`. -/
def Quiet (s : State) (x : Action) : Prop :=
  (∀ t, x = .regThr t → .thrGone ∉ s.stk t) ∧
  ∀ e st rest, s.stk x.tid = .logger (.exiting (some e) st) :: rest → ∃ v, x = .ret x.tid v

/-- Reachable with such a logger. -/
inductive QReach (c : Cfg) : State → Prop
  | init : QReach c init
  | step {s s' : State} {x : Action} : QReach c s → Quiet s x → step c s x = some s' → QReach c s'

end Origin.LogProc
