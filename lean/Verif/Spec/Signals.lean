import Verif.Model.Signals
import Verif.Spec.FairProc
/-!
# A process with signal handlers, seen without its handlers; infinite executions with signals
-/

namespace Origin.Proc

/-- The process without its handlers: the calls that handlers make count as calls of the code they have interrupted.  A process ended by a handler's `immediate_exit` is
left as it was at that moment. -/
def SState.flat (g : SState) : State :=
  { g.s with stk := fun t => (g.hnd t).flatMap List.dropLast ++ g.s.stk t, dead := g.s.dead && g.killed.isNone }

/-- What of `x` is left without handlers: nothing of a delivery, of a handler's return, of a handler's own call of `immediate_exit`. -/
def SState.flatAct (g : SState) : SAct → Option Action
  | .signal _ => none
  | .act x =>
    match g.hnd x.tid, x with
    | [.user _] :: _, .ret _ _ => none
    | [.user _] :: _, .immExit _ _ => none
    | _, x => some x

/-- An infinite execution from program start, with signals at any moments, and handlers that do what `SState.Allowed` says. -/
structure IsSExec (c : Cfg) (st : Nat → SState) (act : Nat → Option SAct) : Prop where
  start : st 0 = sinit
  idle : ∀ n, act n = none → st (n + 1) = st n
  next : ∀ n x, act n = some x → (st n).Allowed x ∧ sstep c (st n) x = some (st (n + 1))

/-- The execution seen without its handlers. -/
def flatSt (st : Nat → SState) (n : Nat) : State := (st n).flat
/-- Its actions. -/
def flatActs (st : Nat → SState) (act : Nat → Option SAct) (n : Nat) : Option Action := (act n).bind (st n).flatAct

/-- A scheduler that is fair to threads and handlers alike: none that is inside origin and can go on is passed over for ever. -/
def SFair (c : Cfg) (st : Nat → SState) (act : Nat → Option SAct) : Prop :=
  ∀ t n, ∃ m, n ≤ m ∧ (act m = some (.act (.step t)) ∨ sstep c (st m) (.act (.step t)) = none)

/-- On each thread, there is an end to signals, and handlers return. -/
def Calm (st : Nat → SState) : Prop := ∀ t, ∃ n, ∀ m, n ≤ m → (st m).hnd t = []

end Origin.Proc
