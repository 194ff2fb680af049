import Verif.Spec.LogProc
import Verif.Spec.FairProc
/-!
# Infinite executions with messages
-/

namespace Origin.LogProc

open Proc (Cfg Fn Tid FnId Exit Ev Action)

/-- An infinite execution from program start, with a logger as in `Quiet`. -/
structure IsLExec (c : Cfg) (st : Nat → State) (act : Nat → Option Action) : Prop where
  start : st 0 = init
  idle : ∀ n, act n = none → st (n + 1) = st n
  next : ∀ n x, act n = some x → Quiet (st n) x ∧ step c (st n) x = some (st (n + 1))

/-- The scheduler is fair: no thread that is inside origin and can go on is passed over for ever. -/
def LFair (c : Cfg) (st : Nat → State) (act : Nat → Option Action) : Prop :=
  ∀ t n, ∃ m, n ≤ m ∧ (act m = some (.step t) ∨ step c (st m) (.step t) = none)

/-- Whenever the logger is called it returns (or the process ends first).  In between it may call back into origin. -/
def LoggerReturns (st : Nat → State) (act : Nat → Option Action) : Prop :=
  ∀ n t m rest, (st n).stk t = .logger m :: rest →
    ∃ j, n ≤ j ∧ ((st j).dead = true ∨ ((∃ v, act j = some (.ret t v)) ∧ (st j).stk t = .logger m :: rest))

/-- None of the functions in `p` runs for ever: it comes to its return, or to a call of `exit`, `immediate_exit` or `program::at_exit` (or the process ends first). -/
def LFinite (p : Fn → Prop) (st : Nat → State) (act : Nat → Option Action) : Prop :=
  ∀ n t fn rest, (st n).stk t = .user fn :: rest → p fn →
    ∃ j, n ≤ j ∧ ((st j).dead = true ∨ ∃ x, act j = some x ∧ x.Leaves t ∧ (st j).stk t = .user fn :: rest)

/-- `.fini_array` functions, and the logger when it announces one or is called by one, call neither `exit` nor `program::at_exit`. -/
def LQuietFini (st : Nat → State) (act : Nat → Option Action) : Prop :=
  ∀ n t p, (.user (.fini p) ∈ (st n).stk t ∨ ∃ e, .callFini e p ∈ (st n).stk t) →
    (∀ v, act n ≠ some (.exit t v)) ∧ act n ≠ some (.regProg t)

/-- The program registers finitely many functions. -/
def LFinitelyMany (st : Nat → State) : Prop := ∃ b, ∀ n f, Proc.Regd (real (st n).log) f → f < b

/-- What is assumed: a fair schedule; the logger, and the functions origin calls, come to an end; the functions of `.fini_array` do not call `exit` or `at_exit`; finitely many registrations. -/
structure Behaves (c : Cfg) (st : Nat → State) (act : Nat → Option Action) : Prop where
  fair : LFair c st act
  logger : LoggerReturns st act
  finite : LFinite Fn.handler st act
  quiet : LQuietFini st act
  many : LFinitelyMany st

end Origin.LogProc
