import Verif.Spec.Process
/-!
# Infinite executions of the process model, fair scheduling, and well-behaved user code

An execution is an infinite sequence of states, with the action taken between each and the next; `none` is a moment at which nothing
happens (in particular a process that has ended stays so).
-/

namespace Origin.Proc

/-- Infinitely many steps, from wherever `st 0` is. -/
structure Steps (c : Cfg) (st : Nat → State) (act : Nat → Option Action) : Prop where
  idle : ∀ n, act n = none → st (n + 1) = st n
  next : ∀ n x, act n = some x → step c (st n) x = some (st (n + 1))

/-- An infinite execution from program start. -/
structure IsExec (c : Cfg) (st : Nat → State) (act : Nat → Option Action) : Prop extends Steps c st act where
  start : st 0 = init

/-- The scheduler is fair: no thread that is inside origin and can go on is passed over for ever.  (Weak fairness: a thread that waits for the lock
may lose the race for it again and again.  Nothing is assumed about user code.) -/
def Fair (c : Cfg) (st : Nat → State) (act : Nat → Option Action) : Prop :=
  ∀ t n, ∃ m, n ≤ m ∧ (act m = some (.step t) ∨ step c (st m) (.step t) = none)

/-- Thread `t` is executing the user function `fn`. -/
def Running (s : State) (t : Tid) (fn : Fn) : Prop := ∃ rest, s.stk t = .user fn :: rest

/-- User code on `t` returns, or calls `exit`, `immediate_exit` or `program::at_exit`. -/
def Action.Leaves (t : Tid) (x : Action) : Prop :=
  (∃ v, x = .ret t v) ∨ (∃ v, x = .exit t v) ∨ (∃ v, x = .immExit t v) ∨ x = .regProg t

/-- None of the functions in `p` runs for ever: whenever a thread is executing one, the function comes to its return, or to a call of `exit`,
`immediate_exit` or `program::at_exit` (or the process ends first). -/
def Finite (p : Fn → Prop) (st : Nat → State) (act : Nat → Option Action) : Prop :=
  ∀ n t fn, Running (st n) t fn → p fn → ∃ m, n ≤ m ∧ ((st m).dead = true ∨ ∃ x, act m = some x ∧ x.Leaves t)

/-- Functions called by origin. -/
def Fn.handler : Fn → Prop
  | .ctor _ | .tdtor _ | .pdtor _ | .fini _ => True
  | .main | .start => False

/-- `f` was registered with `thread::at_exit` or `program::at_exit`. -/
def Regd (l : List Ev) (f : FnId) : Prop := PRegd l f ∨ ∃ t, Ev.tReg t f ∈ l

/-- The program registers finitely many functions. -/
def FinitelyMany (st : Nat → State) : Prop := ∃ b, ∀ n f, Regd (st n).log f → f < b

/-- `.fini_array` functions call neither `exit` nor `program::at_exit`. -/
def QuietFini (st : Nat → State) (act : Nat → Option Action) : Prop :=
  ∀ n t p, Running (st n) t (.fini p) → (∀ v, act n ≠ some (.exit t v)) ∧ act n ≠ some (.regProg t)

end Origin.Proc
