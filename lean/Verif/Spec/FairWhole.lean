import Verif.Spec.Whole
import Verif.Spec.Fair
import Verif.Spec.FairProc
/-!
# Infinite executions of the whole program, fair scheduling, and well-behaved user code

As `Spec/Fair.lean` and `Spec/FairProc.lean`, for the two together.
-/

namespace Origin.Whole

/-- What an action does to the call stacks (`none`: nothing). -/
def Action.proc? : Action → Option Proc.Action
  | .life _ => none
  | .proc x => some x
  | .create t _ _ => some (.spawn t)
  | .ret t _ => some (.ret t 0)
  | .release t => some (.step t)

/-- An infinite execution from program start, all of whose lifecycle actions satisfy `P`; `none` is a moment at which nothing happens. -/
structure IsExec (c : Proc.Cfg) (sig : Bool) (P : Life.State → Life.Action → Prop) (st : Nat → State) (act : Nat → Option Action) : Prop where
  start : ∃ a tid, tid ≠ 0 ∧ st 0 = init a tid
  idle : ∀ n, act n = none → st (n + 1) = st n
  next : ∀ n x, act n = some x → (∀ y, x.life? = some y → P (st n).l y) ∧ step c sig (st n) x = some (st (n + 1))

/-- Fair scheduling: no thread that is inside origin and can go on is passed over for ever — be it in `join`, `detach` or its own exit (`threads`),
or in the functions that call registered functions (`origin`) — and the kernel completes exits.  (Weak fairness; nothing about user code.) -/
structure Fair (c : Proc.Cfg) (sig : Bool) (st : Nat → State) (act : Nat → Option Action) : Prop where
  threads : ∀ t n, ∃ m, n ≤ m ∧ (act m = some (.life (.step t)) ∨ step c sig (st m) (.life (.step t)) = none)
  kernel : ∀ t n, ∃ m, n ≤ m ∧ ((∃ w, act m = some (.life (.wake t w))) ∨ ∀ w, step c sig (st m) (.life (.wake t w)) = none)
  origin : ∀ t n, ∃ m, n ≤ m ∧ (act m = some (.proc (.step t)) ∨ act m = some (.release t) ∨
    (step c sig (st m) (.proc (.step t)) = none ∧ step c sig (st m) (.release t) = none))

/-- User code is well behaved: none of the functions origin calls (constructors, registered functions, `.fini_array`) runs for ever; `.fini_array`
functions call neither `exit` nor `program::at_exit`; finitely many functions are registered.  (Thread functions and `origin_main` may run for ever.) -/
structure Behaved (st : Nat → State) (act : Nat → Option Action) : Prop where
  finite : Proc.Finite Proc.Fn.handler (fun n => (st n).p) (fun n => (act n).bind Action.proc?)
  quiet : Proc.QuietFini (fun n => (st n).p) (fun n => (act n).bind Action.proc?)
  many : Proc.FinitelyMany (fun n => (st n).p)

/-- The process has ended (with some status, by some thread's `exit` or `immediate_exit`). -/
def Ended (l : List Ev) : Prop := ∃ t e v, .inr (.group t e v) ∈ l

end Origin.Whole
