import Verif.Spec.Lifecycle
/-!
# Infinite executions and fair scheduling

An execution is an infinite sequence of states, with the action taken between each and the next; `none` is a moment at which nothing
happens (in particular a program that has come to rest stays there).
-/

namespace Origin.Life

/-- Infinitely many steps of the model, from wherever `st 0` is, all of whose actions satisfy `P`. -/
structure Steps (sig : Bool) (P : State → Action → Prop) (st : Nat → State) (act : Nat → Option Action) : Prop where
  idle : ∀ n, act n = none → st (n + 1) = st n
  next : ∀ n x, act n = some x → P (st n) x ∧ step sig (st n) x = some (st (n + 1))

/-- An infinite execution of the model from startup, all of whose actions satisfy `P`. -/
structure IsExec (sig : Bool) (P : State → Action → Prop) (st : Nat → State) (act : Nat → Option Action) : Prop extends Steps sig P st act where
  start : ∃ a tid, tid ≠ 0 ∧ st 0 = init a tid

/-- The scheduler is fair to every thread, and the kernel completes exits: no thread that can execute its next step is passed over for ever, and
no exiting thread's wake-up is delayed for ever.  (Weak fairness.  Nothing is assumed about user code: what it calls, and whether it returns, are its
choice; nor about signals.) -/
structure Fair (sig : Bool) (st : Nat → State) (act : Nat → Option Action) : Prop where
  threads : ∀ t n, ∃ m, n ≤ m ∧ (act m = some (.step t) ∨ step sig (st m) (.step t) = none)
  kernel : ∀ t n, ∃ m, n ≤ m ∧ ((∃ w, act m = some (.wake t w)) ∨ ∀ w, step sig (st m) (.wake t w) = none)

/-- `h`'s function has returned and its `at_exit` functions are finished: what is left is Origin's exit sequence and the kernel's. -/
def Finished (s : State) (h : Inst) : Prop :=
  ∃ T, s.thr h = some T ∧ match T.stage with
    | .born | .body | .dtors _ => False
    | _ => True

end Origin.Life
