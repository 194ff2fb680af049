import Verif.Model.Unwind
import Verif.Spec.FairProc
/-!
# Executions with panics
-/

namespace Origin.Proc

/-- The `exit` call `e` was left by a panic. -/
def UState.Left (u : UState) (e : Exit) : Prop := ∃ fn, (e, fn) ∈ u.left

/-- The process has ended: with a status, or aborted. -/
def UState.Over (u : UState) : Prop := u.aborted = true ∨ ∃ t e v, Ev.group t e v ∈ u.s.log

/-- An infinite execution from program start, with panics. -/
structure UExec (c : Cfg) (st : Nat → UState) (act : Nat → Option UAct) : Prop where
  start : st 0 = uinit
  idle : ∀ n, act n = none → st (n + 1) = st n
  next : ∀ n x, act n = some x → ustep c (st n) x = some (st (n + 1))

/-- No thread that is inside origin and can go on is passed over for ever. -/
def UFair (c : Cfg) (st : Nat → UState) (act : Nat → Option UAct) : Prop :=
  ∀ t n, ∃ m, n ≤ m ∧ (act m = some (.act (.step t)) ∨ ustep c (st m) (.act (.step t)) = none)

/-- None of the functions in `p` runs for ever: it comes to its return, to a panic, or to a call of `exit`, `immediate_exit` or `program::at_exit`
(or the process ends first). -/
def UFinite (p : Fn → Prop) (st : Nat → UState) (act : Nat → Option UAct) : Prop :=
  ∀ n t fn, Running (st n).s t fn → p fn →
    ∃ m, n ≤ m ∧ ((st m).aborted = true ∨ (st m).s.dead = true ∨ act m = some (.panic t) ∨ ∃ x, act m = some (.act x) ∧ x.Leaves t)

/-- `.fini_array` functions call neither `exit` nor `program::at_exit`. -/
def UQuietFini (st : Nat → UState) (act : Nat → Option UAct) : Prop :=
  ∀ n t p, Running (st n).s t (.fini p) → (∀ v, act n ≠ some (.act (.exit t v))) ∧ act n ≠ some (.act (.regProg t))

/-- The program registers finitely many functions. -/
def UFinitelyMany (st : Nat → UState) : Prop := ∃ b, ∀ n f, Regd (st n).s.log f → f < b

/-- `fn`, which runs on `t`, was called by the `exit` call `e`. -/
def CalledByExit (l : List Ev) (t : Tid) (e : Exit) : Fn → Prop
  | .tdtor f => Ev.tCall t (some e) f ∈ l
  | .pdtor f => Ev.pCall t e f ∈ l
  | _ => False

/-- `e` is the `exit` call made for the program when `origin_main` returned. -/
def FromMain (l : List Ev) (e : Exit) : Prop := ∃ newer older v, l = newer ++ .exitBegin 0 e v :: .mainRet v :: older

/-- A panic in `fn`, which runs on `t`, can be caught by user code outside of `fn`: it is an `at_exit` function, called by a call of `exit` that was made by user
code. -/
def Catchable (l : List Ev) (t : Tid) (fn : Fn) : Prop := ∃ e, CalledByExit l t e fn ∧ ¬ FromMain l e

end Origin.Proc
