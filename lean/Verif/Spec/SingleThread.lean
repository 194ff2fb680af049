import Verif.Spec.FairProc
/-! # Programs whose `.fini_array` functions do not make certain calls -/

namespace Origin.Proc

/-- Histories in which no `.fini_array` function makes a call of the kind `bad`. -/
inductive FiniReach (c : Cfg) (bad : Action → Prop) : State → Prop
  | init : FiniReach c bad init
  | step {s s' : State} {x : Action} : FiniReach c bad s → step c s x = some s' → (∀ p, Running s x.tid (.fini p) → ¬ bad x) → FiniReach c bad s'

/-- A call of `exit`. -/
def Action.IsExit (x : Action) : Prop := ∃ t v, x = .exit t v
/-- A call of `program::at_exit`. -/
def Action.IsReg (x : Action) : Prop := ∃ t, x = .regProg t

end Origin.Proc
