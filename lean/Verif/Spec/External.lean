import Verif.Model.Ctors
import Verif.Spec.FairProc
/-! # Infinite executions of a program that libc starts -/

namespace Origin.Ctors

open Proc (Cfg Action Tid)

/-- An infinite execution, from where libc starts to call the functions of `.init_array`; `none` is a moment at which nothing happens. -/
structure XExec (c : Cfg) (a : List Entry) (early argv : Nat) (xst : Nat → XState) (xact : Nat → Option XAct) : Prop where
  start : xst 0 = xinit
  idle : ∀ n, xact n = none → xst (n + 1) = xst n
  next : ∀ n y, xact n = some y → xstep c a early argv (xst n) y = some (xst (n + 1))

/-- No thread that can go on is passed over for ever: not libc's, and no thread inside origin. -/
def XFair (c : Cfg) (a : List Entry) (early argv : Nat) (xst : Nat → XState) (xact : Nat → Option XAct) : Prop :=
  (∀ n, ∃ m, n ≤ m ∧ (xact m = some .libc ∨ xstep c a early argv (xst m) .libc = none)) ∧
  ∀ t n, ∃ m, n ≤ m ∧ (xact m = some (.act (.step t)) ∨ xstep c a early argv (xst m) (.act (.step t)) = none)

/-- From moment `i` on origin has control: its process goes through `st`, with the actions `act`. -/
def OriginFrom (xst : Nat → XState) (xact : Nat → Option XAct) (i : Nat) (st : Nat → Proc.State) (act : Nat → Option Action) : Prop :=
  ∀ j, (xst (i + j)).phase = .origin (st j) ∧ xact (i + j) = (act j).map .act

end Origin.Ctors
