import Verif.Model.Whole
import Verif.Spec.Lifecycle
import Verif.Spec.Process
/-! # Specification vocabulary for histories of threads with `at_exit` functions

`Sum.inl`: lifecycle events (`created`, `returned`, `exited`, `joined`, `unmap`, …); `Sum.inr`: `at_exit` registrations and calls, `exit` (`tReg`,
`tCall`, …).  Newest first. -/

namespace Origin.Whole
open Proc (Whenever)

/-- Every function that `h` has registered with `thread::at_exit` has been called on `h`. -/
def AllCalled (l : List Ev) (h : Nat) : Prop := ∀ f, .inr (.tReg h f) ∈ l → ∃ o, .inr (.tCall h o f) ∈ l

/-- A `join` on `h` has returned. -/
def Joined (l : List Ev) (h : Nat) : Prop := ∃ j v, .inl (.joined j h v) ∈ l

/-- `h`'s stack, TLS and record have been unmapped. -/
def Unmapped (l : List Ev) (h : Nat) : Prop := ∃ j, .inl (.unmap h j) ∈ l

end Origin.Whole
