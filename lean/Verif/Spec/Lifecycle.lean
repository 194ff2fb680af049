import Verif.Model.Lifecycle
/-!
# Specification vocabulary for thread lifecycle histories

A history is the list of observable events, newest first.
-/

namespace Origin.Life

/-- Whenever `e` happened in history `l`, `P` held of what had happened before. -/
def Whenever (l : List Ev) (e : Ev) (P : List Ev → Prop) : Prop :=
  ∀ newer older, l = newer ++ e :: older → P older

/-- A *stray* wake-up that reaches a waiter for `h`: the kernel's exit-time wake-up for some thread wakes a thread that is waiting for `h`, whose own exit
the kernel has not processed yet. -/
def StrayFor (h : Inst) (s : State) : Action → Prop
  | .wake _ (some j) => ∃ k a, s.call j = some (.blocked k a h) ∧ Ev.cleared h ∉ s.log
  | _ => False

/-- A signal handler is run on `h`'s stack after `h`, detached, unmapped it. -/
def LateSignalFor (h : Inst) (s : State) : Action → Prop
  | .signal t => t = h ∧ ∃ T, s.thr t = some T ∧ T.stage = .dExit
  | _ => False

/-- Anything may happen, except that a stray wake-up reaches a waiter for `h` or (possible only without the `signal` feature) that `h` gets a late
signal. -/
def OrderlyFor (h : Inst) (sig : Bool) (s : State) (x : Action) : Prop := ¬ StrayFor h s x ∧ (sig = true ∨ ¬ LateSignalFor h s x)

/-- A *stray* wake-up: the kernel's exit-time wake-up for `t` wakes a thread that is waiting for some
instance `h` whose own exit the kernel has not processed yet.  (`h` is then not `t`: its record lies at
the address `t`'s used to.) -/
def Stray (s : State) : Action → Prop
  | .wake _ (some j) => ∃ k a h, s.call j = some (.blocked k a h) ∧ Ev.cleared h ∉ s.log
  | _ => False

/-- A thread is created at an address at which an exited thread's wake-up is still outstanding. -/
def EarlyReuse (s : State) : Action → Prop
  | .create _ a _ => ∃ t T, s.thr t = some T ∧ T.stage = .kWake ∧ T.addr = a
  | _ => False

/-- A signal handler is run on a detached thread's stack after that thread unmapped it. -/
def LateSignal (s : State) : Action → Prop
  | .signal t => ∃ T, s.thr t = some T ∧ T.stage = .dExit
  | _ => False

/-- Everything except stray wake-ups and (possible only without the `signal` feature) late signals. -/
def Orderly (sig : Bool) (s : State) (x : Action) : Prop := ¬ Stray s x ∧ (sig = true ∨ ¬ LateSignal s x)

/-- Everything except creating a thread at an address with an outstanding wake-up, and late signals. -/
def NoEarlyReuse (sig : Bool) (s : State) (x : Action) : Prop :=
  ¬ EarlyReuse s x ∧ (sig = true ∨ ¬ LateSignal s x)

/-- The kernel has completed `h`'s exit. -/
def Done (s : State) (h : Inst) : Prop := ∃ T, s.thr h = some T ∧ T.stage = .dead

/-- `h`'s memory is mapped (at the address `create` returned). -/
def Mapped (s : State) (h : Inst) : Prop := ∃ a r, s.recs a = some r ∧ r.owner = h

/-- Number of times `h`'s memory was unmapped. -/
def unmaps (h : Inst) (l : List Ev) : Nat :=
  (l.filter fun e => match e with | .unmap h' _ => h' == h | _ => false).length

end Origin.Life
