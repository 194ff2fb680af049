import Verif.Model.Process
/-!
# Specification vocabulary for process histories

A history is the list of observable events, newest first.
-/

namespace Origin.Proc

/-- Whenever `e` happened in history `l`, `P` held of what had happened before. -/
def Whenever {α : Type} (l : List α) (e : α) (P : List α → Prop) : Prop :=
  ∀ newer older, l = newer ++ e :: older → P older

/-- In history `l`, `b` happened, and `a` happened after it. -/
def Later {α : Type} (l : List α) (a b : α) : Prop := ∃ l₁ l₂, l = l₁ ++ a :: l₂ ∧ b ∈ l₂

/-- `f` was called as one of thread `t`'s `at_exit` functions. -/
def TCalled (l : List Ev) (t : Tid) (f : FnId) : Prop := ∃ o, Ev.tCall t o f ∈ l

/-- `f` was registered with `program::at_exit`. -/
def PRegd (l : List Ev) (f : FnId) : Prop := ∃ t, Ev.pReg t f ∈ l

/-- `f` was taken off the list by some `exit` call. -/
def PTaken (l : List Ev) (f : FnId) : Prop := ∃ t e, Ev.pTake t e f ∈ l

/-- `f` was called as one of the program's `at_exit` functions. -/
def PCalled (l : List Ev) (f : FnId) : Prop := ∃ t e, Ev.pCall t e f ∈ l

/-- Some `exit` call has finished the program's `at_exit` functions. -/
def PFinished (l : List Ev) : Prop := ∃ t e, Ev.pDone t e ∈ l

/-- The `exit` or `immediate_exit` call an event belongs to. -/
def Ev.exit? : Ev → Option Exit
  | .tCall _ o _ => o
  | .exitBegin _ e _ | .tDone _ e | .pTake _ e _ | .pCall _ e _ | .pDone _ e | .fini _ e _ | .immBegin _ e _
  | .group _ e _ => some e
  | _ => none

/-- The events of `exit` call `e`, in the order in which they happened. -/
def course (e : Exit) (l : List Ev) : List Ev := (l.filter fun x => x.exit? == some e).reverse

/-- What an `exit(st)` call by `t` does, from beginning to end, if the `.fini_array` has `n` slots: the
thread's functions (some number of them, `ts`), then the program's (`ps`: each taken off the list, then
called), then the `.fini_array` functions from the last slot to the first, then the end of the process. -/
def exitCourse (c : Cfg) (n : Nat) (t : Tid) (e : Exit) (st : Int) (ts ps : List FnId) : List Ev :=
  [.exitBegin t e st] ++ ts.map (.tCall t (some e)) ++ [.tDone t e]
    ++ ps.flatMap (fun f => [.pTake t e f, .pCall t e f]) ++ [.pDone t e]
    ++ (List.range n).reverse.map (fun i => .fini t e (c.finiStart + i * c.ws)) ++ [.group t e st]

/-- The thread an event happens on (not recorded for startup events and thread creation). -/
def Ev.on : Ev → Option Tid
  | .tReg t _ | .tCall t _ _ | .released t | .pReg t _ | .pRegRet t _ | .exitBegin t _ _ | .tDone t _ | .pTake t _ _
  | .pCall t _ _ | .pDone t _ | .fini t _ _ | .immBegin t _ _ | .group t _ _ => some t
  | _ => none

/-- Startup events. -/
def Ev.boot : Ev → Bool
  | .runtimeInit | .ctor .. | .main _ | .mainRet _ => true
  | _ => false

/-- The startup events of a history, in the order in which they happened. -/
def boots (l : List Ev) : List Ev := (l.filter Ev.boot).reverse

/-- The `.fini_array` slot whose function a `fini` event calls. -/
def Ev.finiSlot? : Ev → Option Nat
  | .fini _ _ p => some p
  | _ => none

/-- The `.fini_array` slots whose functions were called, by any thread, in the order in which this
happened. -/
def finiCalls (l : List Ev) : List Nat := (l.filterMap Ev.finiSlot?).reverse

/-- The `.fini_array` slots, last to first, if there are `n`. -/
def finiOrder (c : Cfg) (n : Nat) : List Nat := (List.range n).reverse.map fun i => c.finiStart + i * c.ws

/-- What program start does up to the return of `origin_main` with `st`, if the `.init_array` has `n`
slots. -/
def bootCourse (c : Cfg) (n : Nat) (st : Int) : List Ev :=
  [.runtimeInit] ++ (List.range n).map (fun i => .ctor (c.initStart + i * c.ws) c.args) ++ [.main c.args, .mainRet st]

/-- Features and addresses fit together: "thread-at-exit" implies "thread" (Cargo.toml), and the arrays
have `n` and `m` slots (`n`, `m` are 0 without the corresponding feature). -/
structure Cfg.Ok (c : Cfg) (n m : Nat) : Prop where
  tae : c.threadAtExit = true → c.thread = true
  ws : 0 < c.ws
  init : c.initArray = true → c.initEnd = c.initStart + n * c.ws
  init0 : c.initArray = false → n = 0
  fini : c.finiArray = true → c.finiEnd = c.finiStart + m * c.ws
  fini0 : c.finiArray = false → m = 0

end Origin.Proc
