import Verif.Model.Process
/-!
# Constructors with priorities: the logger's, and the one of an external start

`.init_array` is put together by the linker from sections `.init_array.NNNNN` and `.init_array` of all object files (`Spec/Ctors.lean`); what is modelled here is what this
code base puts there: the logger's initialisation (src/log.rs), and the function with which the external-start example takes over from libc
(example-crates/external-start/src/main.rs), together with libc's own loop and `program::start`.
-/

namespace Origin.Ctors

open Proc (Cfg Tid Ev Action)

/-- An entry of a section: its priority (`none`: the section has none in its name) and the function.  src/log.rs:6-13, example-crates/external-start/src/main.rs:22-42. -/
structure Entry where
  prio : Option Nat
  fn : Nat
deriving DecidableEq, Repr

/-- `INIT_ARRAY`, in `.init_array.00099`, where `f` is the function that calls `init`: src/log.rs:6-13. -/
def loggerEntry (f : Nat) : Entry := ⟨some 99, f⟩

/-- `EARLY_INIT_ARRAY`, in `.init_array.00000`: example-crates/external-start/src/main.rs:22-24. -/
def earlyEntry (f : Nat) : Entry := ⟨some 0, f⟩

/-- Address of slot `i` of the array: src/program/linux_raw.rs:123, 141. -/
def slot (c : Cfg) (i : Nat) : Nat := c.initStart + i * c.ws

/-- Who has control.  example-crates/external-start/src/main.rs:16-42, src/program/linux_raw.rs:166-176. -/
inductive Phase
  /-- libc, about to call the function in slot `i`, or to go on to `main` if there is none -/
  | libc (i : Nat)
  /-- origin, since `program::start` was called -/
  | origin (s : Proc.State)
  /-- libc's `main` has been called (example-crates/external-start/src/main.rs:76-81) -/
  | main

/-- A process with an external start.  `first`: `FIRST` (example-crates/external-start/src/main.rs:28).  Ghost: `called`, the slots whose functions libc has called, newest first;
`starts`, the arguments of the calls of `program::start`, newest first. -/
structure XState where
  phase : Phase
  first : Bool
  called : List Nat
  starts : List Nat

/-- libc goes on, or something happens in origin's process.  example-crates/external-start/src/main.rs:16-42. -/
inductive XAct
  | libc
  | act (x : Action)

/-- Whether the function in slot `p` (an address) of the array `a` is `early`: src/program/linux_raw.rs:139. -/
def isEarly (c : Cfg) (a : List Entry) (early p : Nat) : Bool :=
  (List.range a.length).any fun i => slot c i == p && (a[i]?.map Entry.fn == some early)

/-- `function` of `EARLY_INIT_ARRAY` when `FIRST` is not set: it sets it and calls `program::start` with the word below `argv`, which calls `entry`.
example-crates/external-start/src/main.rs:28-42, src/program/linux_raw.rs:173-176. -/
def takeOver (c : Cfg) (argv : Nat) (x : XState) : XState :=
  { x with first := true, phase := .origin Proc.init, starts := (argv - 1 * c.ws) :: x.starts }

/-- libc calls the functions of `.init_array` in order, with `argv`, and then `main`; so does origin, once it has control.  `early` is the function of `EARLY_INIT_ARRAY`; if `FIRST` is set
it does nothing but return (lines 31-36); libc's other functions are taken to return, or never do.  example-crates/external-start/src/main.rs:16-42, 76-81. -/
def xstep (c : Cfg) (a : List Entry) (early argv : Nat) (x : XState) : XAct → Option XState
  | .libc => match x.phase with
    | .libc i => match a[i]? with
      | none => some { x with phase := .main }
      | some e =>
        let x := { x with called := i :: x.called }
        if e.fn = early ∧ x.first = false then some (takeOver c argv x) else some { x with phase := .libc (i + 1) }
    | _ => none
  | .act y => match x.phase with
    | .origin s => match s.stk y.tid with
      | .user (.ctor p) :: _ =>
        if isEarly c a early p then
          if x.first = false then some (takeOver c argv x)
          else match y with
            | .ret _ _ => (Proc.step c s y).map fun s => { x with phase := .origin s }
            | _ => none
        else (Proc.step c s y).map fun s => { x with phase := .origin s }
      | _ => (Proc.step c s y).map fun s => { x with phase := .origin s }
    | _ => none

/-- libc starts to call the functions: example-crates/external-start/src/main.rs:16-20. -/
def xinit : XState where
  phase := .libc 0
  first := false
  called := []
  starts := []

/-- States reachable from there (example-crates/external-start/src/main.rs:16-81). -/
inductive XReach (c : Cfg) (a : List Entry) (early argv : Nat) : XState → Prop
  | init : XReach c a early argv xinit
  | step {x x' : XState} {y : XAct} : XReach c a early argv x → xstep c a early argv x y = some x' → XReach c a early argv x'

end Origin.Ctors
