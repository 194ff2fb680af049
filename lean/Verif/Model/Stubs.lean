import Verif.Model.Process
/-!
# src/stubs.rs: the "eh-personality-continue" and "panic-handler-trap" features

`rust_eh_personality` is called by an unwinder, once or twice for each frame of a function compiled by rustc that has unwind tables with a
language-specific part.  The unwinder is not origin's; what it does with the answers is written down here from the Itanium C++ ABI
(exception handling, level I), the way libgcc implements it: frames are told apart by their canonical frame address.
Left out: the exception object, the register contents, and what landing pads do (a landing pad that cleans up ends in `_Unwind_Resume`, with which
phase 2 goes on with the next frame).
-/

namespace Origin.Stubs

/-- `rust_eh_personality`.  src/stubs.rs:7-18. -/
def rustEhPersonality (version _actions : BitVec 32) (_exceptionClass : BitVec 64) : BitVec 32 :=
  if version ≠ 1 then 3 else 8

/-- One frame of the stack that is unwound: its canonical frame address, and the personality routine of its function, if it has one.  The arguments are those
of src/stubs.rs:7-13 that are not pointers; another language's routine may answer what it likes. -/
structure Frame where
  cfa : Nat
  personality : Option (BitVec 32 → BitVec 32 → BitVec 64 → BitVec 32)

/-- What `_Unwind_RaiseException` or `_Unwind_ForcedUnwind` came to: it returned a code (src/stubs.rs:15, 17 are two of them), control went to a handler for good, or
the unwinder aborted.  Environment (Itanium C++ ABI, level I), called because of src/stubs.rs:7. -/
inductive Outcome
  | returned (code : BitVec 32)
  | handled (cfa : Nat)
  | aborted
deriving DecidableEq, Repr

/-- Phase 1, the search for a handler, by an unwinder whose ABI version is `ver` (it passes it to src/stubs.rs:8).  6 is `_URC_HANDLER_FOUND`, 8 `_URC_CONTINUE_UNWIND`, 5
`_URC_END_OF_STACK`, 3 `_URC_FATAL_PHASE1_ERROR`; action 1 is `_UA_SEARCH_PHASE`.  Environment. -/
def search (ver : BitVec 32) (cls : BitVec 64) : List Frame → Outcome
  | [] => .returned 5
  | f :: fs =>
    match f.personality with
    | none => search ver cls fs
    | some p => if p ver 1 cls = 6 then .handled f.cfa else if p ver 1 cls = 8 then search ver cls fs else .returned 3

/-- Phase 2, for the handler at `h`: the frames whose landing pads are entered, in order, and the outcome.  7 is `_URC_INSTALL_CONTEXT`, 2 `_URC_FATAL_PHASE2_ERROR`; action 2 is
`_UA_CLEANUP_PHASE`, 4 `_UA_HANDLER_FRAME`.  Environment; calls src/stubs.rs:7. -/
def cleanup (ver : BitVec 32) (cls : BitVec 64) (h : Nat) : List Frame → List Nat × Outcome
  | [] => ([], .returned 2)
  | f :: fs =>
    match f.personality with
    | none => if f.cfa = h then ([], .aborted) else cleanup ver cls h fs
    | some p =>
      let r := p ver (if f.cfa = h then 6 else 2) cls
      if r = 7 then
        if f.cfa = h then ([f.cfa], .handled h)
        else let (l, o) := cleanup ver cls h fs; (f.cfa :: l, o)
      else if r = 8 then if f.cfa = h then ([], .aborted) else cleanup ver cls h fs
      else ([], .returned 2)

/-- `_Unwind_RaiseException`.  Environment; calls src/stubs.rs:7. -/
def raise (ver : BitVec 32) (cls : BitVec 64) (fs : List Frame) : List Nat × Outcome :=
  match search ver cls fs with
  | .handled h => cleanup ver cls h fs
  | o => ([], o)

/-- `_Unwind_ForcedUnwind`, with a stop function that never stops: action 10 is `_UA_FORCE_UNWIND | _UA_CLEANUP_PHASE`.  Environment; calls src/stubs.rs:7. -/
def force (ver : BitVec 32) (cls : BitVec 64) : List Frame → List Nat × Outcome
  | [] => ([], .returned 5)
  | f :: fs =>
    match f.personality with
    | none => force ver cls fs
    | some p =>
      if p ver 10 cls = 7 then let (l, o) := force ver cls fs; (f.cfa :: l, o)
      else if p ver 10 cls = 8 then force ver cls fs
      else ([], .returned 2)

end Origin.Stubs

namespace Origin.Proc

/-- A process with "panic-handler-trap": a panic, in user code or in origin's own, calls `panic` on its thread, which executes a trap instruction: the kernel kills the process with
a signal.  `trapped`: which thread did it.  src/stubs.rs:21-25. -/
structure TrapState where
  s : State
  trapped : Option Tid

/-- What can happen: what happens without panics, or a panic on thread `t`.  src/stubs.rs:23. -/
inductive TrapAct
  | act (x : Action)
  | panic (t : Tid)
deriving DecidableEq, Repr

/-- `panic`: `arch::trap()`, and nothing before it.  src/stubs.rs:23-25. -/
def TrapState.panic (p : TrapState) (t : Tid) : TrapState := { p with s := { p.s with dead := true }, trapped := some t }

/-- `x` happens (`none`: it cannot happen in `p`).  A panic needs code to run on the thread.  src/stubs.rs:23, src/program/linux_raw.rs:93-338. -/
def trapStep (c : Cfg) (p : TrapState) (x : TrapAct) : Option TrapState :=
  match x with
  | .act x => (step c p.s x).map fun s => { p with s := s }
  | .panic t => if p.s.dead ∨ p.s.stk t = [] then none else some (p.panic t)

/-- Program start (src/program/linux_raw.rs:93). -/
def trapInit : TrapState where
  s := init
  trapped := none

/-- Run a list of actions (src/stubs.rs:23, src/program/linux_raw.rs:93-338). -/
def trapRun (c : Cfg) (p : TrapState) : List TrapAct → Option TrapState
  | [] => some p
  | x :: xs => (trapStep c p x).bind (trapRun c · xs)

end Origin.Proc
