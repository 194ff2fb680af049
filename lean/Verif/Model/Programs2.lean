import Verif.Model.Programs
/-!
# More of the repository's example programs

`tiny`, `origin-start-no-alloc`, `external-start` and `tiny-hello`, transcribed as in `Model/Programs.lean`.
-/

namespace Origin.Programs
open User

/-- example-crates/tiny/src/main.rs:9-11. -/
def tinyPrg : Prg Unit Unit where
  op _ := .ret 42
  main := ()
  ctors := []
  finis := []

/-- The statements of example-crates/origin-start-no-alloc/src/main.rs:10-17. -/
inductive Na | m11 | m16
deriving DecidableEq, Repr

/-- example-crates/origin-start-no-alloc/src/main.rs:10-17.  The memory is what has been printed. -/
def noAlloc : Prg (List String) Na where
  op
    | .m11 => print "Hello!" .m16
    | .m16 => .exit 0
  main := .m11
  ctors := []
  finis := []

/-- The statements of example-crates/external-start/src/main.rs:22-73. -/
inductive Es
  /-- the function in `.init_array`, lines 25-40; `r33`: its early return; `s39`: it calls `program::start` -/
  | i29 | r33 | s39
  /-- the statements of `origin_main`, lines 45-73, which are those of example-crates/origin-start/src/main.rs:16-44 -/
  | m (x : Ex)
deriving DecidableEq, Repr

/-- An operation of `origin_main` (example-crates/external-start/src/main.rs:45-73), in a program whose memory has `FIRST` (line 28) too. -/
def liftOp : Op (List String) Ex → Op (Bool × List String) Es
  | .mem f => .mem fun s => ((s.1, (f s.2).1), .m (f s.2).2)
  | .ret v => .ret v
  | .atExitT g k => .atExitT (.m g) (.m k)
  | .atExitP g k => .atExitP (.m g) (.m k)
  | .create g k => .create (.m g) fun u => .m (k u)
  | .join u k => .join u fun v => .m (k v)
  | .detach u k => .detach u (.m k)
  | .id u k => .id u fun r => .m (k r)
  | .exit st => .exit st
  | .immExit st => .immExit st

/-- example-crates/external-start/src/main.rs:22-73 from the call of `program::start` (line 39) on, which libc's run of the constructors made; `FIRST` is true
by then.  `ia`: origin has the feature `init-array`, so it calls the constructor again.  (The crate as it stands is built without it, Cargo.toml:10.)  A second
`program::start` is a second start of the process, which is not modelled: that program point ends the process with status 134. -/
def externalStart (ia : Bool) : Prg (Bool × List String) Es where
  op
    | .i29 => .mem fun s => ((true, s.2), if s.1 then .r33 else .s39)
    | .r33 => .ret 0
    | .s39 => .immExit 134
    | .m x => liftOp (originStart.op x)
  main := .m .m17
  ctors := if ia then [.i29] else []
  finis := []

/-- What `write` returns (rustix::io::write, called at example-crates/tiny-hello/src/main.rs:13). -/
inductive WRes
  | ok (n : Nat)
  | intr
  | err
deriving DecidableEq, Repr

/-- The statements of example-crates/tiny-hello/src/main.rs:9-20; `trap`: line 16, and the panic of the slice index on line 14 (the panic handler traps:
Cargo.toml:11). -/
inductive Th | top | write | done | trap
deriving DecidableEq, Repr

/-- The memory of `tiny-hello`: what has been written to the standard output; how many bytes `remaining` has; how many times `write` has been called. -/
structure Hello where
  out : List Char
  rem : Nat
  calls : Nat
deriving DecidableEq, Repr

/-- `message` (example-crates/tiny-hello/src/main.rs:10). -/
def helloMsg : List Char := "Hello, world!\n".toList

/-- example-crates/tiny-hello/src/main.rs:9-20; the kernel answers the `i`-th call of `write` with `w i`, having written as many bytes of what it was given
— `message`, not `remaining` (line 13).  Being killed by `trap` is status 132. -/
def tinyHello (w : Nat → WRes) : Prg Hello Th where
  op
    | .top => check (fun s => s.rem != 0) .write .done
    | .write => .mem fun s =>
      match w s.calls with
      | .ok n => if n ≤ s.rem then (⟨s.out ++ helloMsg.take n, s.rem - n, s.calls + 1⟩, .top) else (⟨s.out ++ helloMsg.take n, s.rem, s.calls + 1⟩, .trap)
      | .intr => ({ s with calls := s.calls + 1 }, .top)
      | .err => ({ s with calls := s.calls + 1 }, .trap)
    | .done => .immExit 0
    | .trap => .immExit 132
  main := .top
  ctors := []
  finis := []

/-- The start of `tiny-hello` (example-crates/tiny-hello/src/main.rs:10-11): nothing is written, `remaining` is all of the message. -/
def hello0 : Hello := ⟨[], helloMsg.length, 0⟩

end Origin.Programs
