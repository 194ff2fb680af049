import Verif.Model.ThreadPtr
/-!
# The precondition checks of a debug build at the start of the program and of a thread
-/

namespace Origin.Asm
open Origin

/-- What the compiler's intrinsics give in a function (src/thread/linux_raw.rs:644-652, src/program/linux_raw.rs:64-72): `llvm.returnaddress(0)`,
`llvm.frameaddress(0)`, `llvm.frameaddress(1)`, `llvm.sponentry` (used on aarch64 only). -/
structure EntryFrame where
  ret : Nat
  addr : Nat
  parent : Nat
  spEntry : Nat

/-- `#[cfg(p)]` on an assertion.  src/thread/linux_raw.rs:657-667, src/program/linux_raw.rs:79-89. -/
def onlyIf (p : Prop) [Decidable p] (b : Bool) : Bool := !decide p || b

/-- The checks with the `nightly` feature at the start of a thread: src/thread/linux_raw.rs:655-667; `true`: none fails. -/
def threadFrameChecks (a : Arch) (f : EntryFrame) : Bool :=
  f.ret == 0 && f.addr != 0 &&
  onlyIf (a ≠ .x86 ∧ a ≠ .arm) (f.addr &&& 0xf == 0) &&
  onlyIf (a = .arm) (f.addr &&& 0x3 == 0) &&
  onlyIf (a = .x86) (f.addr &&& 0xf == 8) &&
  f.parent == 0 &&
  onlyIf (a = .aarch64) (f.spEntry != 0) &&
  onlyIf (a = .aarch64) (f.spEntry &&& 0xf == 0)

/-- All checks at the start of a thread's `entry`: src/thread/linux_raw.rs:639-672; `id`: what `current_id()` gives (`none`: it faults), `gettid`: the
kernel's answer. -/
def threadChecks (a : Arch) (f : EntryFrame) (id : Option Nat) (gettid : Nat) : Bool :=
  threadFrameChecks a f && id == some gettid

/-- All checks at the start of the program's `entry`: src/program/linux_raw.rs:53-91; `mem`: its argument. -/
def programChecks (a : Arch) (f : EntryFrame) (mem : Nat) : Bool :=
  mem != 0 && mem &&& 0xf == 0 && decide (f.addr ≤ mem) && f.ret == 0 && f.addr != 0 &&
  onlyIf (a ≠ .arm ∧ a ≠ .x86) (f.addr &&& 0xf == 0) &&
  onlyIf (a = .arm) (f.addr &&& 0x7 == 0) &&
  onlyIf (a = .x86) (f.addr &&& 0xf == 8) &&
  f.parent == 0 &&
  onlyIf (a = .aarch64) (f.spEntry != 0) &&
  onlyIf (a = .aarch64) (f.spEntry &&& 0xf == 0)

end Origin.Asm
