import Verif.Spec.ThreadPtr
/-!
# `set_thread_pointer` and `thread_pointer`

src/arch/*.rs.  Release build: the debug assertions after the writes are not modelled, and a failing `set_thread_area` is not noticed.
What the system calls do is from `Spec/ThreadPtr.lean`.
-/

namespace Origin.Asm
open Origin.Asm.Spec

/-- `set_thread_pointer`: src/arch/x86_64.rs:252-256 (`arch_prctl(ARCH_SET_FS)`), x86.rs:322-344, aarch64.rs:248-251 (`msr tpidr_el0`),
arm.rs:261-265 (`__ARM_NR_set_tls`), riscv64.rs:266-269 (`mv tp`).
On x86: `tmp` is the address of the local `user_desc`; `free` the slot that the kernel chooses (it stores it in `entry_number`).  The shift is on
`u32`, the selector is truncated to `u16`. -/
def setThreadPointer (a : Arch) (lo free tmp : Nat) (m : Mem) (tp : Tp) (ptr : Nat) : Tp × Mem :=
  match a with
  | .x86 =>
    let m := stDesc m tmp 0xffffffff (ptr % 2 ^ 32)
    let (slots, m) := match setThreadArea lo true free tp.slots (descAt m tmp) with
      | some (i, slots) => (slots, stN .little 4 m tmp i)
      | none => (tp.slots, m)
    let entry := ldN .little 4 m tmp
    ({ tp with slots := slots, gs := ((entry <<< 3) % 2 ^ 32 ||| 3) % 2 ^ 16 }, m)
  | _ => ({ tp with base := ptr }, m)

/-- `thread_pointer`: src/arch/x86_64.rs:262-272 (`mov fs:0`), x86.rs:350-360 (`mov gs:0`), aarch64.rs:257-264 (`mrs tpidr_el0`),
arm.rs:271-278 (`mrc p15, 0, _, c13, c0, 3`), riscv64.rs:275-282 (`mv _, tp`).  `none`: the access faults. -/
def threadPointer (a : Arch) (m : Mem) (tp : Tp) : Option Nat :=
  match a with
  | .x86_64 | .x86 => (tlsAccess a tp 0).map (ldN .little a.ws m)
  | _ => some tp.base

/-- x86's reading of its selector before `clone`: `mov {0:x}, gs` into a zeroed `u32`: src/arch/x86.rs:242-243. -/
def readGs (tp : Tp) : Nat := tp.gs % 2 ^ 16

end Origin.Asm
