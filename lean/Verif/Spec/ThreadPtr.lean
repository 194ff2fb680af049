import Verif.Spec.Asm
/-!
# The thread pointer, as the hardware and the kernel have it

x86-64: the base of the FS segment.  aarch64, arm, riscv64: a register.  x86: the GS selector names a descriptor (one of three slots in
the GDT that the kernel switches with the thread), which has base, limit and access rights.  Written from the Intel manual (segment
descriptors, selectors) and Linux (`arch/x86/kernel/tls.c`, `asm/ldt.h`, `clone(2)`), not from the crate.
-/

namespace Origin.Asm

/-- A data segment: its base, the last offset that can be accessed, and whether it can be written. -/
structure Seg where
  base : Nat
  last : Nat
  writable : Bool
deriving DecidableEq, Repr

/-- A thread's thread-pointer state: the FS base or thread register; x86's GS selector and descriptor slots. -/
structure Tp where
  base : Nat
  gs : Nat
  slots : Nat → Option Seg

end Origin.Asm

namespace Origin.Asm.Spec
open Origin Origin.Asm

/-- The address that an access at offset `off` from the thread pointer reaches (offsets are words; those below the thread pointer are
negative, so large); `none` if it faults.  On x86 the selector has to be one of the GDT (bit 2 clear) with user privilege (bits 0 and 1). -/
def tlsAccess (a : Arch) (tp : Tp) (off : Nat) : Option Nat :=
  match a with
  | .x86 =>
    if tp.gs % 8 = 3 then
      match tp.slots (tp.gs / 8) with
      | some s => if off ≤ s.last ∧ s.writable = true then some ((s.base + off) % 2 ^ 32) else none
      | none => none
    else none
  | a => some ((tp.base + off) % 2 ^ (8 * a.ws))

/-- The thread pointer is `p`: every offset reaches the byte at that offset from `p`. -/
def PointsTo (a : Arch) (tp : Tp) (p : Nat) : Prop := ∀ off, off < 2 ^ (8 * a.ws) → tlsAccess a tp off = some ((p + off) % 2 ^ (8 * a.ws))

/-! ### Linux on x86 -/

/-- `struct user_desc` (`asm/ldt.h`). -/
structure UserDesc where
  entry : Nat
  base : Nat
  limit : Nat
  seg32 : Bool
  contents : Nat
  readExecOnly : Bool
  limitInPages : Bool
  notPresent : Bool
  useable : Bool

/-- The structure at `a`. -/
def descAt (m : Mem) (a : Nat) : UserDesc :=
  let b := ldN .little 4 m (a + 12)
  { entry := ldN .little 4 m a, base := ldN .little 4 m (a + 4), limit := ldN .little 4 m (a + 8)
    seg32 := b.testBit 0, contents := b / 2 % 4, readExecOnly := b.testBit 3, limitInPages := b.testBit 4, notPresent := b.testBit 5,
    useable := b.testBit 6 }

/-- `LDT_empty` and `LDT_zero`: the two descriptions of "no segment". -/
def UserDesc.none? (d : UserDesc) : Bool :=
  d.base = 0 && d.limit = 0 && d.contents = 0 && !d.seg32 && !d.limitInPages && !d.useable && d.readExecOnly == d.notPresent

/-- `tls_desc_okay`: the kernel takes "no segment" and present 32-bit data segments. -/
def UserDesc.okay (d : UserDesc) : Bool := d.none? || (d.seg32 && d.contents ≤ 1 && !d.notPresent)

/-- `fill_ldt`: the segment.  (Only expand-up data segments; a limit in pages counts 4096-byte pages.) -/
def UserDesc.seg (d : UserDesc) : Option Seg :=
  if d.none? || d.contents ≠ 0 then none
  else some ⟨d.base, if d.limitInPages then d.limit % 2 ^ 20 * 4096 + 4095 else d.limit % 2 ^ 20, !d.readExecOnly⟩

/-- The TLS slots of the GDT are numbers `lo`, `lo + 1`, `lo + 2` (`lo` is 6 on 32-bit kernels, 12 on 64-bit kernels). -/
def slotOk (lo i : Nat) : Bool := lo ≤ i && i < lo + 3

/-- `do_set_thread_area`.  `free`: the slot that is chosen when `entry_number` is -1 and `alloc` is true.  `none` is an error; else the slot used,
and the slots with the new descriptor. -/
def setThreadArea (lo : Nat) (alloc : Bool) (free : Nat) (slots : Nat → Option Seg) (d : UserDesc) : Option (Nat × (Nat → Option Seg)) :=
  if d.okay then
    let i := if d.entry = 2 ^ 32 - 1 ∧ alloc = true then free else d.entry
    if slotOk lo i then some (i, fun j => if j = i then d.seg else slots j) else none
  else none

/-- `clone`: the new thread's thread-pointer state, from the registers and memory at the call and the caller's state;
`none` if the call fails.  Without `CLONE_SETTLS` (bit 19 of the flags) it is the caller's. -/
def childTp (a : Arch) (lo : Nat) (tp : Tp) (r : Reg → Nat) (m : Mem) : Option Tp :=
  if (r (argReg a 0)).testBit 19 = false then some tp else
  match a with
  | .x86_64 => some { tp with base := r (argReg .x86_64 4) }
  | .x86 => (setThreadArea lo false 0 tp.slots (descAt m (r (argReg .x86 3)))).map fun x => { tp with slots := x.2 }
  | a => some { tp with base := r (argReg a 3) }

end Origin.Asm.Spec
