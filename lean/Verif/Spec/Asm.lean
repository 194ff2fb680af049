import Verif.Model.Asm
/-!
# Machine-level conventions: Linux system calls, C calls, signal frames

Written from the architecture ABIs and the kernel's conventions (`syscall(2)`, `clone(2)`, `arch/*/kernel/signal*.c`),
not from the crate.
-/

namespace Origin.Asm.Spec
open Origin Origin.Asm

/-! ### system calls (`syscall(2)`) -/

/-- Linux's system call numbers (`asm/unistd.h` of each architecture): clone, exit, munmap, mprotect, sigreturn, rt_sigreturn.  (The last but
one does not exist on the 64-bit targets.) -/
def linuxNr : Arch → List Nat
  | .x86_64 => [56, 60, 11, 10, 0, 15]
  | .x86 | .arm => [120, 1, 91, 125, 119, 173]
  | .aarch64 | .riscv64 => [220, 93, 215, 226, 0, 139]

def nrClone (a : Arch) : Nat := (linuxNr a).getD 0 0
def nrExit (a : Arch) : Nat := (linuxNr a).getD 1 0
def nrMunmap (a : Arch) : Nat := (linuxNr a).getD 2 0
def nrMprotect (a : Arch) : Nat := (linuxNr a).getD 3 0

/-- The register of the system call number. -/
def nrReg : Arch → Reg
  | .x86_64 | .x86 => 0 -- rax, eax
  | .aarch64 => 8
  | .arm => 7
  | .riscv64 => 17 -- a7

/-- The registers of the first five arguments. -/
def argReg : Arch → Nat → Reg
  | .x86_64, 0 => 7 | .x86_64, 1 => 6 | .x86_64, 2 => 2 | .x86_64, 3 => 10 | .x86_64, _ => 8 -- rdi rsi rdx r10 r8
  | .x86, 0 => 3 | .x86, 1 => 1 | .x86, 2 => 2 | .x86, 3 => 6 | .x86, _ => 7 -- ebx ecx edx esi edi
  | .aarch64, i | .arm, i => i
  | .riscv64, i => 10 + i

/-- The register of the result. -/
def retReg : Arch → Reg
  | .riscv64 => 10
  | _ => 0

/-- Registers that a system call does not preserve, besides the result: rcx and r11. -/
def clobbered : Arch → List Reg
  | .x86_64 => [1, 11]
  | _ => []

/-- A system call as the kernel sees it: its number, and its first `n` arguments. -/
def request (a : Arch) (n : Nat) (r : Reg → Nat) : Nat × List Nat := (r (nrReg a), (List.range n).map fun i => r (argReg a i))

/-! ### function calls -/

/-- A C function's first arguments, at its entry: System V i386 (on the stack, above the return address) and x86-64 (rdi, rsi, rdx),
AAPCS64, AAPCS, RISC-V. -/
def fnArg (a : Arch) (c : Cpu) (i : Nat) : Nat :=
  match a with
  | .x86 => ldN .little 4 c.mem (c.reg 4 + 4 + 4 * i)
  | .x86_64 => c.reg (match i with | 0 => 7 | 1 => 6 | _ => 2)
  | .aarch64 | .arm => c.reg i
  | .riscv64 => c.reg (10 + i)

/-- Its return address: on the stack, or in x30, lr, ra. -/
def retAddr (a : Arch) (c : Cpu) : Nat :=
  match a with
  | .x86_64 => ldN .little 8 c.mem (c.reg 4)
  | .x86 => ldN .little 4 c.mem (c.reg 4)
  | .aarch64 => c.reg 30
  | .arm => c.reg 14
  | .riscv64 => c.reg 1

/-- The stack alignment at a function's entry: 16 bytes (8 on arm), before the call pushed the return address. -/
def EntryAligned : Arch → Nat → Prop
  | .x86_64, sp => (sp + 8) % 16 = 0
  | .x86, sp => (sp + 4) % 16 = 0
  | .aarch64, sp | .riscv64, sp => sp % 16 = 0
  | .arm, sp => sp % 8 = 0

/-- The alignment of a stack from which functions are called. -/
def stackAlign : Arch → Nat
  | .arm => 8
  | _ => 16

/-! ### `clone(2)` -/

/-- `r` are the registers of a `clone` call with the arguments `g`: flags, stack, parent tid, tls, child tid; the last two the other way round on x86-64.  The
kernel uses the low 32 bits of the flags.  On x86 the tls argument is the address of a `user_desc`, whose second word is the base of
the TLS segment. -/
def CloneRequest (a : Arch) (m : Mem) (r : Reg → Nat) (g : CloneArgs) : Prop :=
  r (nrReg a) = nrClone a ∧ r (argReg a 0) % 2 ^ 32 = g.flags ∧ r (argReg a 2) = g.parentTid ∧
  match a with
  | .x86_64 => r (argReg a 1) = g.childStack ∧ r (argReg a 3) = g.childTid ∧ r (argReg a 4) = g.newtls
  | .x86 => r (argReg a 1) + 4 = g.childStack ∧ ldN .little 4 m (r (argReg a 3) + 4) = g.newtls ∧ r (argReg a 4) = g.childTid
  | _ => r (argReg a 1) = g.childStack ∧ r (argReg a 3) = g.newtls ∧ r (argReg a 4) = g.childTid

/-- The values `clone` returns in the parent: a thread id, or a negated error number. -/
def ParentResult (ws v : Nat) : Prop := (0 < v ∧ v < 2 ^ 31) ∨ (∃ e, 0 < e ∧ e < 4096 ∧ v = 2 ^ (8 * ws) - e)

/-- In the new thread that a `clone` call with the arguments `g` makes, the call returns 0 on the given stack, with the caller's other registers; on
x86, where the word at the stack pointer is one that the caller put there, that word is as it was (nobody else uses the new stack). -/
def InChild (a : Arch) (g : CloneArgs) (k : Cpu → (Reg → Nat) × Mem) : Prop := ∀ c, CloneRequest a c.mem c.reg g →
  (k c).1 (retReg a) = 0 ∧ (k c).1 (spReg a) = c.reg (argReg a 1) ∧
  (∀ r, r ≠ retReg a → r ≠ spReg a → r ∉ clobbered a → (k c).1 r = c.reg r) ∧
  (a = .x86 → ldN .little a.ws (k c).2 (c.reg (argReg a 1)) = ldN .little a.ws c.mem (c.reg (argReg a 1)))

/-- In the calling thread it returns `v` and leaves the other registers and the thread's own two words at the stack pointer. -/
def InParent (a : Arch) (v : Nat) (k : Cpu → (Reg → Nat) × Mem) : Prop := ∀ c,
  (k c).1 (retReg a) = v ∧ (∀ r, r ≠ retReg a → r ∉ clobbered a → (k c).1 r = c.reg r) ∧
  (∀ x, c.reg (spReg a) ≤ x → x < c.reg (spReg a) + 2 * a.ws → (k c).2 x = c.mem x)

/-! ### signal frames -/

/-- The kinds of signal frame. -/
inductive Frame where
  /-- handler installed without `SA_SIGINFO` -/
  | plain
  /-- with `SA_SIGINFO` -/
  | rt
deriving DecidableEq, Repr

/-- The frame the kernel pushes for a handler with these flags: x86-64 and aarch64 have one kind. -/
def frameFor (a : Arch) (flags : BitVec 32) : Frame :=
  match a with
  | .x86 | .arm => if flags &&& 4#32 = 0 then .plain else .rt
  | _ => .rt

/-- A handler is entered with the stack pointer at the frame; on x86 and x86-64 the frame's first word is its return address, which its
return pops.  So: the stack pointer after the return. -/
def afterReturn : Arch → Nat → Nat
  | .x86_64, f => f + 8
  | .x86, f => f + 4
  | _, f => f

/-- Where `sigreturn` / `rt_sigreturn` look for the frame: `arch/x86/kernel/signal_64.c` (`regs->sp - sizeof(long)`),
`signal_32.c` (`regs->sp - 8` for `sigreturn`, `regs->sp - sizeof(long)` for `rt_sigreturn`), `arch/arm64/kernel/signal.c`,
`arch/arm/kernel/signal.c` (`regs->sp`). -/
def lookedUp : Arch → Frame → Nat → Nat
  | .x86_64, .rt, sp => sp - 8
  | .x86, .plain, sp => sp - 8
  | .x86, .rt, sp => sp - 4
  | _, _, sp => sp

/-- The system call that returns from each kind of frame. -/
def returnNr (a : Arch) : Frame → Nat
  | .plain => (linuxNr a).getD 4 0
  | .rt => (linuxNr a).getD 5 0

end Origin.Asm.Spec
