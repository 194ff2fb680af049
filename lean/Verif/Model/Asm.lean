import Verif.Model.Layout
/-!
# The assembly sequences of `src/arch/*.rs`

The instruction sequences of `_start`, `clone`, `munmap_and_exit_thread`, `return_from_signal_handler` and
`return_from_signal_handler_noinfo` for the five targets, over a register machine with the few instructions that
they use.  A `.jmp` leaves for the Rust function the sequence names (`entry`), a branch goes to the end label.

Simplifications: only the registers and memory are modelled, not flags (the `test`/`tst` and the conditional branch
after it are one instruction), segment registers or instruction encodings; memory is byte-addressed and little-endian
(only the two x86 targets access memory in these sequences).  Register numbers follow each target's encoding.  What the
kernel does at a system call is a parameter.  `asm!` operands are the registers' values when the sequence starts; where
the operand is `in(reg)` the register is a parameter (the compiler's choice).
-/

namespace Origin.Asm

/-- A register, by number (register operands of the `asm!` blocks, e.g. src/arch/x86_64.rs:233-244). -/
abbrev Reg := Nat

/-- The instructions that occur in origin's `asm!` blocks: src/arch/x86_64.rs:42-44, 216-231, 285-290, 313-315 and the same functions of the other
src/arch/*.rs. -/
inductive Instr where
  /-- register to register -/
  | mov (d s : Reg)
  /-- constant to register: also `xor r, r`, `mov r, xzr`, `mv r, zero` (on x86-64 the 32-bit forms clear the upper half) -/
  | li (d : Reg) (v : Nat)
  | push (s : Reg)
  | pop (d : Reg)
  /-- `d := [base + off]` -/
  | load (d base : Reg) (off : Nat)
  | syscall
  /-- test the low `bits` bits of `r`, branch to the end label if they are not all zero -/
  | bnz (r : Reg) (bits : Nat)
  /-- branch to the end label if `r` is zero -/
  | bz (r : Reg)
  /-- jump to the Rust function -/
  | jmp
  /-- an invalid instruction -/
  | trap
deriving DecidableEq, Repr

/-- Machine state: registers, memory, the registers and memory at each system call made (newest first), and the addresses of the
words that were read or written (newest first).  Not in /repo: the machine on which src/arch/x86_64.rs:42-44, 216-231, 285-290, 313-315 and the same
functions of the other src/arch/*.rs run. -/
structure Cpu where
  reg : Reg → Nat
  mem : Mem
  calls : List ((Reg → Nat) × Mem)
  touched : List Nat

/-- Assign a register.  Not in /repo: part of the machine.  (Operands `in(reg)` of the `asm!` blocks are set with it, e.g.
src/arch/x86_64.rs:233-244.) -/
def Cpu.set (c : Cpu) (r : Reg) (v : Nat) : Cpu := { c with reg := fun x => if x = r then v else c.reg x }

/-- How a sequence ends.  (src/arch/x86_64.rs:219 `jnz 2f`, 44 and 227 `jmp`, 290 `ud2`.) -/
inductive End where
  /-- in the Rust function -/
  | entered (c : Cpu)
  /-- in an invalid instruction -/
  | trapped (c : Cpu)
  /-- after the end of the sequence -/
  | fell (c : Cpu)

/-- Run a sequence.  `ws`: word size, `sp`: number of the stack pointer, `k`: what the kernel does: the registers and
memory with which the system call returns.  Not in /repo: the machine on which src/arch/x86_64.rs:42-44, 216-231, 285-290, 313-315 and the same
functions of the other src/arch/*.rs run. -/
def run (ws : Nat) (sp : Reg) (k : Cpu → (Reg → Nat) × Mem) : List Instr → Cpu → End
  | [], c => .fell c
  | .mov d s :: is, c => run ws sp k is (c.set d (c.reg s))
  | .li d v :: is, c => run ws sp k is (c.set d v)
  | .push s :: is, c =>
    let a := uwsub ws (c.reg sp) ws
    run ws sp k is { (c.set sp a) with mem := stN .little ws c.mem a (c.reg s), touched := a :: c.touched }
  | .pop d :: is, c =>
    let a := c.reg sp
    run ws sp k is { ((c.set sp (uadd ws a ws)).set d (ldN .little ws c.mem a)) with touched := a :: c.touched }
  | .load d b off :: is, c =>
    let a := uadd ws (c.reg b) off
    run ws sp k is { (c.set d (ldN .little ws c.mem a)) with touched := a :: c.touched }
  | .syscall :: is, c =>
    let c := { c with calls := (c.reg, c.mem) :: c.calls }
    run ws sp k is { c with reg := (k c).1, mem := (k c).2 }
  | .bnz r bits :: is, c => if c.reg r % 2 ^ bits ≠ 0 then .fell c else run ws sp k is c
  | .bz r :: is, c => if c.reg r = 0 then .fell c else run ws sp k is c
  | .jmp :: _, c => .entered c
  | .trap :: _, c => .trapped c

/-! ### registers -/

namespace X86  -- and x86-64
/-- Register `ax` as an operand of the `asm!` blocks of src/arch/x86.rs and src/arch/x86_64.rs (e.g. x86_64.rs:42-44, 233-244). -/
def ax : Reg := 0
/-- Register `cx` as an operand of the `asm!` blocks of src/arch/x86.rs and src/arch/x86_64.rs (e.g. x86_64.rs:42-44, 233-244). -/
def cx : Reg := 1
/-- Register `dx` as an operand of the `asm!` blocks of src/arch/x86.rs and src/arch/x86_64.rs (e.g. x86_64.rs:42-44, 233-244). -/
def dx : Reg := 2
/-- Register `bx` as an operand of the `asm!` blocks of src/arch/x86.rs and src/arch/x86_64.rs (e.g. x86_64.rs:42-44, 233-244). -/
def bx : Reg := 3
/-- Register `sp` as an operand of the `asm!` blocks of src/arch/x86.rs and src/arch/x86_64.rs (e.g. x86_64.rs:42-44, 233-244). -/
def sp : Reg := 4
/-- Register `bp` as an operand of the `asm!` blocks of src/arch/x86.rs and src/arch/x86_64.rs (e.g. x86_64.rs:42-44, 233-244). -/
def bp : Reg := 5
/-- Register `si` as an operand of the `asm!` blocks of src/arch/x86.rs and src/arch/x86_64.rs (e.g. x86_64.rs:42-44, 233-244). -/
def si : Reg := 6
/-- Register `di` as an operand of the `asm!` blocks of src/arch/x86.rs and src/arch/x86_64.rs (e.g. x86_64.rs:42-44, 233-244). -/
def di : Reg := 7
end X86

/-- The stack pointer.  (`rsp`, `esp`, `sp` in src/arch/x86_64.rs:42, x86.rs:45, aarch64.rs:42, arm.rs:42, riscv64.rs:39.) -/
def spReg : Arch → Reg
  | .x86_64 | .x86 => X86.sp
  | .aarch64 => 31
  | .arm => 13
  | .riscv64 => 2

/-- The frame pointer.  (`rbp`, `ebp`, `fp`, `x29` in src/arch/x86_64.rs:225, x86.rs:295, aarch64.rs:223, arm.rs:236, riscv64.rs:41.) -/
def fpReg : Arch → Reg
  | .x86_64 | .x86 => X86.bp
  | .aarch64 => 29
  | .arm => 11
  | .riscv64 => 8

/-! ### system call numbers (Linux; `linux_raw_sys::general::__NR_*`) -/

/-- The system calls origin makes in assembly: src/arch/x86_64.rs:13, 16, 21, x86.rs:16, 19, 24, aarch64.rs:13, 16, 21, arm.rs:13, 16, 21,
riscv64.rs:13, 18. -/
inductive Nr where
  | clone | exit | munmap | mprotect | sigreturn | rtSigreturn
deriving DecidableEq, Repr

/-- `__NR_*` of `linux_raw_sys`, imported at src/arch/x86_64.rs:13, 16, 21, x86.rs:16, 19, 24, aarch64.rs:13, 16, 21, arm.rs:13, 16, 21,
riscv64.rs:13, 18; the numbers are Linux's. -/
def nr : Arch → Nr → Nat
  | .x86_64, .clone => 56 | .x86_64, .exit => 60 | .x86_64, .munmap => 11 | .x86_64, .rtSigreturn => 15
  | .x86_64, .sigreturn => 0 -- does not exist
  | .x86, .clone | .arm, .clone => 120 | .x86, .exit | .arm, .exit => 1 | .x86, .munmap | .arm, .munmap => 91
  | .x86, .sigreturn | .arm, .sigreturn => 119 | .x86, .rtSigreturn | .arm, .rtSigreturn => 173
  | .aarch64, .clone | .riscv64, .clone => 220 | .aarch64, .exit | .riscv64, .exit => 93
  | .aarch64, .munmap | .riscv64, .munmap => 215 | .aarch64, .rtSigreturn | .riscv64, .rtSigreturn => 139
  | .aarch64, .sigreturn | .riscv64, .sigreturn => 0 -- does not exist
  | .x86_64, .mprotect => 10 | .x86, .mprotect | .arm, .mprotect => 125
  | .aarch64, .mprotect | .riscv64, .mprotect => 226

/-! ### `_start` -/

/-- `_start`: src/arch/x86_64.rs:42-44, x86.rs:45-51, aarch64.rs:42-44, arm.rs:42-44, riscv64.rs:39-42. -/
def startCode : Arch → List Instr
  | .x86_64 => [.mov X86.di X86.sp, .push X86.bp, .jmp]
  | .x86 => [.mov X86.ax X86.sp, .push X86.bp, .push X86.bp, .push X86.bp, .push X86.ax, .push X86.bp, .jmp]
  | .aarch64 => [.mov 0 31, .li 30 0, .jmp]
  | .arm => [.mov 0 13, .li 14 0, .jmp]
  | .riscv64 => [.mov 10 2, .li 1 0, .li 8 0, .jmp]

/-! ### `clone` -/

/-- `clone`'s arguments: src/arch/x86_64.rs:206-214, x86.rs:233-241, aarch64.rs:205-213, arm.rs:217-225, riscv64.rs:223-231.  `numArgs` and `fn` are for the child's entry. -/
structure CloneArgs where
  flags : Nat
  childStack : Nat
  parentTid : Nat
  childTid : Nat
  newtls : Nat
  fn : Nat
  numArgs : Nat

/-- The instructions: src/arch/x86_64.rs:216-231, x86.rs:271-298, aarch64.rs:215-226, arm.rs:227-239,
riscv64.rs:233-244.  `rf`, `rn`: the registers the compiler chose for `fn_` and `num_args` (aarch64, arm, riscv64). -/
def cloneCode (a : Arch) (rf rn : Reg) : List Instr :=
  match a with
  | .x86_64 => [.syscall, .bnz X86.ax 32,
      .mov X86.di 9, .mov X86.si X86.sp, .mov X86.dx 12, .li X86.bp 0, .push X86.ax, .jmp]
  | .x86 => [.push X86.si, .push X86.bp, .load X86.bp X86.ax 8, .load X86.si X86.ax 0, .load X86.ax X86.ax 4,
      .syscall, .bnz X86.ax 32,
      .pop X86.di, .mov X86.si X86.sp, .push X86.ax, .push X86.bp, .push X86.si, .push X86.di, .li X86.bp 0, .push X86.ax, .jmp]
  | .aarch64 => [.syscall, .bnz 0 64, .mov 0 rf, .mov 1 31, .mov 2 rn, .li 29 0, .li 30 0, .jmp]
  | .arm => [.syscall, .bnz 0 32, .mov 0 rf, .mov 1 13, .mov 2 rn, .li 11 0, .li 14 0, .jmp]
  | .riscv64 => [.syscall, .bnz 10 64, .mov 10 rf, .mov 11 2, .mov 12 rn, .li 8 0, .li 1 0, .jmp]

/-- The parent's instructions at the end label: src/arch/x86.rs:300-302 (nothing elsewhere). -/
def cloneTail : Arch → List Instr
  | .x86 => [.pop X86.bp, .pop X86.si]
  | _ => []

/-- Two machine words at `a`.  (Initialization of a part of a struct or array: src/arch/x86.rs:246-260, 305-309.) -/
def st2 (m : Mem) (a x y : Nat) : Mem := stN .little 4 (stN .little 4 m a x) (a + 4) y

/-- bindgen's setter of a bit-field of width `w` at bit `i` of `_bitfield_1` (`linux_raw_sys`'s `user_desc`: `seg_32bit` bit 0,
`contents` bits 1-2, `read_exec_only` bit 3, `limit_in_pages` bit 4, `seg_not_present` bit 5, `useable` bit 6). -/
def setField (i w v b : Nat) : Nat := b % 2 ^ i + v % 2 ^ w * 2 ^ i + b / 2 ^ (i + w) * 2 ^ (i + w)

/-- The bit-fields of a `user_desc`: src/arch/x86.rs:254-259 and 331-336. -/
def descBits : Nat :=
  let b := setField 0 1 1 0
  let b := setField 1 2 0 b
  let b := setField 3 1 0 b
  let b := setField 4 1 1 b
  let b := setField 5 1 0 b
  setField 6 1 1 b

/-- The `user_desc` structure, stored at `a`: src/arch/x86.rs:246-253 and 323-330.  The fourth word is the byte of bit-fields and three bytes
of padding. -/
def stDesc (m : Mem) (a entry base : Nat) : Mem := st2 (st2 m a entry base) (a + 8) 0xfffff descBits

/-- The machine state when the sequence starts: the `asm!` operands (src/arch/x86_64.rs:233-244, aarch64.rs:230-239, arm.rs:243-252,
riscv64.rs:248-257) and, on x86, what the Rust code before it has stored: the `user_desc` at `desc` (src/arch/x86.rs:242-260), `fn_` below the child's stack (262-265), and the array of three words at `arr` (305-309).
`flagsHi`: unspecified upper half of the register of the `u32` operand (x86-64). -/
def cloneSetup (a : Arch) (rf rn : Reg) (g : CloneArgs) (flagsHi gs desc arr : Nat) (c : Cpu) : Cpu :=
  match a with
  | .x86_64 =>
    ((((((((c.set X86.ax (nr .x86_64 .clone)).set X86.di (g.flags + 2 ^ 32 * flagsHi)).set X86.si g.childStack).set X86.dx g.parentTid).set
      10 g.childTid).set 8 g.newtls).set 9 g.fn).set 12 g.numArgs)
  | .x86 =>
    let m := stDesc c.mem desc (gs >>> 3) g.newtls
    let stack := uwsub 4 g.childStack 4
    let m := stN .little 4 m stack g.fn
    let m := stN .little 4 (st2 m arr desc (nr .x86 .clone)) (arr + 8) g.numArgs
    { (((((c.set X86.ax arr).set X86.bx g.flags).set X86.cx stack).set X86.dx g.parentTid).set X86.di g.childTid) with mem := m }
  | .aarch64 =>
    ((((((((c.set rf g.fn).set rn g.numArgs).set 8 (nr .aarch64 .clone)).set 0 g.flags).set 1 g.childStack).set 2 g.parentTid).set
      3 g.newtls).set 4 g.childTid)
  | .arm =>
    ((((((((c.set rf g.fn).set rn g.numArgs).set 7 (nr .arm .clone)).set 0 g.flags).set 1 g.childStack).set 2 g.parentTid).set
      3 g.newtls).set 4 g.childTid)
  | .riscv64 =>
    ((((((((c.set rf g.fn).set rn g.numArgs).set 17 (nr .riscv64 .clone)).set 10 g.flags).set 11 g.childStack).set 12 g.parentTid).set
      13 g.newtls).set 14 g.childTid)

/-- The registers that `fn_` and `num_args` cannot be given: those with other operands, the stack pointer, and (Rust
reference) the frame pointer and the zero register.  Operands: src/arch/aarch64.rs:230-239, arm.rs:243-252, riscv64.rs:248-257. -/
def cloneTaken : Arch → List Reg
  | .aarch64 => [0, 1, 2, 3, 4, 8, 29, 31]
  | .arm => [0, 1, 2, 3, 4, 7, 11, 13, 15]
  | .riscv64 => [0, 2, 8, 10, 11, 12, 13, 14, 17]
  | _ => []

/-! ### `munmap_and_exit_thread` -/

/-- src/arch/x86_64.rs:285-290, x86.rs:373-380, aarch64.rs:277-282, arm.rs:291-296, riscv64.rs:296-301. -/
def exitCode : Arch → List Instr
  | .x86_64 => [.syscall, .li X86.di 0, .li X86.ax (nr .x86_64 .exit), .syscall, .trap]
  | .x86 => [.syscall, .li X86.bx 0, .li X86.ax (nr .x86 .exit), .syscall, .trap]
  | .aarch64 => [.syscall, .li 0 0, .li 8 (nr .aarch64 .exit), .syscall, .trap]
  | .arm => [.syscall, .li 0 0, .li 7 (nr .arm .exit), .syscall, .trap]
  | .riscv64 => [.syscall, .li 10 0, .li 17 (nr .riscv64 .exit), .syscall, .trap]

/-- Its operands: src/arch/x86_64.rs:291-296, x86.rs:381-386, aarch64.rs:283-288, arm.rs:297-302, riscv64.rs:302-307. -/
def exitSetup (a : Arch) (addr len : Nat) (c : Cpu) : Cpu :=
  match a with
  | .x86_64 => ((c.set X86.ax (nr .x86_64 .munmap)).set X86.di addr).set X86.si len
  | .x86 => ((c.set X86.ax (nr .x86 .munmap)).set X86.bx addr).set X86.cx len
  | .aarch64 => ((c.set 8 (nr .aarch64 .munmap)).set 0 addr).set 1 len
  | .arm => ((c.set 7 (nr .arm .munmap)).set 0 addr).set 1 len
  | .riscv64 => ((c.set 17 (nr .riscv64 .munmap)).set 10 addr).set 11 len

/-! ### `relocation_mprotect_readonly` -/

/-- The `asm!` and the check after it: src/arch/x86_64.rs:175-190, x86.rs:204-217, aarch64.rs:176-189, arm.rs:188-201,
riscv64.rs:194-207.  Ends in `fell` if the function returns, in `trapped` if it calls `trap`. -/
def protectCode : Arch → List Instr
  | .x86_64 | .x86 => [.syscall, .bz X86.ax, .trap]
  | .aarch64 | .arm => [.syscall, .bz 0, .trap]
  | .riscv64 => [.syscall, .bz 10, .trap]

/-- Its operands (same lines); `PROT_READ` is `1`.  (src/arch/x86_64.rs:175-190, x86.rs:204-217, aarch64.rs:176-189, arm.rs:188-201,
riscv64.rs:194-207.) -/
def protectSetup (a : Arch) (ptr len : Nat) (c : Cpu) : Cpu :=
  match a with
  | .x86_64 => (((c.set X86.ax (nr .x86_64 .mprotect)).set X86.di ptr).set X86.si len).set X86.dx 1
  | .x86 => (((c.set X86.ax (nr .x86 .mprotect)).set X86.bx ptr).set X86.cx len).set X86.dx 1
  | .aarch64 => (((c.set 8 (nr .aarch64 .mprotect)).set 0 ptr).set 1 len).set 2 1
  | .arm => (((c.set 7 (nr .arm .mprotect)).set 0 ptr).set 1 len).set 2 1
  | .riscv64 => (((c.set 17 (nr .riscv64 .mprotect)).set 10 ptr).set 11 len).set 12 1

/-! ### returning from signal handlers -/

/-- `return_from_signal_handler`: src/arch/x86_64.rs:313-315, x86.rs:403-405, aarch64.rs:305-307, arm.rs:319-321. -/
def sigreturnCode : Arch → List Instr
  | .x86_64 => [.li X86.ax (nr .x86_64 .rtSigreturn), .syscall, .trap]
  | .x86 => [.li X86.ax (nr .x86 .rtSigreturn), .syscall, .trap]
  | .aarch64 => [.li 8 (nr .aarch64 .rtSigreturn), .syscall, .trap]
  | .arm => [.li 7 (nr .arm .rtSigreturn), .syscall, .trap]
  | .riscv64 => []

/-- `return_from_signal_handler_noinfo`: src/arch/x86.rs:423-426, arm.rs:339-341; the same function on x86-64 and aarch64
(src/arch/x86_64.rs:329, aarch64.rs:321). -/
def sigreturnNoinfoCode : Arch → List Instr
  | .x86 => [.pop X86.ax, .li X86.ax (nr .x86 .sigreturn), .syscall, .trap]
  | .arm => [.li 7 (nr .arm .sigreturn), .syscall, .trap]
  | a => sigreturnCode a

/-! ### `sigaction` -/

/-- `SA_SIGINFO`, `SA_RESTORER` (Linux).  `SigactionFlags::SIGINFO`, src/signal/linux_raw.rs:27. -/
def SA_SIGINFO : BitVec 32 := 4#32
/-- `SigactionFlags::RESTORER` (Linux's `SA_RESTORER`), src/signal/linux_raw.rs:25. -/
def SA_RESTORER : BitVec 32 := 0x04000000#32

/-- The restorer functions.  src/signal/linux_raw.rs:28, 30. -/
inductive Restorer where
  /-- `return_from_signal_handler` -/
  | info
  /-- `return_from_signal_handler_noinfo` -/
  | noinfo
  /-- some other function -/
  | other (f : Nat)
deriving DecidableEq, Repr

/-- `KernelSigaction`; the mask is opaque.  (`sa_flags` is a `c_ulong`; all flags are in its low 32 bits.)  The type is imported from rustix:
src/signal/linux_raw.rs:8. -/
structure Action where
  handler : Nat
  flags : BitVec 32
  restorer : Option Restorer
  mask : Nat
deriving DecidableEq, Repr

/-- `sigaction`: src/signal/linux_raw.rs:19-35.  `k`: the kernel (`rustix::runtime::kernel_sigaction`). -/
def sigaction {R : Type} (a : Arch) (k : Nat → Option Action → R) (sig : Nat) (action : Option Action) : R :=
  let action := if a = .riscv64 then action else
    match action with
    | none => none
    | some x =>
      let x := { x with flags := x.flags ||| SA_RESTORER }
      if x.flags &&& SA_SIGINFO = SA_SIGINFO then some { x with restorer := some .info }
      else some { x with restorer := some .noinfo }
  k sig action

/-! ### `getauxval` -/

/-- `AT_HWCAP`, `AT_HWCAP2`, `AT_MINSIGSTKSZ`.  src/getauxval.rs:23. -/
def AT_HWCAP : Nat := 16
/-- src/getauxval.rs:24. -/
def AT_HWCAP2 : Nat := 26
/-- src/getauxval.rs:25. -/
def AT_MINSIGSTKSZ : Nat := 51

/-- `getauxval`: src/getauxval.rs:10-30; `none` is the `todo!` panic.  `as _` truncates to the constants' type `u32`.
`hwcap`, `hwcap2`, `minsigstksz`: what rustix took from the auxiliary vector. -/
def getauxval (hwcap hwcap2 minsigstksz type : Nat) : Option Nat :=
  let t := type % 2 ^ 32
  if t = AT_HWCAP then some hwcap
  else if t = AT_HWCAP2 then some hwcap2
  else if t = AT_MINSIGSTKSZ then some minsigstksz
  else none

end Origin.Asm
