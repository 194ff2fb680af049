import Verif.Spec.Layout
import Verif.Model.ThreadPtr
/-!
# C60: what a new thread finds when it starts
-/

namespace Origin.Asm.Spec
open Origin Origin.Asm Origin.Spec

/-- The arguments of the `clone` call among `calls`. -/
def cloneArgs : List Sys → Option CloneArgs
  | [] => none
  | .clone flags stack ptid ctid newtls fn n _ :: _ => some ⟨flags, stack, ptid, ctid, newtls, fn, n⟩
  | _ :: rest => cloneArgs rest

/-- What the kernel does for `clone` with the arguments `g`, seen from the new thread, numbered `tid`: the call returns 0 on the given stack, with the
caller's other registers; and in the range `new` memory is the caller's, with the new id stored where the flags and pointers ask for it. -/
structure NewThread (c : Cfg) (g : CloneArgs) (tid : Nat) (new : Range) (k : Cpu → (Reg → Nat) × Mem) : Prop where
  ret : ∀ cpu, CloneRequest c.arch cpu.mem cpu.reg g → (k cpu).1 (retReg c.arch) = 0
  stack : ∀ cpu, CloneRequest c.arch cpu.mem cpu.reg g → (k cpu).1 (spReg c.arch) = cpu.reg (argReg c.arch 1)
  regs : ∀ cpu, CloneRequest c.arch cpu.mem cpu.reg g →
    ∀ r, r ≠ retReg c.arch → r ≠ spReg c.arch → r ∉ clobbered c.arch → (k cpu).1 r = cpu.reg r
  mem : ∀ cpu, CloneRequest c.arch cpu.mem cpu.reg g →
    ∀ x, new.Has x → (k cpu).2 x = kernelClone c.endian cpu.mem g.flags g.parentTid g.childTid tid x

/-- The ABI's offset, from the thread pointer, of the start of the executable's TLS block (`abiTlsStart`), as a word. -/
def abiTlsOffset (a : Arch) (memSize align : Nat) : Nat :=
  match a with
  | .x86_64 | .x86 => (2 ^ (8 * a.ws) - natRoundUp memSize align) % 2 ^ (8 * a.ws)
  | .aarch64 => natRoundUp 16 align
  | .arm => natRoundUp 8 align
  | .riscv64 => 0

/-- The state of the machine when a thread's entry function is entered, `cpu` being its registers and memory, `tp` its thread-pointer state:
the thread has been created with the function `fn`, the arguments `argv`, and the sizes `ss` and `gs`; its handle is `t` and its id is `tid`.
`m`: memory when `create` was called, `tp0`: the creating thread's thread-pointer state.  `space`: what is mapped. -/
structure Ready (c : Cfg) (m : Mem) (tp0 : Tp) (space : Space) (fn : Nat) (argv : List Nat) (ss gs t tid : Nat) (cpu : Cpu) (tp : Tp) : Prop where
  /-- The entry function's arguments: the function to run, the arguments, their number. -/
  fn : fnArg c.arch cpu 0 = fn
  args : ∀ i (hi : i < argv.length), ldN .little c.ws cpu.mem (fnArg c.arch cpu 1 + c.ws * i) = argv[i]
  numArgs : fnArg c.arch cpu 2 = argv.length
  /-- It is the outermost function. -/
  root : retAddr c.arch cpu = 0 ∧ cpu.reg (fpReg c.arch) = 0
  aligned : c.arch ≠ .arm → EntryAligned c.arch (cpu.reg (spReg c.arch))
  wordAligned : cpu.reg (spReg c.arch) % 4 = 0
  /-- The stack is the one that `stack(t)` reports: of the size asked for, all of it accessible, the guard below it inaccessible, and all of it
  free, but for the arguments and 35 bytes. -/
  stack : ∃ base, stackOf c cpu.mem t = (base, ss, gs) ∧ gs + c.page ≤ base ∧ (⟨base, ss⟩ : Range).AllPerm space .readWrite ∧
    (⟨base - gs, gs⟩ : Range).AllPerm space .inaccessible ∧ base + ss ≤ cpu.reg (spReg c.arch) + c.ws * argv.length + 35 ∧
    cpu.reg (spReg c.arch) < base + ss + 16
  /-- `current()` is the handle, the thread's id is the kernel's. -/
  current : ∃ p, threadPointer c.arch cpu.mem tp = some p ∧ Origin.current c p = t ∧ currentId c cpu.mem p = tid
  /-- At the offsets that the compiler uses are the thread's own copies of the thread-local variables, with their initial values. -/
  tls : c.arch = .x86_64 ∨ c.arch = .x86 ∨ ((c.arch = .aarch64 ∨ c.arch = .riscv64) ∧ c.tls.align ≤ 8) → ∀ i, i < c.tls.memSize →
    ∃ x, tlsAccess c.arch tp ((abiTlsOffset c.arch c.tls.memSize c.tls.align + i) % 2 ^ (8 * c.ws)) = some x ∧
      cpu.mem x = if i < c.tls.fileSize then m (c.tls.addr + i) else 0
  /-- The stack-protector canary that compiled code finds is the creating thread's. -/
  canary : ∀ o, abiCanaryOffset c.arch = some o → ∃ x x0, tlsAccess c.arch tp o = some x ∧ tlsAccess c.arch tp0 o = some x0 ∧
    ldN .little c.ws cpu.mem x = ldN .little c.ws m x0

end Origin.Asm.Spec
