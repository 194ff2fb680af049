import Verif.Model.Layout
/-!
# Vocabulary for the thread-memory properties
-/

namespace Origin.Spec
open Origin

/-- A range of addresses `[lo, lo + len)`. -/
structure Range where
  lo : Nat
  len : Nat

/-- `x` is in the range. -/
def Range.Has (r : Range) (x : Nat) : Prop := r.lo ≤ x ∧ x < r.lo + r.len

/-- `r` lies inside `q`. -/
def Range.In (r q : Range) : Prop := q.lo ≤ r.lo ∧ r.lo + r.len ≤ q.lo + q.len

/-- No common address. -/
def Range.Disj (r q : Range) : Prop := r.lo + r.len ≤ q.lo ∨ q.lo + q.len ≤ r.lo

/-- Every byte of the range has permission `p`. -/
def Range.AllPerm (r : Range) (s : Space) (p : Perm) : Prop := ∀ x, r.Has x → s x = p

/-- Where the parts of a thread's memory are, as offsets from the start of its mapping. -/
structure Areas where
  /-- the stack, above the guard area -/
  stackLo : Nat
  stackHi : Nat
  /-- the TLS block -/
  tls : Nat
  /-- the record, `Metadata` -/
  record : Nat
  /-- the end of all -/
  stop : Nat

/-- The arrangement, in unbounded arithmetic: above the stack, the TLS block with the record right after it (x86, x86-64), or the record with the TLS
block after it (the others); the first of the two is aligned for both, and the TLS block, the size of which is rounded up to a multiple of its
alignment, is aligned. -/
def areasFrom (c : Cfg) (stackLo stackHi : Nat) : Areas :=
  let first := natRoundUp stackHi (max c.tls.align (metaAlign c.arch))
  match c.arch with
  | .x86_64 | .x86 =>
    let record := first + natRoundUp c.tls.memSize c.tls.align
    ⟨stackLo, stackHi, first, record, record + metaSize c.arch c.tl⟩
  | .aarch64 | .arm | .riscv64 =>
    let tls := natRoundUp (first + metaSize c.arch c.tl) c.tls.align
    ⟨stackLo, stackHi, tls, first, tls + natRoundUp c.tls.memSize c.tls.align⟩

/-- The memory of a thread made by `create`: a guard area of whole pages, then a stack of a multiple of 16 bytes, then TLS block and record. -/
def areas (c : Cfg) (stackSize guardSize : Nat) : Areas :=
  let guard := natRoundUp guardSize c.page
  areasFrom c guard (guard + natRoundUp stackSize 16)

/-- The memory of the main thread (its stack is elsewhere). -/
def mainAreas (c : Cfg) : Areas := areasFrom c 0 0

/-- A process configuration that can occur: the page size is a power of two of at least 4 KiB (and no larger than an eighth of the
address space), the TLS alignment is a power of two not exceeding it (the ELF rules plus the crate's own assertion,
src/thread/linux_raw.rs:398), the TLS file part is not larger than the memory part, and the compiler's `ThreadData` layout is a valid one. -/
structure CfgOk (c : Cfg) : Prop where
  layout : c.tl.Valid c.arch
  pagePow : ∃ k, c.page = 2 ^ k
  pageMin : 4096 ≤ c.page
  pageMax : 8 * c.page ≤ umax c.ws
  tlsPow : ∃ k, c.tls.align = 2 ^ k
  tlsAlignLe : c.tls.align ≤ c.page
  tlsSizes : c.tls.fileSize ≤ c.tls.memSize

/-- The thread's memory is smaller than the address space. -/
def Fits (c : Cfg) (stackSize guardSize : Nat) : Prop := (areas c stackSize guardSize).stop < umax c.ws

/-- A call `create(fn, args, stackSize, guardSize)` from a thread with thread pointer `tp`, on an address
space `s` and memory `m`, in which all three system calls succeed, `mmap` placing the region at `map`
and `clone` answering `tid`: the sizes do not overflow and the program's TLS image is mapped memory. -/
structure Started (c : Cfg) (s : Space) (k : Answers) (args : List Nat)
    (stackSize guardSize map tid : Nat) : Prop where
  cfg : CfgOk c
  fits : Fits c stackSize guardSize
  mmapOk : k.mmap = .ok map
  mprotectOk : k.mprotect = .ok ()
  cloneOk : k.clone = (tid : Int)
  tidPos : 0 < tid
  tidLt : tid < 2 ^ 31
  kernel : MmapOk c s (areas c stackSize guardSize).stop map
  argsWords : ∀ v ∈ args, v < umax c.ws
  image : ∀ i, i < c.tls.fileSize → s (c.tls.addr + i) ≠ .unmapped

/-- Such a call where the arguments fit in the requested stack. -/
structure Creation (c : Cfg) (s : Space) (k : Answers) (args : List Nat)
    (stackSize guardSize map tid : Nat) : Prop extends Started c s k args stackSize guardSize map tid where
  argsFit : c.ws * args.length ≤ stackSize

/-- The new thread's TLS block. -/
def tlsBlock (c : Cfg) (stackSize guardSize map : Nat) : Range :=
  ⟨map + (areas c stackSize guardSize).tls, c.tls.memSize⟩

/-- The new thread's record, `Metadata`. -/
def record (c : Cfg) (stackSize guardSize map : Nat) : Range :=
  ⟨map + (areas c stackSize guardSize).record, metaSize c.arch c.tl⟩

/-- The thread-pointer register the kernel gives the new thread: the `newtls` argument of the `clone`
call among `calls`. -/
def newThreadPointer : List Sys → Option Nat
  | [] => none
  | .clone _ _ _ _ newtls _ _ _ :: _ => some newtls
  | _ :: rest => newThreadPointer rest

/-- The stack pointer and argument count the child starts with. -/
def childStart : List Sys → Option (Nat × Nat × Nat)
  | [] => none
  | .clone _ sp _ _ _ fn n _ :: _ => some (sp, fn, n)
  | _ :: rest => childStart rest

/-- Where the ELF TLS ABI puts the executable's TLS block, relative to the thread pointer
(Drepper, "ELF Handling For Thread-Local Storage", and the psABIs): variant II on x86, variant I with a
two-word TCB on aarch64/arm, and directly at the thread pointer on riscv. -/
def abiTlsStart (a : Arch) (tp memSize align : Nat) : Nat :=
  match a with
  | .x86_64 | .x86 => tp - natRoundUp memSize align
  | .aarch64 => tp + natRoundUp 16 align
  | .arm => tp + natRoundUp 8 align
  | .riscv64 => tp

/-- The bias the psABI gives `__tls_get_addr` offsets: the linker stores the offset into the module's TLS block minus this
(RISC-V ELF psABI, `TLS_DTV_OFFSET`; no bias on the other targets). -/
def abiDtvOffset : Arch → Nat
  | .riscv64 => 0x800
  | .x86_64 | .x86 | .aarch64 | .arm => 0

end Origin.Spec

namespace Origin.Spec
open Origin

/-- A call of `initialize_main` at process start: the kernel's initial stack pointer lies in the main
stack (below the page-rounded end of the executable-name string, at most the stack limit below it), its
`mmap` succeeds at `i.map`, and the TLS image is mapped. -/
structure MainStart (c : Cfg) (s : Space) (i : MainIn) (limit : Nat) : Prop where
  cfg : CfgOk c
  limitIs : i.stackLimit = some limit
  topFits : i.execfnEnd + c.page < umax c.ws
  limitLe : limit ≤ natRoundUp i.execfnEnd c.page
  spLow : natRoundUp i.execfnEnd c.page - limit < i.sp
  spHigh : i.sp < natRoundUp i.execfnEnd c.page
  kernel : MmapOk c s (mainAreas c).stop i.map
  randomLt : i.random < umax c.ws
  tidPos : 0 < i.tid
  tidLt : i.tid < 2 ^ 31
  image : ∀ j, j < c.tls.fileSize → s (c.tls.addr + j) ≠ .unmapped

/-- The main thread's TLS block; its memory is at `map`. -/
def mainTlsBlock (c : Cfg) (map : Nat) : Range := ⟨map + (mainAreas c).tls, c.tls.memSize⟩

/-- The main thread's record. -/
def mainRecord (c : Cfg) (map : Nat) : Range := ⟨map + (mainAreas c).record, metaSize c.arch c.tl⟩

/-- Offset from the thread pointer at which compiled code finds the stack-protector canary, on the
targets where it is in the thread control block (x86-64: `%fs:40`, i386: `%gs:20`). -/
def abiCanaryOffset : Arch → Option Nat
  | .x86_64 => some 40
  | .x86 => some 20
  | _ => none

end Origin.Spec
