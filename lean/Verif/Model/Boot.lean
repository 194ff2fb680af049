import Verif.Model.Relocate
/-!
# Program start, as a whole

Models `entry` and `init_runtime` of src/program/linux_raw.rs (lines 49-164, 206-219) in bytes of memory: the pieces (`compute_args`, `relocate`,
`initialize_startup_info`, `initialize_main`) are those of `Model/Startup.lean`, `Relocate.lean` and `Layout.lean`.  What `origin_main` and `exit` do
afterwards, and calls of constructors that do not return, are the subject of `Model/Process.lean`.
-/

namespace Origin.Elf
open Boot (Args computeArgs)

/-- The program, its features, and what the kernel and `rustix` answer.  Features: src/program/linux_raw.rs:97-98, 107; rustix and kernel:
src/thread/linux_raw.rs:246, 330-347, 355-380; symbols: src/program/linux_raw.rs:115-116. -/
structure Program where
  arch : Arch
  /-- layout of `ThreadData` -/
  tl : ThreadLayout
  img : Image
  /-- features `experimental-relocate` and `origin-start`, and a position-independent program: src/program/linux_raw.rs:97-98 -/
  selfRelocate : Bool
  /-- the kernel's answer to `mprotect(addr, len, PROT_READ)` -/
  ok : Nat → Nat → Bool
  /-- `exe_phdrs()`: `AT_PHDR`, `AT_PHENT`, `AT_PHNUM` -/
  phdr : Nat
  phent : Nat
  phnum : Nat
  /-- `page_size()` -/
  page : Nat
  /-- the end of the string `AT_EXECFN` -/
  execfnEnd : Nat
  /-- `AT_RANDOM` -/
  randomPtr : Nat
  /-- `getrlimit(Stack)`; `none`: unlimited -/
  stackLimit : Option Nat
  /-- where `mmap` puts the main thread's data -/
  map : Nat
  tid : Nat
  /-- the padding bytes of `Metadata` -/
  junk : Nat → Byte
  /-- feature `init-array` -/
  initArray : Bool
  /-- `__init_array_start`, `__init_array_end` -/
  initStart : Nat
  initEnd : Nat
  /-- what the function at an address does to memory when called with these arguments -/
  ctor : Nat → Args → Mem → Mem

/-- The process when `origin_main` is called: the calls of constructors made (function, arguments), the arguments `origin_main` gets, memory before the
first constructor and now, the thread pointer, the stack protector's canary.  The call: src/program/linux_raw.rs:155. -/
structure AtMain where
  ctors : List (Nat × Args)
  args : Args
  before : Mem
  mem : Mem
  tp : Nat
  canary : Nat

/-- How `entry` goes: `origin_main` is called; `relocate` trapped; `initialize_main` panicked.  src/program/linux_raw.rs:155; src/relocate.rs:227,
250, 355; src/thread/linux_raw.rs:339, 361. -/
inductive Entered where
  | main (r : AtMain)
  | trapped
  | panicked

/-- The `.init_array` loop: src/program/linux_raw.rs:129-142 (`init.add(1)` is in bounds). -/
def initLoop (b : Program) (a : Args) : Nat → Nat → Mem → Option (List (Nat × Args) × Mem)
  | 0, _, _ => none
  | fuel + 1, p, m =>
    if p = b.initEnd then some ([], m)
    else
      let f := b.img.ld m p
      (initLoop b a fuel (p + b.img.ws) (b.ctor f a m)).map fun (l, m) => ((f, a) :: l, m)

/-- `init_runtime`: src/program/linux_raw.rs:206-219 (feature `thread`); the configuration is what `initialize_startup_info` finds. -/
def initRuntime (b : Program) (fuel : Nat) (m : Mem) (sp : Nat) : Option (Option MainOut) :=
  (initializeStartupInfo b.img m fuel b.phdr b.phent b.phnum).map fun info =>
    let c : Cfg := { arch := b.arch, endian := b.img.endian, page := b.page, tls := info.tls, startupStackSize := info.stackSize, tl := b.tl }
    initializeMain c m b.junk { sp := sp, execfnEnd := b.execfnEnd, stackLimit := b.stackLimit, random := b.img.ld m b.randomPtr, map := b.map, tid := b.tid }

/-- src/program/linux_raw.rs:96-101. -/
def relocateStep (b : Program) (fuel : Nat) (m : Mem) (envp : Nat) : Option Out :=
  if b.selfRelocate then relocate b.img b.ok fuel m envp else some (.done ⟨m, [], []⟩)

/-- src/program/linux_raw.rs:106-143. -/
def initStep (b : Program) (a : Args) (fuel : Nat) (m : Mem) : Option (List (Nat × Args) × Mem) :=
  if b.initArray then initLoop b a fuel b.initStart m else some ([], m)

/-- `entry`: src/program/linux_raw.rs:49-155, with the initial stack at `sp`. -/
def entry (b : Program) (fuel : Nat) (m : Mem) (sp : Nat) : Option Entered :=
  let a := computeArgs b.img.ws (fun x => wordAt b.img.endian b.img.ws m x) sp
  (relocateStep b fuel m a.envp).bind fun o =>
  match o with
  | .trap _ => some .trapped
  | .done s =>
    (initRuntime b fuel s.mem sp).bind fun o =>
    match o with
    | none => some .panicked
    | some out =>
      (initStep b a fuel out.mem).bind fun (l, m') =>
      some (.main { ctors := l, args := a, before := out.mem, mem := m', tp := out.tp, canary := out.guardVar })

end Origin.Elf
