import Verif.Model.Usize
import Verif.Spec.Mem
/-!
# Thread memory: `src/thread/linux_raw.rs`

Struct layouts, `calculate_tls_size`, `initialize_tls`, `create`, `initialize_main`,
`current_metadata`, `current`, `current_tls_addr`, `stack`, `free_memory` and the size defaults, for
the five supported architectures.

Simplifications, beyond the per-definition ones:
* memory is a total map of bytes; permissions live in a separate `Space`;
* `ThreadData` has Rust's unspecified layout, so its size and field offsets are parameters
  (`ThreadLayout`), constrained only by `ThreadLayout.Valid`;
* log output (`feature = "log"`) is not modelled;
* addresses and sizes are `usize` values with release-build wrap-around (`uadd` …).
-/

namespace Origin

/-- The supported `target_arch` values: src/arch/*.rs.  Selected in src/lib.rs:34-39. -/
inductive Arch where
  | x86_64 | x86 | aarch64 | arm | riscv64
deriving DecidableEq, Repr

/-- `size_of::<usize>()`.  (`WORD_SIZE`, src/mem/impls.rs:7; pointer-sized fields, src/thread/linux_raw.rs:92-203.) -/
def Arch.ws : Arch → Nat
  | .x86 | .arm => 4
  | _ => 8

/-- The targets of the `cfg(any(target_arch = "aarch64", "arm", "riscv64"))` attributes
(TLS data above the record): src/thread/linux_raw.rs:137, 413-426, 1022-1029. -/
def Arch.variantI : Arch → Bool
  | .aarch64 | .arm | .riscv64 => true
  | .x86_64 | .x86 => false

/-- `STACK_ALIGNMENT`: src/arch/x86_64.rs:196, x86.rs:223, aarch64.rs:195, arm.rs:207,
riscv64.rs:213. -/
def Arch.stackAlignment : Arch → Nat
  | .arm => 4
  | _ => 16

/-- `TLS_OFFSET`: src/arch/x86_64.rs:277, x86.rs:365, aarch64.rs:269, arm.rs:283,
riscv64.rs:288. -/
def Arch.tlsOffset : Arch → Nat
  | .riscv64 => 0x800
  | _ => 0

/-! ### `repr(C)` layout -/

/-- A field of a struct declaration: name, size, alignment.  (Declarations: src/thread/linux_raw.rs:133-203.) -/
structure FieldDecl (α : Type) where
  name : α
  size : Nat
  align : Nat

/-- The `repr(C)` rule: each field goes at the next multiple of its alignment.  Returns the offset of
each field and the end of the last one.  (`#[repr(C)]`, src/thread/linux_raw.rs:134, 153.) -/
def layoutFrom {α : Type} : Nat → List (FieldDecl α) → List (α × Nat) × Nat
  | off, [] => ([], off)
  | off, f :: fs =>
    let o := natRoundUp off f.align
    let r := layoutFrom (o + f.size) fs
    ((f.name, o) :: r.1, r.2)

/-- Offset of field `x`.  (`#[repr(C)]`, src/thread/linux_raw.rs:134, 153.) -/
def fieldOff {α : Type} [DecidableEq α] (fs : List (FieldDecl α)) (x : α) : Nat :=
  ((layoutFrom 0 fs).1.lookup x).getD 0

/-- Size of a struct of alignment `al`.  (`#[repr(C)]`, src/thread/linux_raw.rs:134, 153.) -/
def structSize {α : Type} (al : Nat) (fs : List (FieldDecl α)) : Nat :=
  natRoundUp (layoutFrom 0 fs).2 al

/-- Names of the fields of `Abi`.  src/thread/linux_raw.rs:155-203. -/
inductive AbiField where
  | pointee | canary | dtv | pad | this
deriving DecidableEq, Repr

/-- `struct Abi`, in declaration order: src/thread/linux_raw.rs:153-203. -/
def abiFields (a : Arch) : List (FieldDecl AbiField) :=
  let w := a.ws
  match a with
  | .x86_64 | .x86 =>
    [⟨.pointee, 0, 1⟩, ⟨.this, w, w⟩, ⟨.dtv, w, w⟩, ⟨.pad, 3 * w, w⟩, ⟨.canary, w, w⟩]
  | .aarch64 | .arm =>
    [⟨.canary, w, w⟩, ⟨.pointee, 0, 1⟩, ⟨.dtv, w, w⟩, ⟨.pad, 1 * w, w⟩]
  | .riscv64 =>
    [⟨.canary, w, w⟩, ⟨.dtv, w, w⟩, ⟨.pointee, 0, 1⟩, ⟨.pad, 0 * w, w⟩]

/-- `align_of::<Abi>()`: the word size, or 8 on arm (`repr(align(8))`):
src/thread/linux_raw.rs:153-154. -/
def abiAlign : Arch → Nat
  | .arm => 8
  | a => a.ws

/-- `size_of::<Abi>()`.  src/thread/linux_raw.rs:153-203. -/
def abiSize (a : Arch) : Nat := structSize (abiAlign a) (abiFields a)

/-- `offset_of!(Abi, f)`.  src/thread/linux_raw.rs:153-203. -/
def abiOff (a : Arch) (f : AbiField) : Nat := fieldOff (abiFields a) f

/-- Size and field offsets of `ThreadData`, chosen by the compiler:
src/thread/linux_raw.rs:89-106. -/
structure ThreadLayout where
  size : Nat
  tid : Nat
  detached : Nat
  stackAddr : Nat
  stackSize : Nat
  guardSize : Nat
  mapSize : Nat
  returnValue : Nat
  /-- `errno_val`, there only with the feature `unstable-errno`. -/
  errno : Option Nat := none

/-- The extent of `errno_val: Cell<i32>`, if the feature is on.  src/thread/linux_raw.rs:94-95. -/
def ThreadLayout.errnoExtent (t : ThreadLayout) : List (Nat × Nat) :=
  match t.errno with
  | none => []
  | some o => [(o, 4)]

/-- The fields of `ThreadData` the model names, with their sizes
(`AtomicI32`, `AtomicU8`, word-sized ones, and the optional `Cell<i32>`).  Not named: `dtors`, whose
contents the lifecycle model has.  src/thread/linux_raw.rs:92-106. -/
def ThreadLayout.extents (a : Arch) (t : ThreadLayout) : List (Nat × Nat) :=
  [(t.tid, 4), (t.detached, 1), (t.stackAddr, a.ws), (t.stackSize, a.ws), (t.guardSize, a.ws),
   (t.mapSize, a.ws), (t.returnValue, a.ws)] ++ t.errnoExtent

/-- What the Rust reference guarantees of any struct layout: fields are inside, disjoint and aligned,
and the size is a multiple of the alignment (here the word size: the struct contains pointers and
nothing of larger alignment).  (For `ThreadData`, src/thread/linux_raw.rs:92-106.) -/
structure ThreadLayout.Valid (a : Arch) (t : ThreadLayout) : Prop where
  inside : ∀ f ∈ t.extents a, f.1 + f.2 ≤ t.size
  aligned : ∀ f ∈ t.extents a, f.2 ∣ f.1
  disjoint : (t.extents a).Pairwise fun f g => f.1 + f.2 ≤ g.1 ∨ g.1 + g.2 ≤ f.1
  sizeAligned : a.ws ∣ t.size

/-- Names of the fields of `Metadata`.  src/thread/linux_raw.rs:135-148. -/
inductive MetaField where
  | thread | abi
deriving DecidableEq, Repr

/-- `struct Metadata`, in declaration order: src/thread/linux_raw.rs:132-148. -/
def metaFields (a : Arch) (t : ThreadLayout) : List (FieldDecl MetaField) :=
  if a.variantI then [⟨.thread, t.size, a.ws⟩, ⟨.abi, abiSize a, abiAlign a⟩]
  else [⟨.abi, abiSize a, abiAlign a⟩, ⟨.thread, t.size, a.ws⟩]

/-- `align_of::<Metadata>()`.  src/thread/linux_raw.rs:134-148; used in lines 364, 395. -/
def metaAlign (a : Arch) : Nat := max a.ws (abiAlign a)

/-- `size_of::<Metadata>()`.  src/thread/linux_raw.rs:134-148. -/
def metaSize (a : Arch) (t : ThreadLayout) : Nat := structSize (metaAlign a) (metaFields a t)

/-- `offset_of!(Metadata, f)`.  src/thread/linux_raw.rs:134-148. -/
def metaOff (a : Arch) (t : ThreadLayout) (f : MetaField) : Nat := fieldOff (metaFields a t) f

/-! ### configuration of one process -/

/-- `StartupTlsInfo`: src/thread/linux_raw.rs:219-232. -/
structure TlsInfo where
  addr : Nat
  memSize : Nat
  fileSize : Nat
  align : Nat

/-- Everything fixed during a run: target, page size, `STARTUP_TLS_INFO`, `STARTUP_STACK_SIZE`, the
compiler's `ThreadData` layout.  src/thread/linux_raw.rs:209-234 (the statics), 92-106 (`ThreadData`). -/
structure Cfg where
  arch : Arch
  endian : Endian
  page : Nat
  tls : TlsInfo
  startupStackSize : Nat
  tl : ThreadLayout

/-- Word size.  (`usize`, src/thread/linux_raw.rs:389-390.) -/
abbrev Cfg.ws (c : Cfg) : Nat := c.arch.ws

/-! ### `calculate_tls_size` -/

/-- Result of `calculate_tls_size`: the updated `*map_size`, and the returned pair.  src/thread/linux_raw.rs:386-428. -/
structure TlsSize where
  mapSize : Nat
  tlsBottom : Nat
  header : Nat

/-- `calculate_tls_size`: src/thread/linux_raw.rs:386-428. -/
def calculateTlsSize (c : Cfg) (mapSize : Nat) : TlsSize :=
  let metadataAlign := max c.tls.align (metaAlign c.arch)
  let m0 := roundUp c.ws mapSize metadataAlign
  if c.arch.variantI then
    let header := m0
    let m1 := uadd c.ws m0 (metaSize c.arch c.tl)
    let m2 := roundUp c.ws m1 c.tls.align
    let m3 := uadd c.ws m2 (roundUp c.ws c.tls.memSize c.tls.align)
    { mapSize := m3, tlsBottom := m2, header := header }
  else
    let m1 := uadd c.ws m0 (roundUp c.ws c.tls.memSize c.tls.align)
    let m2 := uadd c.ws m1 (metaSize c.arch c.tl)
    { mapSize := m2, tlsBottom := m0, header := m1 }

/-! ### typed stores -/

/-- Store the low `n` bytes of `v` at `a`.  Not in /repo: a typed store, as in src/thread/linux_raw.rs:442-452, 380. -/
def stN (e : Endian) (n : Nat) (m : Mem) (a v : Nat) : Mem :=
  fun x => if a ≤ x ∧ x < a + n then byteOf e (BitVec.ofNat (8 * n) v) (x - a) else m x

/-- Load an `n`-byte unsigned value.  Not in /repo: a typed load, as in src/thread/linux_raw.rs:346, 534. -/
def ldN (e : Endian) (n : Nat) (m : Mem) (a : Nat) : Nat := (wordAt e n m a).toNat

/-- One field of a struct value: offset, size, value.  (As in src/thread/linux_raw.rs:442-452.) -/
structure FieldVal where
  off : Nat
  size : Nat
  val : Nat

/-- Store the fields of a struct value at `base`.  (src/thread/linux_raw.rs:442-452.) -/
def stFields (e : Endian) (base : Nat) : Mem → List FieldVal → Mem
  | m, [] => m
  | m, f :: fs => stFields e base (stN e f.size m (base + f.off) f.val) fs

/-- Typed write of a struct of `size` bytes: padding and fields the model does not name get
unspecified bytes `junk`, the named fields their values.  (`metadata.write`, src/thread/linux_raw.rs:442-452.) -/
def writeStruct (e : Endian) (m : Mem) (base size : Nat) (junk : Nat → Byte) (fs : List FieldVal) : Mem :=
  stFields e base (fun x => if base ≤ x ∧ x < base + size then junk x else m x) fs

/-- Values of the ABI fields (offsets within `Abi`): src/thread/linux_raw.rs:443-450.
`_pad` is zero (`Default::default()`); its words are written one by one. -/
def abiVals (a : Arch) (canary newtls : Nat) : List FieldVal :=
  let w := a.ws
  match a with
  | .x86_64 | .x86 =>
    [⟨abiOff a .this, w, newtls⟩, ⟨abiOff a .dtv, w, 0⟩, ⟨abiOff a .pad, w, 0⟩,
     ⟨abiOff a .pad + w, w, 0⟩, ⟨abiOff a .pad + 2 * w, w, 0⟩, ⟨abiOff a .canary, w, canary⟩]
  | .aarch64 | .arm =>
    [⟨abiOff a .canary, w, canary⟩, ⟨abiOff a .dtv, w, 0⟩, ⟨abiOff a .pad, w, 0⟩]
  | .riscv64 =>
    [⟨abiOff a .canary, w, canary⟩, ⟨abiOff a .dtv, w, 0⟩]

/-- `INITIAL`: src/thread/linux_raw.rs:109. -/
def INITIAL : Nat := 0
/-- `DETACHED`: src/thread/linux_raw.rs:110. -/
def DETACHED : Nat := 1
/-- `ABANDONED`: src/thread/linux_raw.rs:111. -/
def ABANDONED : Nat := 2

/-- `errno_val: Cell::new(0)`, if the feature is on.  src/thread/linux_raw.rs:118-119. -/
def errnoVals (t : ThreadLayout) : List FieldVal :=
  match t.errno with
  | none => []
  | some o => [⟨o, 4, 0⟩]

/-- `ThreadData::new` (offsets within `ThreadData`): src/thread/linux_raw.rs:113-130. -/
def threadVals (a : Arch) (t : ThreadLayout) (stackAddr stackSize guardSize mapSize : Nat) :
    List FieldVal :=
  [⟨t.tid, 4, 0⟩, ⟨t.detached, 1, INITIAL⟩, ⟨t.stackAddr, a.ws, stackAddr⟩,
   ⟨t.stackSize, a.ws, stackSize⟩, ⟨t.guardSize, a.ws, guardSize⟩, ⟨t.mapSize, a.ws, mapSize⟩,
   ⟨t.returnValue, a.ws, 0⟩] ++ errnoVals t

/-- Shift field offsets.  (The fields of `abi` and `thread` in `Metadata`: src/thread/linux_raw.rs:442-452.) -/
def shiftVals (d : Nat) (fs : List FieldVal) : List FieldVal := fs.map fun f => { f with off := d + f.off }

/-- `Metadata` value: src/thread/linux_raw.rs:442-452. -/
def metaVals (a : Arch) (t : ThreadLayout) (canary newtls stackAddr stackSize guardSize mapSize : Nat) :
    List FieldVal :=
  shiftVals (metaOff a t .abi) (abiVals a canary newtls) ++
  shiftVals (metaOff a t .thread) (threadVals a t stackAddr stackSize guardSize mapSize)

/-! ### `initialize_tls` -/

/-- Address of `(*metadata).abi.thread_pointee`.  src/thread/linux_raw.rs:439. -/
def pointeeAddr (c : Cfg) (metadata : Nat) : Nat :=
  uadd c.ws metadata (metaOff c.arch c.tl .abi + abiOff c.arch .pointee)

/-- Address of `(*metadata).thread`.  src/thread/linux_raw.rs:469, 608 (`&mut (*metadata).thread`). -/
def threadAddr (c : Cfg) (metadata : Nat) : Nat := uadd c.ws metadata (metaOff c.arch c.tl .thread)

/-- `initialize_tls`: src/thread/linux_raw.rs:430-472.  Returns the new memory, `newtls` and
`thread_id_ptr`.  `copy_from_slice` and `fill` are the memory functions' contracts
(C01, C03): `Spec.moved`, `Spec.filled`. -/
def initializeTls (c : Cfg) (m : Mem) (junk : Nat → Byte)
    (tlsData metadata canary stackLeast stackSize guardSize mapSize : Nat) : Mem × Nat × Nat :=
  let newtls := pointeeAddr c metadata
  let m := writeStruct c.endian m metadata (metaSize c.arch c.tl) junk
    (metaVals c.arch c.tl canary newtls stackLeast stackSize guardSize mapSize)
  let m := Spec.moved m tlsData c.tls.addr c.tls.fileSize
  let m := Spec.filled m (uadd c.ws tlsData c.tls.fileSize) (c.tls.memSize - c.tls.fileSize) 0
  (m, newtls, uadd c.ws (threadAddr c metadata) c.tl.tid)

/-! ### current thread -/

/-- `current_metadata`: src/thread/linux_raw.rs:940-946; `tp` is the thread-pointer register. -/
def currentMetadata (c : Cfg) (tp : Nat) : Nat :=
  uwsub c.ws tp (metaOff c.arch c.tl .abi + abiOff c.arch .pointee)

/-- `current`: src/thread/linux_raw.rs:949-955. -/
def current (c : Cfg) (tp : Nat) : Nat := threadAddr c (currentMetadata c tp)

/-- `errno_location`: src/thread/linux_raw.rs:1007-1011; `none` if the feature `unstable-errno` is off
(the function does not exist then). -/
def errnoLocation (c : Cfg) (tp : Nat) : Option Nat :=
  c.tl.errno.map fun o => uadd c.ws (threadAddr c (currentMetadata c tp)) o

/-- `current_tls_addr`: src/thread/linux_raw.rs:1015-1042; `none` is the failed assertion. -/
def currentTlsAddr (c : Cfg) (tp module offset : Nat) : Option Nat :=
  if module = 1 then
    if c.arch.variantI then
      some (uadd c.ws (uadd c.ws (uadd c.ws tp (abiSize c.arch - abiOff c.arch .pointee))
        c.arch.tlsOffset) offset)
    else
      some (uadd c.ws (uadd c.ws (uwsub c.ws tp c.tls.memSize) c.arch.tlsOffset) offset)
  else none

/-- `Thread::from_raw`: src/thread/linux_raw.rs:47-49; `none` is the `unwrap` panic. -/
def fromRaw (raw : Nat) : Option Nat := if raw = 0 then none else some raw

/-- `Thread::to_raw`: src/thread/linux_raw.rs:74-76. -/
def toRaw (t : Nat) : Nat := t

/-- `id`: src/thread/linux_raw.rs:1051-1054, `ThreadId::from_raw` maps 0 to `None`. -/
def idOf (c : Cfg) (m : Mem) (t : Nat) : Option Nat :=
  let raw := ldN c.endian 4 m (uadd c.ws t c.tl.tid)
  if raw = 0 then none else some raw

/-- `current_id`: src/thread/linux_raw.rs:963-973 (`from_raw_unchecked`). -/
def currentId (c : Cfg) (m : Mem) (tp : Nat) : Nat :=
  ldN c.endian 4 m (uadd c.ws (current c tp) c.tl.tid)

/-- `set_current_id_after_a_fork`: src/thread/linux_raw.rs:989-1002 (release build). -/
def setCurrentIdAfterAFork (c : Cfg) (m : Mem) (tp tid : Nat) : Mem :=
  stN c.endian 4 m (uadd c.ws (current c tp) c.tl.tid) tid

/-- `stack`: src/thread/linux_raw.rs:1064-1067. -/
def stackOf (c : Cfg) (m : Mem) (t : Nat) : Nat × Nat × Nat :=
  (ldN c.endian c.ws m (uadd c.ws t c.tl.stackAddr),
   ldN c.endian c.ws m (uadd c.ws t c.tl.stackSize),
   ldN c.endian c.ws m (uadd c.ws t c.tl.guardSize))

/-- `default_stack_size`: src/thread/linux_raw.rs:1072-1078. -/
def defaultStackSize (c : Cfg) : Nat := max 0x20000 c.startupStackSize

/-- `default_guard_size`: src/thread/linux_raw.rs:1083-1086. -/
def defaultGuardSize (c : Cfg) : Nat := umul c.ws c.page 4

/-! ### the kernel's view of the address space -/

/-- Access permission of a byte of the address space.  (`ProtFlags`, `MprotectFlags`: src/thread/linux_raw.rs:358, 513, 523; no mapping: 742, 926.) -/
inductive Perm where
  | unmapped | inaccessible | readWrite
deriving DecidableEq, Repr

/-- The address space: permission of each byte.  Not in /repo: the kernel's view of the mappings made and unmade at src/thread/linux_raw.rs:355-362,
510-524, 742, 926. -/
abbrev Space := Nat → Perm

/-- A system call with its outcome (`.error errno` on failure).  src/thread/linux_raw.rs:355-362 and 510-516 (`mmap_anonymous`), 520-524 (`mprotect`),
583-591 (`clone`), 926 (`munmap`). -/
inductive Sys where
  /-- `mmap_anonymous(null, len, prot, ..)`. -/
  | mmap (len : Nat) (prot : Perm) (res : Except Nat Nat)
  /-- `mprotect(addr, len, prot)`. -/
  | mprotect (addr len : Nat) (prot : Perm) (res : Except Nat Unit)
  /-- `munmap(addr, len)`. -/
  | munmap (addr len : Nat) (res : Except Nat Unit)
  /-- `clone(flags, stack, parent_tid, child_tid, newtls)`, with the two values the child's entry code
  receives in registers. -/
  | clone (flags stack parentTid childTid newtls fn numArgs : Nat) (res : Int)

/-- Set the permission of the whole pages from `addr` covering `len` bytes.  Not in /repo: the kernel's side of src/thread/linux_raw.rs:510-524, 926.
-/
def setPerm (page : Nat) (s : Space) (addr len : Nat) (p : Perm) : Space :=
  fun x => if addr ≤ x ∧ x < addr + natRoundUp len page then p else s x

/-- Effect of a system call on the address space (Linux: operates on whole pages, a failing call
changes nothing).  Not in /repo: the kernel's side of src/thread/linux_raw.rs:510-524, 926. -/
def applySys (page : Nat) (s : Space) : Sys → Space
  | .mmap len prot (.ok addr) => setPerm page s addr len prot
  | .mprotect addr len prot (.ok _) => setPerm page s addr len prot
  | .munmap addr len (.ok _) => setPerm page s addr len .unmapped
  | _ => s

/-- The address space after a sequence of system calls.  Not in /repo: the kernel's side of src/thread/linux_raw.rs:510-524, 926. -/
def spaceAfter (page : Nat) (s : Space) (l : List Sys) : Space := l.foldl (applySys page) s

/-- What Linux guarantees of a successful anonymous `mmap(NULL, len)`: a non-null page-aligned address,
a non-empty request, and room for all pages below the top of the address space (which Linux never
maps), none of which was mapped before.  Not in /repo: the kernel's side of src/thread/linux_raw.rs:510-516. -/
structure MmapOk (c : Cfg) (s : Space) (len addr : Nat) : Prop where
  aligned : c.page ∣ addr
  nonnull : addr ≠ 0
  nonempty : 0 < len
  fits : addr + natRoundUp len c.page < umax c.ws
  fresh : ∀ x, addr ≤ x → x < addr + natRoundUp len c.page → s x = .unmapped

/-- Linux's argument check of `munmap`: `EINVAL` (22) unless the address is page-aligned and the length
non-zero.  (A page-aligned, non-empty range always succeeds, whatever is mapped there.)  Not in /repo: the kernel's side of
src/thread/linux_raw.rs:926. -/
def kernelMunmap (page addr len : Nat) : Except Nat Unit :=
  if addr % page = 0 ∧ len ≠ 0 then .ok () else .error 22

/-! ### `create` -/

/-- Bits of `CloneFlags`: src/thread/linux_raw.rs:1112-1140 (Linux values). -/
def CLONE_VM : Nat := 0x100
/-- `CLONE_FS` of `linux_raw_sys` (the number is Linux's): src/thread/linux_raw.rs:574, 1116. -/
def CLONE_FS : Nat := 0x200
/-- `CLONE_FILES` of `linux_raw_sys` (the number is Linux's): src/thread/linux_raw.rs:575, 1117. -/
def CLONE_FILES : Nat := 0x400
/-- `CLONE_SIGHAND` of `linux_raw_sys` (the number is Linux's): src/thread/linux_raw.rs:576, 1118. -/
def CLONE_SIGHAND : Nat := 0x800
/-- `CLONE_THREAD` of `linux_raw_sys` (the number is Linux's): src/thread/linux_raw.rs:577, 1123. -/
def CLONE_THREAD : Nat := 0x10000
/-- `CLONE_SYSVSEM` of `linux_raw_sys` (the number is Linux's): src/thread/linux_raw.rs:578, 1125. -/
def CLONE_SYSVSEM : Nat := 0x40000
/-- `CLONE_SETTLS` of `linux_raw_sys` (the number is Linux's): src/thread/linux_raw.rs:579, 1126. -/
def CLONE_SETTLS : Nat := 0x80000
/-- `CLONE_PARENT_SETTID` of `linux_raw_sys` (the number is Linux's): src/thread/linux_raw.rs:582, 1127. -/
def CLONE_PARENT_SETTID : Nat := 0x100000
/-- `CLONE_CHILD_CLEARTID` of `linux_raw_sys` (the number is Linux's): src/thread/linux_raw.rs:580, 1128. -/
def CLONE_CHILD_CLEARTID : Nat := 0x200000
/-- `CLONE_CHILD_SETTID` of `linux_raw_sys` (the number is Linux's): src/thread/linux_raw.rs:581, 1131. -/
def CLONE_CHILD_SETTID : Nat := 0x1000000

/-- The `flags` of `create`: src/thread/linux_raw.rs:573-582. -/
def createFlags : Nat :=
  CLONE_VM ||| CLONE_FS ||| CLONE_FILES ||| CLONE_SIGHAND ||| CLONE_THREAD ||| CLONE_SYSVSEM
    ||| CLONE_SETTLS ||| CLONE_CHILD_CLEARTID ||| CLONE_CHILD_SETTID ||| CLONE_PARENT_SETTID

/-- The kernel's answers to the three system calls of one `create`.  src/thread/linux_raw.rs:510-516, 520-524, 583-591. -/
structure Answers where
  mmap : Except Nat Nat
  mprotect : Except Nat Unit
  clone : Int

/-- Linux's `clone` stores the new tid at `parent_tid`/`child_tid` when the flags ask for it.  Not in /repo: the kernel's side of
src/thread/linux_raw.rs:573-591. -/
def kernelClone (e : Endian) (m : Mem) (flags parentTid childTid : Nat) (res : Int) : Mem :=
  if 0 ≤ res then
    let m := if flags &&& CLONE_PARENT_SETTID ≠ 0 then stN e 4 m parentTid res.toNat else m
    if flags &&& CLONE_CHILD_SETTID ≠ 0 then stN e 4 m childTid res.toNat else m
  else m

/-- Store the words `vs` from address `a`: `copy_nonoverlapping` of `args`.  src/thread/linux_raw.rs:553. -/
def stWords (e : Endian) (ws : Nat) : Mem → Nat → List Nat → Mem
  | m, _, [] => m
  | m, a, v :: vs => stWords e ws (stN e ws m a v) (a + ws) vs

/-- Outcome of `create`: result (handle or errno), system calls made, final memory.  src/thread/linux_raw.rs:489, 608-610. -/
structure CreateOut where
  res : Except Nat Nat
  calls : List Sys
  mem : Mem

/-- Sizes and offsets `create` computes before mapping: src/thread/linux_raw.rs:490-506. -/
structure CreateLayout where
  mapSize : Nat
  stackBottom : Nat
  stackTop : Nat
  tlsBottom : Nat
  header : Nat

/-- First part of `create`: src/thread/linux_raw.rs:490-506 (`stack_align = 16`). -/
def createLayout (c : Cfg) (stackSize guardSize : Nat) : CreateLayout :=
  let m := uadd c.ws 0 (roundUp c.ws guardSize c.page)
  let stackBottom := m
  let m := uadd c.ws m (roundUp c.ws stackSize 16)
  let stackTop := m
  let t := calculateTlsSize c m
  { mapSize := t.mapSize, stackBottom, stackTop, tlsBottom := t.tlsBottom, header := t.header }

/-- The initial stack pointer of the new thread, which is also the address of its argument array:
src/thread/linux_raw.rs:527, 548-551. -/
def childSp (c : Cfg) (stackTopAddr numArgs : Nat) : Nat :=
  uand c.ws (uwsub c.ws stackTopAddr (umul c.ws numArgs c.ws)) (uneg c.ws c.arch.stackAlignment)

/-- `create`: src/thread/linux_raw.rs:484-613.  `tp` is the calling thread's thread pointer, `m` the
memory, `k` the kernel's answers. -/
def create (c : Cfg) (m : Mem) (junk : Nat → Byte) (k : Answers) (tp fn : Nat) (args : List Nat)
    (stackSize guardSize : Nat) : CreateOut :=
  let l := createLayout c stackSize guardSize
  let call1 := Sys.mmap l.mapSize .inaccessible k.mmap
  match k.mmap with
  | .error e => { res := .error e, calls := [call1], mem := m }
  | .ok map =>
    let call2 := Sys.mprotect (uadd c.ws map l.stackBottom) (uwsub c.ws l.mapSize l.stackBottom)
      .readWrite k.mprotect
    match k.mprotect with
    | .error e => { res := .error e, calls := [call1, call2], mem := m }
    | .ok _ =>
      let stack := uadd c.ws map l.stackTop
      let stackLeast := uadd c.ws map l.stackBottom
      let tlsData := uadd c.ws map l.tlsBottom
      let metadata := uadd c.ws map l.header
      let canary := ldN c.endian c.ws m
        (uadd c.ws (currentMetadata c tp) (metaOff c.arch c.tl .abi + abiOff c.arch .canary))
      let (m, newtls, tidPtr) := initializeTls c m junk tlsData metadata canary stackLeast
        stackSize guardSize l.mapSize
      let sp := childSp c stack args.length
      let m := stWords c.endian c.ws m sp args
      let call3 := Sys.clone createFlags sp tidPtr tidPtr newtls fn args.length k.clone
      let m := kernelClone c.endian m createFlags tidPtr tidPtr k.clone
      if 0 ≤ k.clone then
        { res := .ok (threadAddr c metadata), calls := [call1, call2, call3], mem := m }
      else
        { res := .error (-k.clone).toNat, calls := [call1, call2, call3], mem := m }

/-! ### freeing -/

/-- Outcome of `free_memory`.  src/thread/linux_raw.rs:911-928. -/
inductive FreeOut where
  /-- Returned normally after these system calls. -/
  | done (calls : List Sys)
  /-- `munmap(..).unwrap()` panicked. -/
  | panic (calls : List Sys)

/-- Arguments of the `munmap` of a thread record: src/thread/linux_raw.rs:916-927 and, identically,
713-742 (`exit` of a detached thread).  `none` when `map_size` is zero. -/
def munmapArgs (c : Cfg) (m : Mem) (t : Nat) : Option (Nat × Nat) :=
  let mapSize := ldN c.endian c.ws m (uadd c.ws t c.tl.mapSize)
  let stackAddr := ldN c.endian c.ws m (uadd c.ws t c.tl.stackAddr)
  let guardSize := ldN c.endian c.ws m (uadd c.ws t c.tl.guardSize)
  if mapSize ≠ 0 then some (uwsub c.ws stackAddr guardSize, mapSize) else none

/-- `free_memory` (called by `join` and `detach`): src/thread/linux_raw.rs:911-928. -/
def freeMemory (c : Cfg) (m : Mem) (t : Nat) : FreeOut :=
  match munmapArgs c m t with
  | none => .done []
  | some (addr, len) =>
    let call := Sys.munmap addr len (kernelMunmap c.page addr len)
    match kernelMunmap c.page addr len with
    | .ok _ => .done [call]
    | .error _ => .panic [call]

/-- The unmapping at the end of a detached thread's `exit`: src/thread/linux_raw.rs:713-742; the
result of the raw system call is ignored (src/arch/*.rs `munmap_and_exit_thread`). -/
def exitDetachedCalls (c : Cfg) (m : Mem) (t : Nat) : List Sys :=
  match munmapArgs c m t with
  | none => []
  | some (addr, len) => [Sys.munmap addr len (kernelMunmap c.page addr len)]

/-! ### `initialize_main` -/

/-- Inputs of `initialize_main` from the kernel: initial stack pointer, address just past the
`AT_EXECFN` string, soft stack limit (`none` = unlimited), the `AT_RANDOM` word, and where its `mmap`
was placed.  src/thread/linux_raw.rs:330, 339, 345, 355, 379. -/
structure MainIn where
  sp : Nat
  execfnEnd : Nat
  stackLimit : Option Nat
  random : Nat
  map : Nat
  tid : Nat

/-- Result of `initialize_main`.  src/thread/linux_raw.rs:347-383. -/
structure MainOut where
  mem : Mem
  calls : List Sys
  /-- new value of `__stack_chk_guard` -/
  guardVar : Nat
  /-- thread-pointer register -/
  tp : Nat
  /-- address given to `set_tid_address` -/
  tidAddr : Nat

/-- `initialize_main`: src/thread/linux_raw.rs:326-384.  `none`: the `unwrap` of an unlimited stack
limit panicked.  A failing `mmap` (also a panic) is not modelled. -/
def initializeMain (c : Cfg) (m : Mem) (junk : Nat → Byte) (i : MainIn) : Option MainOut :=
  let stackBase := roundUp c.ws i.execfnEnd c.page
  match i.stackLimit with
  | none => none
  | some stackMapSize =>
    let stackLeast := uwsub c.ws stackBase stackMapSize
    -- `stack_least.offset_from(mem) as usize`
    let stackSize := uwsub c.ws stackLeast i.sp
    let guardSize := c.page
    let canary := i.random
    let t := calculateTlsSize c 0
    let tlsData := uadd c.ws i.map t.tlsBottom
    let metadata := uadd c.ws i.map t.header
    let (m, newtls, tidPtr) := initializeTls c m junk tlsData metadata canary stackLeast
      stackSize guardSize 0
    let m := stN c.endian 4 m tidPtr i.tid
    some { mem := m, calls := [Sys.mmap t.mapSize .readWrite (.ok i.map)],
           guardVar := canary, tp := newtls, tidAddr := tidPtr }

end Origin
