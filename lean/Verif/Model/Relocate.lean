import Verif.Model.Layout
import Verif.Model.Startup
/-!
# ELF tables in memory: startup relocation and the program headers

Models src/relocate.rs:80-391 (`relocate`, `compute_auxp`, `load_static_start`), the functions
`relocation_load`, `relocation_store`, `relocation_mprotect_readonly`, `trap` of src/arch/*.rs it uses, and
src/thread/linux_raw.rs:241-302 (`initialize_startup_info`).

Memory is byte-addressed (`Mem`), with the target's word size `ws` (4 or 8 bytes) and byte order.  The ELF
structures (`Elf_auxv_t`, `Elf_Dyn`, `Elf_Rela`, `Elf_Rel`, `Elf_Ehdr`, `Elf_Phdr`) are read field by field at
the offsets of the ELF specification (they are `repr(C)` types of the `linux_raw_sys` crate).  Loops follow a
pointer until it meets a terminator or an end pointer and so may run for ever: each has a bound `fuel` on its
iterations, and returns `none` when it is exceeded.  Release build: the debug assertions
(src/relocate.rs:184-185, 191-192, 198-199, 306, 310, 312-320, 338-341) are not modelled.  `.add(n)` on a table
pointer (in bounds) is exact; arithmetic with the load offset wraps.
-/

namespace Origin.Elf

/-- Target and program: word size, byte order, the `R_RELATIVE` relocation type, and the addresses of
`STATIC_START` (src/relocate.rs:385), `__ehdr_start` and `_DYNAMIC` (src/arch/*.rs `ehdr_addr`,
`dynamic_table_addr`; program-counter-relative, so already correct before relocation). -/
structure Image where
  ws : Nat
  endian : Endian
  rRelative : Nat
  staticStart : Nat
  ehdr : Nat
  dyn : Nat

/-- A word in memory (`relocation_load`, src/arch/x86_64.rs:109-123). -/
def Image.ld (i : Image) (m : Mem) (a : Nat) : Nat := ldN i.endian i.ws m a

/-- `AT_NULL`: src/relocate.rs:100; the number is Linux's. -/
def AT_NULL : Nat := 0
/-- `AT_PAGESZ`: src/relocate.rs:98; the number is Linux's. -/
def AT_PAGESZ : Nat := 6
/-- `AT_BASE`: src/relocate.rs:97; the number is Linux's. -/
def AT_BASE : Nat := 7
/-- `AT_ENTRY`: src/relocate.rs:99; the number is Linux's. -/
def AT_ENTRY : Nat := 9
/-- `DT_NULL`: src/relocate.rs:202; the number is that of the ELF specification. -/
def DT_NULL : Nat := 0
/-- `DT_RELA`: src/relocate.rs:182; the number is that of the ELF specification. -/
def DT_RELA : Nat := 7
/-- `DT_RELASZ`: src/relocate.rs:183; the number is that of the ELF specification. -/
def DT_RELASZ : Nat := 8
/-- `DT_REL`: src/relocate.rs:189; the number is that of the ELF specification. -/
def DT_REL : Nat := 17
/-- `DT_RELSZ`: src/relocate.rs:190; the number is that of the ELF specification. -/
def DT_RELSZ : Nat := 18
/-- `DT_RELRSZ`: src/relocate.rs:31, 197. -/
def DT_RELRSZ : Nat := 35
/-- `DT_RELR`: src/relocate.rs:32, 196. -/
def DT_RELR : Nat := 36
/-- `PT_DYNAMIC`: src/relocate.rs:339, src/thread/linux_raw.rs:272; the number is that of the ELF specification. -/
def PT_DYNAMIC : Nat := 2
/-- `PT_PHDR`: src/thread/linux_raw.rs:271; the number is that of the ELF specification. -/
def PT_PHDR : Nat := 6
/-- `PT_TLS`: src/thread/linux_raw.rs:274; the number is that of the ELF specification. -/
def PT_TLS : Nat := 7
/-- `PT_GNU_STACK`: src/thread/linux_raw.rs:275; the number is that of the GNU extensions of ELF. -/
def PT_GNU_STACK : Nat := 0x6474e551
/-- `PT_GNU_RELRO`: src/relocate.rs:342; the number is that of the ELF specification. -/
def PT_GNU_RELRO : Nat := 0x6474e552

/-- What `relocate` has done: memory, the words it stored (address, value; newest first), and the
`mprotect(addr, len, PROT_READ)` calls that succeeded.  src/relocate.rs:80-357. -/
structure State where
  mem : Mem
  stores : List (Nat × Nat)
  prots : List (Nat × Nat)

/-- `relocation_store`: src/arch/x86_64.rs:141-148 (and the other architectures' one-instruction versions). -/
def State.store (i : Image) (s : State) (a v : Nat) : State :=
  { s with mem := stN i.endian i.ws s.mem a v, stores := (a, v) :: s.stores }

/-- How `relocate` ends: it returns, or the process is killed by a trap instruction.  src/relocate.rs:80-357. -/
inductive Out where
  | done (s : State)
  | trap (s : State)

/-- The AUX values: src/relocate.rs:85-87. -/
structure Aux where
  base : Nat
  page : Nat
  entry : Nat

/-- src/relocate.rs:92-103; `a_type as _` truncates to `u32`. -/
def auxLoop (i : Image) (m : Mem) : Nat → Nat → Aux → Option Aux
  | 0, _, _ => none
  | fuel + 1, p, a =>
    let ty := i.ld m p % 2 ^ 32
    let val := i.ld m (p + i.ws)
    let p := p + 2 * i.ws
    if ty = AT_BASE then auxLoop i m fuel p { a with base := val }
    else if ty = AT_PAGESZ then auxLoop i m fuel p { a with page := val }
    else if ty = AT_ENTRY then auxLoop i m fuel p { a with entry := val }
    else if ty = AT_NULL then some a
    else auxLoop i m fuel p a

/-- `load_static_start`: src/relocate.rs:381-391. -/
def loadStaticStart (i : Image) (m : Mem) : Nat := i.ld m i.staticStart

/-- `e_entry` of the ELF header (at offset 24 in both classes).  src/relocate.rs:136. -/
def eEntry (i : Image) (m : Mem) : Nat := i.ld m (i.ehdr + 24)
/-- `e_phoff` (follows `e_entry`).  src/relocate.rs:331. -/
def ePhoff (i : Image) (m : Mem) : Nat := i.ld m (i.ehdr + 24 + i.ws)
/-- `e_phentsize` (after `e_shoff`, `e_flags`, `e_ehsize`).  src/relocate.rs:330. -/
def ePhentsize (i : Image) (m : Mem) : Nat := ldN i.endian 2 m (i.ehdr + 24 + 3 * i.ws + 6)
/-- `e_phnum`.  src/relocate.rs:332. -/
def ePhnum (i : Image) (m : Mem) : Nat := ldN i.endian 2 m (i.ehdr + 24 + 3 * i.ws + 8)

/-- Whether to relocate, and the offset: src/relocate.rs:122-147. -/
def decision (i : Image) (m : Mem) (a : Aux) : Option Nat :=
  if loadStaticStart i m = a.entry then none
  else some (if a.base = 0 then uwsub i.ws a.entry (eEntry i m) else a.base)

/-- The locations and sizes of the relocation tables: src/relocate.rs:158-172. -/
structure Tabs where
  rela : Nat
  relaSz : Nat
  rel : Nat
  relSz : Nat
  relr : Nat
  relrSz : Nat

/-- src/relocate.rs:174-206. -/
def dynLoop (i : Image) (m : Mem) (base : Nat) : Nat → Nat → Tabs → Option Tabs
  | 0, _, _ => none
  | fuel + 1, p, t =>
    let tag := i.ld m p
    let val := i.ld m (p + i.ws)
    let p := p + 2 * i.ws
    if tag = DT_RELA then dynLoop i m base fuel p { t with rela := uadd i.ws base val }
    else if tag = DT_RELASZ then dynLoop i m base fuel p { t with relaSz := val }
    else if tag = DT_REL then dynLoop i m base fuel p { t with rel := uadd i.ws base val }
    else if tag = DT_RELSZ then dynLoop i m base fuel p { t with relSz := val }
    else if tag = DT_RELR then dynLoop i m base fuel p { t with relr := uadd i.ws base val }
    else if tag = DT_RELRSZ then dynLoop i m base fuel p { t with relrSz := val }
    else if tag = DT_NULL then some t
    else dynLoop i m base fuel p t

/-- `Elf_Rela::type_`, `Elf_Rel::type_`: the low 32 bits (64-bit class) or 8 bits (32-bit class) of `r_info`.  src/relocate.rs:219, 242. -/
def relType (ws info : Nat) : Nat := if ws = 8 then info % 2 ^ 32 else info % 2 ^ 8

/-- src/relocate.rs:208-229. -/
def relaLoop (i : Image) (offset stop : Nat) : Nat → Nat → State → Option Out
  | 0, _, _ => none
  | fuel + 1, p, s =>
    if p = stop then some (.done s)
    else
      let rOffset := i.ld s.mem p
      let rInfo := i.ld s.mem (p + i.ws)
      let rAddend := i.ld s.mem (p + 2 * i.ws)
      let addr := uadd i.ws rOffset offset
      if relType i.ws rInfo = i.rRelative then
        relaLoop i offset stop fuel (p + 3 * i.ws) (s.store i addr (uadd i.ws rAddend offset))
      else some (.trap s)

/-- src/relocate.rs:231-252. -/
def relLoop (i : Image) (offset stop : Nat) : Nat → Nat → State → Option Out
  | 0, _, _ => none
  | fuel + 1, p, s =>
    if p = stop then some (.done s)
    else
      let rOffset := i.ld s.mem p
      let rInfo := i.ld s.mem (p + i.ws)
      let addr := uadd i.ws rOffset offset
      if relType i.ws rInfo = i.rRelative then
        relLoop i offset stop fuel (p + 2 * i.ws) (s.store i addr (uadd i.ws (i.ld s.mem addr) offset))
      else some (.trap s)

/-- The loop over a bitmask entry: src/relocate.rs:276-294. -/
def relrBits (i : Image) (offset addr : Nat) : Nat → Nat → Nat → State → Option State
  | 0, _, _, _ => none
  | fuel + 1, k, entry, s =>
    let entry := entry >>> 1
    if entry = 0 then some s
    else
      let a := uadd i.ws addr (umul i.ws k i.ws)
      let s := if entry &&& 1 ≠ 0 then s.store i a (uadd i.ws (i.ld s.mem a) offset) else s
      relrBits i offset addr fuel (k + 1) entry s

/-- src/relocate.rs:254-299. -/
def relrLoop (i : Image) (offset stop : Nat) : Nat → Nat → Nat → State → Option State
  | 0, _, _, _ => none
  | fuel + 1, p, addr, s =>
    if p = stop then some s
    else
      let entry := i.ld s.mem p
      let p := p + i.ws
      if entry &&& 1 = 0 then
        let addr := uadd i.ws offset entry
        let s := s.store i addr (uadd i.ws (i.ld s.mem addr) offset)
        relrLoop i offset stop fuel p (uadd i.ws addr i.ws) s
      else
        (relrBits i offset addr (fuel + 1) 0 entry s).bind fun s =>
          relrLoop i offset stop fuel p (uadd i.ws addr ((i.ws * 8 - 1) * i.ws)) s

/-- A program header's fields.  (`linux_raw_sys::elf::Elf_Phdr`, src/relocate.rs:331-346, src/thread/linux_raw.rs:263-297.) -/
structure Phdr where
  type : Nat
  vaddr : Nat
  filesz : Nat
  memsz : Nat
  align : Nat
deriving DecidableEq, Repr

/-- Reading an `Elf_Phdr` (the classes order the fields differently).  src/relocate.rs:334, src/thread/linux_raw.rs:263. -/
def readPhdr (i : Image) (m : Mem) (a : Nat) : Phdr :=
  if i.ws = 8 then
    { type := ldN i.endian 4 m a, vaddr := i.ld m (a + 16), filesz := i.ld m (a + 32), memsz := i.ld m (a + 40), align := i.ld m (a + 48) }
  else
    { type := ldN i.endian 4 m a, vaddr := i.ld m (a + 8), filesz := i.ld m (a + 16), memsz := i.ld m (a + 20), align := i.ld m (a + 28) }

/-- The `PT_GNU_RELRO` segment (address, size): src/relocate.rs:326-349. -/
def relroLoop (i : Image) (m : Mem) (phent stop : Nat) : Nat → Nat → Nat × Nat → Option (Nat × Nat)
  | 0, _, _ => none
  | fuel + 1, p, r =>
    if p = stop then some r
    else
      let h := readPhdr i m p
      relroLoop i m phent stop fuel (uadd i.ws p phent) (if h.type = PT_GNU_RELRO then (h.vaddr, h.memsz) else r)

/-- src/relocate.rs:351-356, and `relocation_mprotect_readonly` (src/arch/x86_64.rs:169-191), which traps if the
kernel (`ok`) refuses. -/
def protect (i : Image) (ok : Nat → Nat → Bool) (offset page : Nat) (r : Nat × Nat) (s : State) : Out :=
  if r.2 ≠ 0 then
    let addr := uand i.ws (uadd i.ws r.1 offset) (uneg i.ws page)
    if ok addr r.2 then .done { s with prots := (addr, r.2) :: s.prots } else .trap s
  else .done s

/-- Continue unless trapped.  (Sequencing in src/relocate.rs:80-357.) -/
def Out.andThen (o : Out) (f : State → Option Out) : Option Out :=
  match o with
  | .done s => f s
  | .trap s => some (.trap s)

/-- The part of `relocate` after the decision: src/relocate.rs:149-356. -/
def relocateWith (i : Image) (ok : Nat → Nat → Bool) (fuel : Nat) (a : Aux) (offset : Nat) (s : State) : Option Out := do
  let t ← dynLoop i s.mem offset fuel i.dyn { rela := 0, relaSz := 0, rel := 0, relSz := 0, relr := 0, relrSz := 0 }
  let o ← relaLoop i offset (uadd i.ws t.rela t.relaSz) fuel t.rela s
  o.andThen fun s => do
    let o ← relLoop i offset (uadd i.ws t.rel t.relSz) fuel t.rel s
    o.andThen fun s => do
      let s ← relrLoop i offset (uadd i.ws t.relr t.relrSz) fuel t.relr 0 s
      let phent := ePhentsize i s.mem
      let first := uadd i.ws offset (ePhoff i s.mem)
      let r ← relroLoop i s.mem phent (uadd i.ws first (umul i.ws (ePhnum i s.mem) phent)) fuel first (0, 0)
      some (protect i ok offset a.page r s)

/-- `relocate`: src/relocate.rs:80-357. -/
def relocate (i : Image) (ok : Nat → Nat → Bool) (fuel : Nat) (m : Mem) (envp : Nat) : Option Out := do
  let auxp ← Boot.computeAuxp i.ws (fun a => wordAt i.endian i.ws m a) fuel envp
  let a ← auxLoop i m fuel auxp { base := 0, page := 0, entry := 0 }
  let s : State := { mem := m, stores := [], prots := [] }
  match decision i m a with
  | none => some (.done s)
  | some offset => relocateWith i ok fuel a offset s

/-! ### `initialize_startup_info` -/

/-- The loop's variables: src/thread/linux_raw.rs:242-244. -/
structure Scan where
  tls : Option Phdr
  stackSize : Nat
  offset : Nat

/-- One header: src/thread/linux_raw.rs:267-279. -/
def scanPhdr (ws first dyn : Nat) (x : Scan) (h : Phdr) : Scan :=
  if h.type = PT_PHDR then { x with offset := uwsub ws first h.vaddr }
  else if h.type = PT_DYNAMIC then { x with offset := uwsub ws dyn h.vaddr }
  else if h.type = PT_TLS then { x with tls := some h }
  else if h.type = PT_GNU_STACK then { x with stackSize := h.memsz }
  else x

/-- src/thread/linux_raw.rs:262-280. -/
def phdrLoop (i : Image) (m : Mem) (first phent stop : Nat) : Nat → Nat → Scan → Option Scan
  | 0, _, _ => none
  | fuel + 1, p, x =>
    if p = stop then some x
    else phdrLoop i m first phent stop fuel (uadd i.ws p phent) (scanPhdr i.ws first i.dyn x (readPhdr i m p))

/-- `STARTUP_TLS_INFO` and `STARTUP_STACK_SIZE`.  src/thread/linux_raw.rs:209-234. -/
structure StartupInfo where
  tls : TlsInfo
  stackSize : Nat

/-- src/thread/linux_raw.rs:282-301.  `NonNull::<c_void>::dangling()` is address 1. -/
def startupInfo (ws : Nat) (x : Scan) : StartupInfo :=
  { tls := match x.tls with
      | none => { addr := 1, memSize := 0, fileSize := 0, align := 1 }
      | some h => { addr := uadd ws x.offset h.vaddr, memSize := h.memsz, fileSize := h.filesz, align := h.align }
    stackSize := x.stackSize }

/-- `initialize_startup_info`: src/thread/linux_raw.rs:241-302; `first`, `phent`, `phnum` are what `exe_phdrs`
returns (`AT_PHDR`, the size of a header, `AT_PHNUM`). -/
def initializeStartupInfo (i : Image) (m : Mem) (fuel first phent phnum : Nat) : Option StartupInfo :=
  (phdrLoop i m first phent (uadd i.ws first (umul i.ws phnum phent)) fuel first { tls := none, stackSize := 0, offset := 0 }).map
    (startupInfo i.ws)

end Origin.Elf
