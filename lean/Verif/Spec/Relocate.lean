import Verif.Model.Relocate
/-!
# Specification: ELF tables in memory, relocation, load bias

Written from the ELF gABI.  Addresses and values are modulo `2 ^ (8 * ws)`.
-/

namespace Origin.Elf

/-! ### Numbers and layouts of the ELF gABI (`elf.h`), written down here independently of the model -/

namespace Gabi

def AT_NULL : Nat := 0
def AT_PAGESZ : Nat := 6
def AT_BASE : Nat := 7
def AT_ENTRY : Nat := 9
def DT_NULL : Nat := 0
def DT_RELA : Nat := 7
def DT_RELASZ : Nat := 8
def DT_REL : Nat := 17
def DT_RELSZ : Nat := 18
def DT_RELRSZ : Nat := 35
def DT_RELR : Nat := 36
def DT_RELAENT : Nat := 9
def DT_RELENT : Nat := 19
def DT_RELRENT : Nat := 37
def PT_DYNAMIC : Nat := 2
def PT_PHDR : Nat := 6
def PT_TLS : Nat := 7
def PT_GNU_STACK : Nat := 1685382481
def PT_GNU_RELRO : Nat := 1685382482

/-- `ELF64_R_TYPE` (32 bits) and `ELF32_R_TYPE` (8 bits). -/
def R_TYPE (ws info : Nat) : Nat := info % (if ws = 8 then 0x100000000 else 0x100)

/-- The fields of `Elf_Ehdr` and `Elf_Phdr`. -/
inductive Field where
  | e_ident | e_type | e_machine | e_version | e_entry | e_phoff | e_shoff | e_flags | e_ehsize | e_phentsize | e_phnum
  | e_shentsize | e_shnum | e_shstrndx
  | p_type | p_flags | p_offset | p_vaddr | p_paddr | p_filesz | p_memsz | p_align
deriving DecidableEq

open Field

/-- `Elf64_Ehdr`, `Elf32_Ehdr`: the fields in order, with their sizes; addresses and offsets take a word. -/
def ehdrFields (ws : Nat) : List (Field × Nat) :=
  [(e_ident, 16), (e_type, 2), (e_machine, 2), (e_version, 4), (e_entry, ws), (e_phoff, ws), (e_shoff, ws), (e_flags, 4),
   (e_ehsize, 2), (e_phentsize, 2), (e_phnum, 2), (e_shentsize, 2), (e_shnum, 2), (e_shstrndx, 2)]

/-- `Elf64_Phdr`, `Elf32_Phdr`. -/
def phdrFields (ws : Nat) : List (Field × Nat) :=
  if ws = 8 then [(p_type, 4), (p_flags, 4), (p_offset, 8), (p_vaddr, 8), (p_paddr, 8), (p_filesz, 8), (p_memsz, 8), (p_align, 8)]
  else [(p_type, 4), (p_offset, 4), (p_vaddr, 4), (p_paddr, 4), (p_filesz, 4), (p_memsz, 4), (p_flags, 4), (p_align, 4)]

/-- The size of a structure (no padding is needed). -/
def size (fs : List (Field × Nat)) : Nat := (fs.map Prod.snd).sum

/-- The offset of a field: the size of the fields before it. -/
def offset (fs : List (Field × Nat)) (f : Field) : Nat := size (fs.takeWhile fun x => x.1 ≠ f)

/-- The size of a field. -/
def width (fs : List (Field × Nat)) (f : Field) : Nat := size (fs.filter fun x => x.1 = f)

/-- The value of field `f` of the structure with fields `fs` at address `a`. -/
def get (e : Endian) (m : Mem) (a : Nat) (fs : List (Field × Nat)) (f : Field) : Nat :=
  ldN e (width fs f) m (a + offset fs f)

end Gabi

open Gabi.Field

/-- The words `l`, one after another from `a` on. -/
def WordsAt (i : Image) (m : Mem) : Nat → List Nat → Prop
  | _, [] => True
  | a, x :: xs => i.ld m a = x ∧ WordsAt i m (a + i.ws) xs

/-- A table of rows of words, one after another from `a` on. -/
def Rows (i : Image) (m : Mem) (a : Nat) (rows : List (List Nat)) : Prop := WordsAt i m a rows.flatten

/-- The auxiliary vector's entries (type, value), before the terminating `AT_NULL` entry. -/
def AuxAt (i : Image) (m : Mem) (a : Nat) (l : List (Nat × Nat)) : Prop :=
  (∀ x ∈ l, x.1 % 2 ^ 32 ≠ Gabi.AT_NULL) ∧ Rows i m a (l.map (fun x => [x.1, x.2]) ++ [[Gabi.AT_NULL]])

/-- The dynamic section's entries (tag, value), before the terminating `DT_NULL` entry. -/
def DynAt (i : Image) (m : Mem) (a : Nat) (l : List (Nat × Nat)) : Prop :=
  (∀ x ∈ l, x.1 ≠ Gabi.DT_NULL) ∧ Rows i m a (l.map (fun x => [x.1, x.2]) ++ [[Gabi.DT_NULL]])

/-- The value of the last entry with key `k`, or `0`. -/
def lastVal (k : Nat) (l : List (Nat × Nat)) : Nat := ((l.filter fun x => x.1 = k).getLast?.map Prod.snd).getD 0

/-- As `lastVal`; auxiliary vector types are 32-bit numbers. -/
def lastAux (k : Nat) (l : List (Nat × Nat)) : Nat := lastVal k (l.map fun x => (x.1 % 2 ^ 32, x.2))

structure Rela where
  offset : Nat
  info : Nat
  addend : Nat
deriving DecidableEq, Repr

structure Rel where
  offset : Nat
  info : Nat
deriving DecidableEq, Repr

/-- The relocation tables of a program. -/
structure Tables where
  rela : List Rela
  rel : List Rel
  relr : List Nat

def RelaAt (i : Image) (m : Mem) (a : Nat) (l : List Rela) : Prop := Rows i m a (l.map fun r => [r.offset, r.info, r.addend])
def RelAt (i : Image) (m : Mem) (a : Nat) (l : List Rel) : Prop := Rows i m a (l.map fun r => [r.offset, r.info])
def RelrAt (i : Image) (m : Mem) (a : Nat) (l : List Nat) : Prop := Rows i m a (l.map fun r => [r])

/-- The words a RELR table names, as the gABI defines it: an even entry is the address of one word, and sets the
base to the word after it; an odd entry is a bitmap: bit `k + 1` stands for the `k`-th word from the base on, for
`k` from `0` to (word bits - 2), and the base then moves on by (word bits - 1) words.  Addresses are those of
the loaded program (bias added). -/
def relrWords (ws bias : Nat) : Nat → List Nat → List Nat
  | _, [] => []
  | base, e :: es =>
    if e % 2 = 0 then (bias + e) :: relrWords ws bias (bias + e + ws) es
    else ((List.range (8 * ws - 1)).filter fun k => e.testBit (k + 1)).map (fun k => base + k * ws)
      ++ relrWords ws bias (base + (8 * ws - 1) * ws) es

/-- A relocation: the word's address, and its new value given the present one. -/
structure Op where
  addr : Nat
  value : Nat → Nat

/-- What the tables ask for with load bias `b`: a RELA entry sets its word to addend + bias, REL and RELR entries
add the bias to theirs. -/
def Tables.ops (ws b : Nat) (t : Tables) : List Op :=
  t.rela.map (fun r => ⟨(r.offset + b) % 2 ^ (8 * ws), fun _ => (r.addend + b) % 2 ^ (8 * ws)⟩)
  ++ t.rel.map (fun r => ⟨(r.offset + b) % 2 ^ (8 * ws), fun v => (v + b) % 2 ^ (8 * ws)⟩)
  ++ (relrWords ws b 0 t.relr).map (fun a => ⟨a % 2 ^ (8 * ws), fun v => (v + b) % 2 ^ (8 * ws)⟩)

/-- The `n` bytes at `a` and the `k` bytes at `b` do not overlap. -/
def Apart (a n b k : Nat) : Prop := a + n ≤ b ∨ b + k ≤ a

/-- No two of the words overlap. -/
def Separate (ws : Nat) (ops : List Op) : Prop := ops.Pairwise fun x y => Apart x.addr ws y.addr ws

/-- The dynamic address of static address `v` under load bias `b`. -/
def dyna (ws b v : Nat) : Nat := (b + v) % 2 ^ (8 * ws)

/-- The `n` bytes at `a` do not wrap around the end of the address space, and none of the words to relocate
overlaps them. -/
def Safe (ws : Nat) (ops : List Op) (a n : Nat) : Prop := a + n < 2 ^ (8 * ws) ∧ ∀ o ∈ ops, Apart o.addr ws a n

/-- A table of `n` entries of `size` bytes is where the dynamic section `d` says, with the size it says, and is not
itself subject to relocation.  `content a` says that the entries are at address `a`. -/
def TableAt (ws b : Nat) (ops : List Op) (d : List (Nat × Nat)) (tag szTag size n : Nat) (content : Nat → Prop) : Prop :=
  lastVal szTag d = n * size ∧
  (n ≠ 0 → (∃ x ∈ d, x.1 = tag) ∧ content (dyna ws b (lastVal tag d)) ∧ Safe ws ops (dyna ws b (lastVal tag d)) (n * size))

def RelaTableAt (i : Image) (m : Mem) (b : Nat) (ops : List Op) (d : List (Nat × Nat)) (l : List Rela) : Prop :=
  TableAt i.ws b ops d Gabi.DT_RELA Gabi.DT_RELASZ (3 * i.ws) l.length (fun a => RelaAt i m a l)
def RelTableAt (i : Image) (m : Mem) (b : Nat) (ops : List Op) (d : List (Nat × Nat)) (l : List Rel) : Prop :=
  TableAt i.ws b ops d Gabi.DT_REL Gabi.DT_RELSZ (2 * i.ws) l.length (fun a => RelAt i m a l)
def RelrTableAt (i : Image) (m : Mem) (b : Nat) (ops : List Op) (d : List (Nat × Nat)) (l : List Nat) : Prop :=
  TableAt i.ws b ops d Gabi.DT_RELR Gabi.DT_RELRSZ i.ws l.length (fun a => RelrAt i m a l)

/-- The three relocation tables. -/
structure TablesAt (i : Image) (m : Mem) (b : Nat) (d : List (Nat × Nat)) (t : Tables) : Prop where
  rela : RelaTableAt i m b (t.ops i.ws b) d t.rela
  rel : RelTableAt i m b (t.ops i.ws b) d t.rel
  relr : RelrTableAt i m b (t.ops i.ws b) d t.relr

/-- The effect of the relocations `ops`: every word holds its new value, every other byte is unchanged, and the
words were written one after another, in the order of the tables. -/
structure Applied (i : Image) (m : Mem) (ops : List Op) (s : State) : Prop where
  words : ∀ o ∈ ops, i.ld s.mem o.addr = o.value (i.ld m o.addr)
  others : ∀ x, (∀ o ∈ ops, x < o.addr ∨ o.addr + i.ws ≤ x) → s.mem x = m x
  stores : s.stores.reverse = ops.map fun o => (o.addr, o.value (i.ld m o.addr))

/-- All entries are of the only supported type. -/
def Tables.AllRelative (i : Image) (t : Tables) : Prop :=
  (∀ r ∈ t.rela, Gabi.R_TYPE i.ws r.info = i.rRelative) ∧ (∀ r ∈ t.rel, Gabi.R_TYPE i.ws r.info = i.rRelative)

/-- A program header at `a`. -/
structure PhdrAt (i : Image) (m : Mem) (a : Nat) (h : Phdr) : Prop where
  type : Gabi.get i.endian m a (Gabi.phdrFields i.ws) p_type = h.type
  vaddr : Gabi.get i.endian m a (Gabi.phdrFields i.ws) p_vaddr = h.vaddr
  filesz : Gabi.get i.endian m a (Gabi.phdrFields i.ws) p_filesz = h.filesz
  memsz : Gabi.get i.endian m a (Gabi.phdrFields i.ws) p_memsz = h.memsz
  align : Gabi.get i.endian m a (Gabi.phdrFields i.ws) p_align = h.align

/-- The program headers `hs`, one every `phent` bytes from `a` on. -/
def PhdrsAt (i : Image) (m : Mem) (phent : Nat) : Nat → List Phdr → Prop
  | _, [] => True
  | a, h :: hs => PhdrAt i m a h ∧ PhdrsAt i m phent (a + phent) hs

/-- The size of an `Elf_Phdr`. -/
def phdrSize (ws : Nat) : Nat := Gabi.size (Gabi.phdrFields ws)

/-- The size of an `Elf_Ehdr`. -/
def ehdrSize (ws : Nat) : Nat := Gabi.size (Gabi.ehdrFields ws)

/-- A field of the program's ELF header. -/
def ehdrField (i : Image) (m : Mem) (f : Gabi.Field) : Nat := Gabi.get i.endian m i.ehdr (Gabi.ehdrFields i.ws) f

/-- The ELF header's program header fields, and the program headers it describes; `Safe`: not subject to
relocation. -/
structure HeadersAt (i : Image) (m : Mem) (b : Nat) (ops : List Op) (phoff phent : Nat) (hs : List Phdr) : Prop where
  hphoff : ehdrField i m e_phoff = phoff
  hphent : ehdrField i m e_phentsize = phent
  hphnum : ehdrField i m e_phnum = hs.length
  size : phdrSize i.ws ≤ phent
  safeEhdr : Safe i.ws ops i.ehdr (ehdrSize i.ws)
  phdrs : PhdrsAt i m phent (dyna i.ws b phoff) hs
  safePhdrs : Safe i.ws ops (dyna i.ws b phoff) (hs.length * phent)

/-- The last header of type `ty`. -/
def lastPhdr (ty : Nat) (hs : List Phdr) : Option Phdr := (hs.filter fun h => h.type = ty).getLast?

/-- The four ways in which a program is started (src/relocate.rs:105-120), with its load bias `b`, the static
address `start` of `_start`, the word at `STATIC_START` and the AUX values.  The flag says whether the program has
to relocate itself. -/
inductive Launch (ws : Nat) (start b word : Nat) (a : Aux) (eEntry : Nat) : Bool → Prop
  /-- a static executable, at its static address -/
  | static : b = 0 → word = start → a.base = 0 → a.entry = start → Launch ws start b word a eEntry false
  /-- a static position-independent executable that has not been relocated (the word at `STATIC_START` does not
  hold the address at which `_start` is) -/
  | staticPie : a.base = 0 → a.entry = (start + b) % 2 ^ (8 * ws) → eEntry = start → word ≠ (start + b) % 2 ^ (8 * ws) →
      Launch ws start b word a eEntry true
  /-- relocated by a dynamic linker -/
  | dynamic : word = (start + b) % 2 ^ (8 * ws) → a.entry = (start + b) % 2 ^ (8 * ws) → Launch ws start b word a eEntry false
  /-- we are the dynamic linker, not relocated yet; `AT_ENTRY` is the entry point of another program -/
  | linker : a.base = b → b ≠ 0 → word ≠ (start + b) % 2 ^ (8 * ws) → Launch ws start b word a eEntry true

/-- What the kernel leaves at `envp`: the environment pointers, a null pointer, and the auxiliary vector. -/
structure EnvAt (i : Image) (m : Mem) (envp : Nat) (env : List Nat) (aux : List (Nat × Nat)) : Prop where
  nonnull : ∀ x ∈ env, x ≠ 0
  words : WordsAt i m envp (env ++ [0])
  aux : AuxAt i m (envp + (env.length + 1) * i.ws) aux

/-- The values `relocate` looks for in the auxiliary vector. -/
def auxOf (aux : List (Nat × Nat)) : Aux := ⟨lastAux Gabi.AT_BASE aux, lastAux Gabi.AT_PAGESZ aux, lastAux Gabi.AT_ENTRY aux⟩

/-- Bytes an `mprotect(addr, len, ..)` call changes: the whole pages from `addr` on that cover `len` bytes. -/
def Protected (page addr len x : Nat) : Prop := addr ≤ x ∧ x < addr + natRoundUp len page

/-- A program loaded with bias `b`: `first` is where its program headers are, `i.dyn` its dynamic section; headers
of type `PT_PHDR` and `PT_DYNAMIC` give their static addresses, and one of them is present, or the bias is `0`. -/
def Loaded (i : Image) (b first : Nat) (hs : List Phdr) : Prop :=
  (∀ h ∈ hs, h.type = Gabi.PT_PHDR → first = dyna i.ws b h.vaddr) ∧
  (∀ h ∈ hs, h.type = Gabi.PT_DYNAMIC → i.dyn = dyna i.ws b h.vaddr) ∧
  ((∃ h ∈ hs, h.type = Gabi.PT_PHDR ∨ h.type = Gabi.PT_DYNAMIC) ∨ b = 0)

/-- What the program headers `hs` say about TLS and the stack, under load bias `b`. -/
structure InfoOk (ws b : Nat) (hs : List Phdr) (r : StartupInfo) : Prop where
  tls : ∀ h, lastPhdr Gabi.PT_TLS hs = some h →
    r.tls.addr = dyna ws b h.vaddr ∧ r.tls.fileSize = h.filesz ∧ r.tls.memSize = h.memsz ∧ r.tls.align = h.align
  noTls : (∀ h ∈ hs, h.type ≠ Gabi.PT_TLS) → r.tls.memSize = 0 ∧ r.tls.fileSize = 0 ∧ r.tls.align = 1
  stack : ∀ h, lastPhdr Gabi.PT_GNU_STACK hs = some h → r.stackSize = h.memsz
  noStack : (∀ h ∈ hs, h.type ≠ Gabi.PT_GNU_STACK) → r.stackSize = 0

/-- A program that must relocate itself: where it is, and what its ELF tables are. -/
structure Setup (i : Image) (m : Mem) (envp start b : Nat) (env : List Nat) (aux : List (Nat × Nat)) (d : List (Nat × Nat))
    (t : Tables) (phoff phent : Nat) (hs : List Phdr) : Prop where
  ws : i.ws = 4 ∨ i.ws = 8
  hb : b < 2 ^ (8 * i.ws)
  hstart : start < 2 ^ (8 * i.ws)
  env : EnvAt i m envp env aux
  launch : Launch i.ws start b (i.ld m i.staticStart) (auxOf aux) (ehdrField i m e_entry) true
  distinct : i.ld m i.staticStart ≠ lastAux Gabi.AT_ENTRY aux
  dyn : DynAt i m i.dyn d
  tables : TablesAt i m b d t
  types : t.AllRelative i
  headers : HeadersAt i m b (t.ops i.ws b) phoff phent hs
  separate : Separate i.ws (t.ops i.ws b)

/-- Decoding a RELR table (see `relrWords`) never leaves the address space. -/
def RelrInRange (ws b : Nat) : Nat → List Nat → Prop
  | _, [] => True
  | base, e :: es =>
    if e % 2 = 0 then b + e + ws < 2 ^ (8 * ws) ∧ RelrInRange ws b (b + e + ws) es
    else base + (8 * ws - 1) * ws < 2 ^ (8 * ws) ∧ RelrInRange ws b (base + (8 * ws - 1) * ws) es

/-- What a linker and a kernel see to: entry sizes are those of the structures; the page size is a power of two and the program is loaded at a
page boundary; `_DYNAMIC` is where the `PT_DYNAMIC` header says; RELR tables name addresses in the address space; and, unless we are the dynamic
linker, one of the relocations is that of the pointer to `_start`. -/
structure WellLinked (i : Image) (m : Mem) (b start : Nat) (aux d : List (Nat × Nat)) (t : Tables) (hs : List Phdr) : Prop where
  relaEnt : ∀ x ∈ d, x.1 = Gabi.DT_RELAENT → x.2 = 3 * i.ws
  relEnt : ∀ x ∈ d, x.1 = Gabi.DT_RELENT → x.2 = 2 * i.ws
  relrEnt : ∀ x ∈ d, x.1 = Gabi.DT_RELRENT → x.2 = i.ws
  page : ∃ k, k < 8 * i.ws ∧ lastAux Gabi.AT_PAGESZ aux = 2 ^ k ∧ 2 ^ k ∣ b
  dynamic : ∀ h ∈ hs, h.type = Gabi.PT_DYNAMIC → i.dyn = dyna i.ws b h.vaddr
  relr : RelrInRange i.ws b 0 t.relr
  start : lastAux Gabi.AT_BASE aux = 0 → ∃ o ∈ t.ops i.ws b, o.addr = i.staticStart ∧ o.value (i.ld m i.staticStart) = (start + b) % 2 ^ (8 * i.ws)

end Origin.Elf
