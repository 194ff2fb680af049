import Verif.Model.Relocate
/-!
# Startup relocation, debug build

`relocate` (src/relocate.rs:80-357) compiled with debug assertions and overflow checks: the same steps as in
`Model/Relocate.lean`, with the checks at src/relocate.rs:184-185, 191-192, 198-199 (entry sizes), 265, 273, 288-290, 297 (`+` and `*` in the
RELR loop), 306, 310, 318-320 (page size, offset, `STATIC_START`) and 338-341 (`PT_DYNAMIC`).  A failed check panics.  The other arithmetic
of `relocate` is explicitly wrapping, or pointer arithmetic; `e_phnum * phentsize` (line 332) is a product of two 16-bit numbers, which
does not overflow.
-/

namespace Origin.Elf

/-- The outcome of code with checks.  src/relocate.rs:80-357. -/
inductive Dbg (α : Type) where
  | ok (a : α)
  | panic
deriving DecidableEq, Repr

/-- Go on unless out of fuel or panicking.  (Sequencing in src/relocate.rs:80-357.) -/
def andD {α β : Type} (x : Option (Dbg α)) (f : α → Option (Dbg β)) : Option (Dbg β) :=
  match x with
  | none => none
  | some .panic => some .panic
  | some (.ok a) => f a

/-- `debug_assert!(b)`, then the rest.  (As in src/relocate.rs:185, 306.) -/
def assertD {β : Type} (b : Bool) (f : Option (Dbg β)) : Option (Dbg β) := if b then f else some .panic

/-- `a + b` with overflow check.  (As in src/relocate.rs:265, 273.) -/
def caddD {β : Type} (ws a b : Nat) (f : Nat → Option (Dbg β)) : Option (Dbg β) := if a + b < umax ws then f (a + b) else some .panic

/-- `DT_RELAENT`: src/relocate.rs:185; the number is that of the ELF specification. -/
def DT_RELAENT : Nat := 9
/-- `DT_RELENT`: src/relocate.rs:192; the number is that of the ELF specification. -/
def DT_RELENT : Nat := 19
/-- `DT_RELRENT`: src/relocate.rs:34, 199. -/
def DT_RELRENT : Nat := 37

/-- src/relocate.rs:174-206, debug build. -/
def dynLoopD (i : Image) (m : Mem) (base : Nat) : Nat → Nat → Tabs → Option (Dbg Tabs)
  | 0, _, _ => none
  | fuel + 1, p, t =>
    let tag := i.ld m p
    let val := i.ld m (p + i.ws)
    let p := p + 2 * i.ws
    if tag = DT_RELA then dynLoopD i m base fuel p { t with rela := uadd i.ws base val }
    else if tag = DT_RELASZ then dynLoopD i m base fuel p { t with relaSz := val }
    else if tag = DT_RELAENT then assertD (val = 3 * i.ws) (dynLoopD i m base fuel p t)
    else if tag = DT_REL then dynLoopD i m base fuel p { t with rel := uadd i.ws base val }
    else if tag = DT_RELSZ then dynLoopD i m base fuel p { t with relSz := val }
    else if tag = DT_RELENT then assertD (val = 2 * i.ws) (dynLoopD i m base fuel p t)
    else if tag = DT_RELR then dynLoopD i m base fuel p { t with relr := uadd i.ws base val }
    else if tag = DT_RELRSZ then dynLoopD i m base fuel p { t with relrSz := val }
    else if tag = DT_RELRENT then assertD (val = i.ws) (dynLoopD i m base fuel p t)
    else if tag = DT_NULL then some (.ok t)
    else dynLoopD i m base fuel p t

/-- src/relocate.rs:276-294, debug build (`i * size_of::<usize>()` cannot overflow: `i` is below 64). -/
def relrBitsD (i : Image) (offset addr : Nat) : Nat → Nat → Nat → State → Option (Dbg State)
  | 0, _, _, _ => none
  | fuel + 1, k, entry, s =>
    let entry := entry >>> 1
    if entry = 0 then some (.ok s)
    else if entry &&& 1 ≠ 0 then
      caddD i.ws addr (umul i.ws k i.ws) fun a =>
        relrBitsD i offset addr fuel (k + 1) entry (s.store i a (uadd i.ws (i.ld s.mem a) offset))
    else relrBitsD i offset addr fuel (k + 1) entry s

/-- src/relocate.rs:254-299, debug build. -/
def relrLoopD (i : Image) (offset stop : Nat) : Nat → Nat → Nat → State → Option (Dbg State)
  | 0, _, _, _ => none
  | fuel + 1, p, addr, s =>
    if p = stop then some (.ok s)
    else
      let entry := i.ld s.mem p
      let p := p + i.ws
      if entry &&& 1 = 0 then
        caddD i.ws offset entry fun addr =>
          let s := s.store i addr (uadd i.ws (i.ld s.mem addr) offset)
          caddD i.ws addr i.ws fun addr => relrLoopD i offset stop fuel p addr s
      else
        andD (relrBitsD i offset addr (fuel + 1) 0 entry s) fun s =>
          caddD i.ws addr ((i.ws * 8 - 1) * i.ws) fun addr => relrLoopD i offset stop fuel p addr s

/-- src/relocate.rs:326-349, debug build. -/
def relroLoopD (i : Image) (m : Mem) (offset phent stop : Nat) : Nat → Nat → Nat × Nat → Option (Dbg (Nat × Nat))
  | 0, _, _ => none
  | fuel + 1, p, r =>
    if p = stop then some (.ok r)
    else
      let h := readPhdr i m p
      let p := uadd i.ws p phent
      if h.type = PT_DYNAMIC then assertD (i.dyn = uadd i.ws offset h.vaddr) (relroLoopD i m offset phent stop fuel p r)
      else relroLoopD i m offset phent stop fuel p (if h.type = PT_GNU_RELRO then (h.vaddr, h.memsz) else r)

/-- `usize::is_power_of_two`.  src/relocate.rs:306. -/
def isPow2 (ws x : Nat) : Bool := x ≠ 0 && uand ws x (x - 1) = 0

/-- A loop that may have trapped: a trap ends the process, in any build.  (src/relocate.rs:219-228, 242-251, 355.) -/
def trapD (o : Option Out) (f : State → Option (Dbg Out)) : Option (Dbg Out) :=
  match o with
  | none => none
  | some (.trap s) => some (.ok (.trap s))
  | some (.done s) => f s

/-- src/relocate.rs:149-356, debug build. -/
def relocateWithD (i : Image) (ok : Nat → Nat → Bool) (fuel : Nat) (a : Aux) (offset : Nat) (s : State) : Option (Dbg Out) :=
  andD (dynLoopD i s.mem offset fuel i.dyn { rela := 0, relaSz := 0, rel := 0, relSz := 0, relr := 0, relrSz := 0 }) fun t =>
  trapD (relaLoop i offset (uadd i.ws t.rela t.relaSz) fuel t.rela s) fun s =>
  trapD (relLoop i offset (uadd i.ws t.rel t.relSz) fuel t.rel s) fun s =>
  andD (relrLoopD i offset (uadd i.ws t.relr t.relrSz) fuel t.relr 0 s) fun s =>
  assertD (isPow2 i.ws a.page) <|
  assertD (uand i.ws offset (a.page - 1) = 0) <|
  assertD (a.base ≠ 0 ∨ loadStaticStart i s.mem = a.entry) <|
  let phent := ePhentsize i s.mem
  let first := uadd i.ws offset (ePhoff i s.mem)
  andD (relroLoopD i s.mem offset phent (uadd i.ws first (umul i.ws (ePhnum i s.mem) phent)) fuel first (0, 0)) fun r =>
  some (.ok (protect i ok offset a.page r s))

/-- `relocate`, debug build.  src/relocate.rs:80-357. -/
def relocateD (i : Image) (ok : Nat → Nat → Bool) (fuel : Nat) (m : Mem) (envp : Nat) : Option (Dbg Out) := do
  let auxp ← Boot.computeAuxp i.ws (fun a => wordAt i.endian i.ws m a) fuel envp
  let a ← auxLoop i m fuel auxp { base := 0, page := 0, entry := 0 }
  let s : State := { mem := m, stores := [], prots := [] }
  match decision i m a with
  | none => some (.ok (.done s))
  | some offset => relocateWithD i ok fuel a offset s

end Origin.Elf
