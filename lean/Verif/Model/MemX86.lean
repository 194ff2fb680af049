import Verif.Model.MemBase
/-!
# `src/mem/x86_64.rs`: the x86-64 implementations

String instructions are modelled on registers holding `Nat`s below `2^64` with wrapping
increments; `ermsb`/`sse2` select the `cfg(target_feature)` variants.  Byte order is little.
-/

namespace Origin.X86
open Origin

/-- x86 `movs`/`stos` index register update: `+ k` when the direction flag is clear, `- k` when it
is set, modulo `2^64`.  Not in /repo: part of the instructions at src/mem/x86_64.rs:33, 46-66, 73-93. -/
def idx (df : Bool) (a k : Nat) : Nat :=
  if df then (a + (2 ^ 64 - k)) % 2 ^ 64 else (a + k) % 2 ^ 64

/-- `rep movsb` (`sz = 1`) / `rep movsq` (`sz = 8`): `rcx` elements.  Returns memory, `rdi`, `rsi`.  src/mem/x86_64.rs:33, 46-66, 73-93. -/
def repMovs (df : Bool) (sz : Nat) : (rcx : Nat) → St → (rdi rsi : Nat) → St × Nat × Nat
  | 0, s, rdi, rsi => (s, rdi, rsi)
  | rcx + 1, s, rdi, rsi =>
    let (w, s) := s.ldW .little sz rsi
    let s := s.stW .little sz rdi w
    repMovs df sz rcx s (idx df rdi sz) (idx df rsi sz)

/-- `rep stosb` / `rep stosq` with the direction flag clear; `w` is the low `sz` bytes of `rax`.  src/mem/x86_64.rs:100-106, 115-135. -/
def repStos (sz : Nat) (w : BitVec (8 * sz)) : (rcx : Nat) → St → (rdi : Nat) → St × Nat
  | 0, s, rdi => (s, rdi)
  | rcx + 1, s, rdi => repStos sz w rcx (s.stW .little sz rdi w) (idx false rdi sz)

/-- src/mem/x86_64.rs:308-315 `rep_param`. -/
def repParam (dest count : Nat) : Nat × Nat × Nat :=
  let preByteCount := min ((8 - (dest &&& 0b111)) &&& 0b111) count
  let count := count - preByteCount
  let qwordCount := count >>> 3
  let byteCount := count &&& 0b111
  (preByteCount, qwordCount, byteCount)

/-- src/mem/x86_64.rs:28-38 (`ermsb`) and 40-67 `copy_forward`. -/
def copyForward (ermsb : Bool) (s : St) (dest src count : Nat) : St :=
  if ermsb then (repMovs false 1 count s dest src).1
  else
    let (pre, qwords, bytes) := repParam dest count
    let (s, dest, src) := repMovs false 1 pre s dest src
    let (s, dest, src) := repMovs false 8 qwords s dest src
    (repMovs false 1 bytes s dest src).1

/-- src/mem/x86_64.rs:69-94 `copy_backward`.  `test` only sets flags, which nothing reads. -/
def copyBackward (s : St) (dest src count : Nat) : St :=
  let (pre, qwords, bytes) := repParam dest count
  let rdi := dest + (count - 1)
  let rsi := src + (count - 1)
  let (s, rdi, rsi) := repMovs true 1 bytes s rdi rsi        -- std; rep movsb
  let rsi := idx true rsi 7                                    -- sub $7, %rsi
  let rdi := idx true rdi 7                                    -- sub $7, %rdi
  let (s, rdi, rsi) := repMovs true 8 qwords s rdi rsi       -- mov qword_count, %rcx; rep movsq
  let rsi := idx false rsi 7                                   -- add $7, %rsi
  let rdi := idx false rdi 7                                   -- add $7, %rdi
  let ecx := pre % 2 ^ 32                                      -- mov pre_byte_count, %ecx
  (repMovs true 1 ecx s rdi rsi).1                            -- rep movsb; cld

/-- src/mem/x86_64.rs:96-106 (`ermsb`) and 108-136 `set_bytes`. -/
def setBytes (ermsb : Bool) (s : St) (dest : Nat) (c : Byte) (count : Nat) : St :=
  if ermsb then (repStos 1 c count s dest).1
  else
    let c64 : BitVec 64 := c.setWidth 64 * 0x0101010101010101#64
    let (pre, qwords, bytes) := repParam dest count
    let (s, dest) := repStos 1 (c64.setWidth 8) pre s dest
    let (s, dest) := repStos 8 c64 qwords s dest
    (repStos 1 (c64.setWidth 8) bytes s dest).1

/-- src/mem/x86_64.rs:160-169, closure `c1`: compare `n` single bytes. -/
def c1 : (n : Nat) → St → (a b : Nat) → Int × St
  | 0, s, _, _ => (0, s)
  | n + 1, s, a, b =>
    let (x, s) := s.ld8 a
    let (y, s) := s.ld8 b
    if x ≠ y then
      let (x, s) := s.ld8 a
      let (y, s) := s.ld8 b
      ((x.toNat : Int) - (y.toNat : Int), s)
    else c1 n s (a + 1) (b + 1)

/-- src/mem/x86_64.rs:150-158, the loop of the generic `cmp` over `k` remaining elements of
`sz` bytes; `rest` is `n % size_of::<T>()` and `f` the next narrower comparison. -/
def cmpLoop (sz : Nat) (f : Nat → St → Nat → Nat → Int × St) (rest : Nat) :
    (k : Nat) → St → (a b : Nat) → Int × St
  | 0, s, a, b => f rest s a b
  | k + 1, s, a, b =>
    let (x, s) := s.ldW .little sz a
    let (y, s) := s.ldW .little sz b
    if x ≠ y then f sz s a b
    else cmpLoop sz f rest k s (a + sz) (b + sz)

/-- src/mem/x86_64.rs:140-159 `cmp`. -/
def cmp (sz : Nat) (f : Nat → St → Nat → Nat → Int × St) (n : Nat) (s : St) (a b : Nat) : Int × St :=
  cmpLoop sz f (n % sz) (n / sz) s a b

/-- src/mem/x86_64.rs:138-175 `compare_bytes` (`c16(c8(c4(c2(c1))))`, lines 170-174). -/
def compareBytes (s : St) (a b n : Nat) : Int × St :=
  cmp 16 (cmp 8 (cmp 4 (cmp 2 c1))) n s a b

/-- `_mm_movemask_epi8(_mm_cmpeq_epi8(x, zero))` for the 16 bytes `x` (x86_64.rs:224, 244):
bit `i` is set iff byte `i` is zero. -/
def zeroMaskFrom (x : BitVec (8 * 16)) : (k : Nat) → Nat
  | 0 => 0
  | k + 1 => zeroMaskFrom x k + (if byteOf .little x k = 0 then 2 ^ k else 0)

/-- See `zeroMaskFrom`.  src/mem/x86_64.rs:224, 244. -/
def zeroMask (x : BitVec (8 * 16)) : Nat := zeroMaskFrom x 16

/-- `u32::trailing_zeros` (of a non-zero argument; `fuel` is the bit width).  src/mem/x86_64.rs:227, 249. -/
def trailingZeros : (fuel : Nat) → Nat → Nat
  | 0, _ => 0
  | fuel + 1, x => if x % 2 = 1 then 0 else 1 + trailingZeros fuel (x / 2)

/-- src/mem/x86_64.rs:197-204: check up to `k` single bytes; `.inl` is an early return. -/
def lenProbe : (k : Nat) → St → (p n : Nat) → (Nat × St) ⊕ (St × Nat × Nat)
  | 0, s, p, n => .inr (s, p, n)
  | k + 1, s, p, n =>
    let (b, s) := s.ld8 p
    if b = 0 then .inl (n, s) else lenProbe k s (p + 1) (n + 1)

/-- src/mem/x86_64.rs:233-251: the 16-byte loop. -/
def lenBlocks : (fuel : Nat) → St → (p n : Nat) → Option (Nat × St)
  | 0, _, _, _ => none
  | fuel + 1, s, p, n =>
    let (x, s) := s.ldW .little 16 p
    let cmp := zeroMask x
    if cmp = 0 then lenBlocks fuel s (p + 16) (n + 16)
    else some (n + trailingZeros 32 cmp, s)

/-- src/mem/x86_64.rs:187-252 `c_string_length` with SSE2. -/
def cStringLengthSse2 (fuel : Nat) (s : St) (p : Nat) : Option (Nat × St) :=
  match lenProbe 4 s p 0 with
  | .inl r => some r
  | .inr (s, p, n) =>
    let align := p &&& 15
    let p := p - align
    let (x, s) := s.ldW .little 16 p
    let cmp := zeroMask x >>> align
    if cmp ≠ 0 then some (n + trailingZeros 32 cmp, s)
    else lenBlocks fuel s (p + 16) (n + (16 - align))

/-- src/mem/x86_64.rs:263-269: single bytes until the address is 8-aligned.  At most seven
iterations happen, so the fuel passed below (8) is never exhausted. -/
def lenAlign : (fuel : Nat) → St → (p n : Nat) → (Nat × St) ⊕ (St × Nat × Nat)
  | 0, s, p, n => .inr (s, p, n)
  | fuel + 1, s, p, n =>
    if p &&& 7 ≠ 0 then
      let (b, s) := s.ld8 p
      if b = 0 then .inl (n, s) else lenAlign fuel s (p + 1) (n + 1)
    else .inr (s, p, n)

/-- src/mem/x86_64.rs:292-299: find the lowest zero byte of `cs`.  At most eight iterations happen
(the word has a zero byte; afterwards the word is zero), so the fuel passed below is never exhausted. -/
def lowZero : (fuel : Nat) → BitVec 64 → (n : Nat) → Nat
  | 0, _, n => n
  | fuel + 1, cs, n => if cs &&& 255#64 = 0 then n else lowZero fuel (cs >>> 8) (n + 1)

/-- src/mem/x86_64.rs:276-304: the 8-byte loop. -/
def lenWords : (fuel : Nat) → St → (p n : Nat) → Option (Nat × St)
  | 0, _, _, _ => none
  | fuel + 1, s, p, n =>
    let (cs, s) := s.ldW .little 8 p
    if (cs - 0x0101010101010101#64) &&& ~~~ cs &&& 0x8080808080808080#64 ≠ 0 then
      some (lowZero 9 cs n, s)
    else lenWords fuel s (p + 8) (n + 8)

/-- src/mem/x86_64.rs:256-305 `c_string_length` without SSE2. -/
def cStringLengthSwar (fuel : Nat) (s : St) (p : Nat) : Option (Nat × St) :=
  match lenAlign 8 s p 0 with
  | .inl r => some r
  | .inr (s, p, n) => lenWords fuel s p n

/-- src/mem/x86_64.rs:185-305: the `cfg(target_feature = "sse2")` selection. -/
def cStringLength (sse2 : Bool) (fuel : Nat) (s : St) (p : Nat) : Option (Nat × St) :=
  if sse2 then cStringLengthSse2 fuel s p else cStringLengthSwar fuel s p

end Origin.X86
