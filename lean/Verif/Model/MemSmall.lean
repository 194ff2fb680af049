import Verif.Model.MemBase
/-!
# `src/mem/small.rs`: the size-optimised implementations

`core::arch::asm!("")` lines (optimiser barriers) have no effect and are dropped.
`ws` is `size_of::<usize>()`; it only matters for `memmove`'s wrapping subtraction.
-/

namespace Origin.Small
open Origin

/-- src/mem/small.rs:14-19 (body of `memcpy`'s loop) and 31-36 (`memmove`, forward). -/
def copyUp (s : St) (dst src dstEnd : Nat) : St :=
  if dst < dstEnd then
    let (b, s) := s.ld8 src
    let s := s.st8 dst b
    copyUp s (dst + 1) (src + 1) dstEnd
  else s
termination_by dstEnd - dst

/-- src/mem/small.rs:9-21 `memcpy`.  Returns the pointer result and the new memory. -/
def memcpy (s : St) (dst src len : Nat) : Nat × St :=
  let start := dst
  let dstEnd := dst + len
  (start, copyUp s dst src dstEnd)

/-- src/mem/small.rs:41-46 (`memmove`, backward loop). -/
def copyDown (s : St) (dst src dstStart : Nat) : St :=
  if dst > dstStart then
    let dst' := dst - 1
    let src' := src - 1
    let (b, s) := s.ld8 src'
    let s := s.st8 dst' b
    copyDown s dst' src' dstStart
  else s
termination_by dst - dstStart

/-- src/mem/small.rs:24-49 `memmove`. -/
def memmove (ws : Nat) (s : St) (dst src len : Nat) : Nat × St :=
  let start := dst
  let delta := uwsub ws dst src
  if delta ≥ len then
    (start, copyUp s dst src (dst + len))
  else
    (start, copyDown s (dst + len) (src + len) dst)

/-- src/mem/small.rs:55-59 (`memset`'s loop); the byte is `fill as u8`. -/
def fillUp (s : St) (p end_ : Nat) (c : Byte) : St :=
  if p < end_ then fillUp (s.st8 p c) (p + 1) end_ c else s
termination_by end_ - p

/-- src/mem/small.rs:52-61 `memset`; `fill : c_int`, `fill as u8` keeps the low 8 bits. -/
def memset (s : St) (dst : Nat) (fill : BitVec 32) (len : Nat) : Nat × St :=
  (dst, fillUp s dst (dst + len) (fill.setWidth 8))

/-- src/mem/small.rs:67-77 (`memcmp`'s loop from index `i`). -/
def cmpFrom (s : St) (a b i len : Nat) : Int × St :=
  if i < len then
    let (x, s) := s.ld8 (a + i)
    let (y, s) := s.ld8 (b + i)
    if x ≠ y then ((x.toNat : Int) - (y.toNat : Int), s)
    else cmpFrom s a b (i + 1) len
  else (0, s)
termination_by len - i

/-- src/mem/small.rs:64-78 `memcmp`. -/
def memcmp (s : St) (a b len : Nat) : Int × St := cmpFrom s a b 0 len

/-- src/mem/small.rs:82-84 `bcmp`. -/
def bcmp (s : St) (a b len : Nat) : Int × St := memcmp s a b len

/-- src/mem/small.rs:90-94 (`strlen`'s loop).  The loop has no bound in the code; `fuel`
bounds the number of iterations here and running out gives `none`. -/
def lenFrom : (fuel : Nat) → St → (p n : Nat) → Option (Nat × St)
  | 0, _, _, _ => none
  | fuel + 1, s, p, n =>
    let (b, s) := s.ld8 p
    if b ≠ 0 then lenFrom fuel s (p + 1) (n + 1) else some (n, s)

/-- src/mem/small.rs:87-96 `strlen`. -/
def strlen (fuel : Nat) (s : St) (p : Nat) : Option (Nat × St) := lenFrom fuel s p 0

end Origin.Small
