import Verif.Model.MemBase
/-!
# `src/mem/impls.rs`: word-at-a-time implementations (all targets but x86-64)

`ws` = `WORD_SIZE` = `size_of::<usize>()` (impls.rs:7), `e` = `target_endian`,
`hw` = the target is one of those with "hardware unaligned access support"
(impls.rs:23-28, 95-100; on this path: x86 and aarch64; `hw = false`: riscv64 and arm).
`#[inline(always)]` has no effect.  Pointer comparisons `<` compare addresses.
-/

namespace Origin.Impls
open Origin

/-- src/mem/impls.rs:8 `WORD_MASK`. -/
def wordMask (ws : Nat) : Nat := ws - 1

/-- src/mem/impls.rs:17-21 `WORD_COPY_THRESHOLD`. -/
def wordCopyThreshold (ws : Nat) : Nat := if 2 * ws > 16 then 2 * ws else 16

/-- src/mem/impls.rs:41-45, the loop of `copy_forward_bytes`. -/
def copyForwardBytesLoop (s : St) (dest src destEnd : Nat) : St :=
  if dest < destEnd then
    let (b, s) := s.ld8 src
    let s := s.st8 dest b
    copyForwardBytesLoop s (dest + 1) (src + 1) destEnd
  else s
termination_by destEnd - dest

/-- src/mem/impls.rs:39-46 `copy_forward_bytes`. -/
def copyForwardBytes (s : St) (dest src n : Nat) : St :=
  copyForwardBytesLoop s dest src (dest + n)

/-- src/mem/impls.rs:54-58, the loop of `copy_forward_aligned_words`, and 107-111, the loop of the
hardware-unaligned `copy_forward_misaligned_words`: the two differ only in the alignment the load
instruction may assume.  `ws > 0` makes it terminate; for `ws = 0` (no such target) it stops. -/
def copyForwardWordsLoop (e : Endian) (ws : Nat) (s : St) (dest src destEnd : Nat) : St :=
  if _h : dest < destEnd ∧ 0 < ws then
    let (w, s) := s.ldW e ws src
    let s := s.stW e ws dest w
    copyForwardWordsLoop e ws s (dest + ws) (src + ws) destEnd
  else s
termination_by destEnd - dest
decreasing_by omega

/-- src/mem/impls.rs:49-59 `copy_forward_aligned_words`. -/
def copyForwardAlignedWords (e : Endian) (ws : Nat) (s : St) (dest src n : Nat) : St :=
  copyForwardWordsLoop e ws s dest src (dest + n)

/-- src/mem/impls.rs:84-87: reassemble a word from two neighbouring aligned words. -/
def resemble (e : Endian) (ws : Nat) (prev cur : BitVec (8 * ws)) (shift : Nat) : BitVec (8 * ws) :=
  match e with
  | .little => prev >>> shift ||| cur <<< (ws * 8 - shift)
  | .big => prev <<< shift ||| cur >>> (ws * 8 - shift)

/-- src/mem/impls.rs:81-92, the loop of the shifting `copy_forward_misaligned_words`. -/
def copyForwardShiftLoop (e : Endian) (ws : Nat) (s : St) (dest srcAligned destEnd shift : Nat)
    (prev : BitVec (8 * ws)) : St :=
  if _h : dest < destEnd ∧ 0 < ws then
    let srcAligned := srcAligned + ws
    let (cur, s) := s.ldW e ws srcAligned
    let resembled := resemble e ws prev cur shift
    let s := s.stW e ws dest resembled
    copyForwardShiftLoop e ws s (dest + ws) srcAligned destEnd shift cur
  else s
termination_by destEnd - dest
decreasing_by omega

/-- src/mem/impls.rs:61-93 (`hw = false`) and 95-112 (`hw = true`) `copy_forward_misaligned_words`. -/
def copyForwardMisalignedWords (e : Endian) (ws : Nat) (hw : Bool) (s : St) (dest src n : Nat) : St :=
  if hw then copyForwardWordsLoop e ws s dest src (dest + n)
  else
    let offset := uand ws src (wordMask ws)
    let shift := offset * 8
    let srcAligned := uand ws src (unot ws (wordMask ws))
    let (prev, s) := s.ldW e ws srcAligned
    copyForwardShiftLoop e ws s dest srcAligned (dest + n) shift prev

/-- src/mem/impls.rs:37-135 `copy_forward`. -/
def copyForward (e : Endian) (ws : Nat) (hw : Bool) (s : St) (dest src n : Nat) : St :=
  if n ≥ wordCopyThreshold ws then
    let destMisalignment := uand ws (uneg ws dest) (wordMask ws)
    let s := copyForwardBytes s dest src destMisalignment
    let dest := dest + destMisalignment
    let src := src + destMisalignment
    let n := n - destMisalignment
    let nWords := uand ws n (unot ws (wordMask ws))
    let srcMisalignment := uand ws src (wordMask ws)
    let s :=
      if srcMisalignment = 0 then copyForwardAlignedWords e ws s dest src nWords
      else copyForwardMisalignedWords e ws hw s dest src nWords
    let dest := dest + nWords
    let src := src + nWords
    let n := n - nWords
    copyForwardBytes s dest src n
  else
    copyForwardBytes s dest src n

/-- src/mem/impls.rs:144-148, the loop of `copy_backward_bytes`. -/
def copyBackwardBytesLoop (s : St) (dest src destStart : Nat) : St :=
  if destStart < dest then
    let dest' := dest - 1
    let src' := src - 1
    let (b, s) := s.ld8 src'
    let s := s.st8 dest' b
    copyBackwardBytesLoop s dest' src' destStart
  else s
termination_by dest - destStart

/-- src/mem/impls.rs:142-149 `copy_backward_bytes` (`dest`, `src` point past the end). -/
def copyBackwardBytes (s : St) (dest src n : Nat) : St :=
  copyBackwardBytesLoop s dest src (dest - n)

/-- src/mem/impls.rs:157-161 (`copy_backward_aligned_words`) and 210-214 (hardware-unaligned
`copy_backward_misaligned_words`): the loop. -/
def copyBackwardWordsLoop (e : Endian) (ws : Nat) (s : St) (dest src destStart : Nat) : St :=
  if _h : destStart < dest ∧ 0 < ws then
    let dest' := dest - ws
    let src' := src - ws
    let (w, s) := s.ldW e ws src'
    let s := s.stW e ws dest' w
    copyBackwardWordsLoop e ws s dest' src' destStart
  else s
termination_by dest - destStart
decreasing_by omega

/-- src/mem/impls.rs:152-162 `copy_backward_aligned_words`. -/
def copyBackwardAlignedWords (e : Endian) (ws : Nat) (s : St) (dest src n : Nat) : St :=
  copyBackwardWordsLoop e ws s dest src (dest - n)

/-- src/mem/impls.rs:187-190: reassemble, going down. -/
def resembleDown (e : Endian) (ws : Nat) (prev cur : BitVec (8 * ws)) (shift : Nat) : BitVec (8 * ws) :=
  match e with
  | .little => prev <<< (ws * 8 - shift) ||| cur >>> shift
  | .big => prev >>> (ws * 8 - shift) ||| cur <<< shift

/-- src/mem/impls.rs:184-195, the loop of the shifting `copy_backward_misaligned_words`. -/
def copyBackwardShiftLoop (e : Endian) (ws : Nat) (s : St) (dest srcAligned destStart shift : Nat)
    (prev : BitVec (8 * ws)) : St :=
  if _h : destStart < dest ∧ 0 < ws then
    let srcAligned := srcAligned - ws
    let (cur, s) := s.ldW e ws srcAligned
    let resembled := resembleDown e ws prev cur shift
    let dest' := dest - ws
    let s := s.stW e ws dest' resembled
    copyBackwardShiftLoop e ws s dest' srcAligned destStart shift cur
  else s
termination_by dest - destStart
decreasing_by omega

/-- src/mem/impls.rs:164-196 (`hw = false`) and 198-215 (`hw = true`) `copy_backward_misaligned_words`. -/
def copyBackwardMisalignedWords (e : Endian) (ws : Nat) (hw : Bool) (s : St) (dest src n : Nat) : St :=
  if hw then copyBackwardWordsLoop e ws s dest src (dest - n)
  else
    let offset := uand ws src (wordMask ws)
    let shift := offset * 8
    let srcAligned := uand ws src (unot ws (wordMask ws))
    let (prev, s) := s.ldW e ws srcAligned
    copyBackwardShiftLoop e ws s dest srcAligned (dest - n) shift prev

/-- src/mem/impls.rs:138-241 `copy_backward`. -/
def copyBackward (e : Endian) (ws : Nat) (hw : Bool) (s : St) (dest src n : Nat) : St :=
  let dest := dest + n
  let src := src + n
  if n ≥ wordCopyThreshold ws then
    let destMisalignment := uand ws dest (wordMask ws)
    let s := copyBackwardBytes s dest src destMisalignment
    let dest := dest - destMisalignment
    let src := src - destMisalignment
    let n := n - destMisalignment
    let nWords := uand ws n (unot ws (wordMask ws))
    let srcMisalignment := uand ws src (wordMask ws)
    let s :=
      if srcMisalignment = 0 then copyBackwardAlignedWords e ws s dest src nWords
      else copyBackwardMisalignedWords e ws hw s dest src nWords
    let dest := dest - nWords
    let src := src - nWords
    let n := n - nWords
    copyBackwardBytes s dest src n
  else
    copyBackwardBytes s dest src n

/-- src/mem/impls.rs:248-251, the loop of `set_bytes_bytes`. -/
def setBytesBytesLoop (s : St) (p end_ : Nat) (c : Byte) : St :=
  if p < end_ then setBytesBytesLoop (s.st8 p c) (p + 1) end_ c else s
termination_by end_ - p

/-- src/mem/impls.rs:246-252 `set_bytes_bytes`. -/
def setBytesBytes (s : St) (p : Nat) (c : Byte) (n : Nat) : St :=
  setBytesBytesLoop s p (p + n) c

/-- src/mem/impls.rs:258-261: the broadcast loop.  (`bits > 0` always holds; it is tested here only
to make the recursion terminate.) -/
def broadcastLoop (ws : Nat) (broadcast : BitVec (8 * ws)) (bits : Nat) : BitVec (8 * ws) :=
  if _h : bits < ws * 8 ∧ 0 < bits then
    broadcastLoop ws (broadcast ||| broadcast <<< bits) (bits * 2)
  else broadcast
termination_by ws * 8 - bits
decreasing_by omega

/-- src/mem/impls.rs:266-269, the loop of `set_bytes_words`. -/
def setBytesWordsLoop (e : Endian) (ws : Nat) (s : St) (p end_ : Nat) (w : BitVec (8 * ws)) : St :=
  if _h : p < end_ ∧ 0 < ws then setBytesWordsLoop e ws (s.stW e ws p w) (p + ws) end_ w else s
termination_by end_ - p
decreasing_by omega

/-- src/mem/impls.rs:255-270 `set_bytes_words`; `c as usize` zero-extends. -/
def setBytesWords (e : Endian) (ws : Nat) (s : St) (p : Nat) (c : Byte) (n : Nat) : St :=
  setBytesWordsLoop e ws s p (p + n) (broadcastLoop ws (c.setWidth (8 * ws)) 8)

/-- src/mem/impls.rs:244-286 `set_bytes`. -/
def setBytes (e : Endian) (ws : Nat) (s : St) (p : Nat) (c : Byte) (n : Nat) : St :=
  if n ≥ wordCopyThreshold ws then
    let misalignment := uand ws (uneg ws p) (wordMask ws)
    let s := setBytesBytes s p c misalignment
    let p := p + misalignment
    let n := n - misalignment
    let nWords := uand ws n (unot ws (wordMask ws))
    let s := setBytesWords e ws s p c nWords
    let p := p + nWords
    let n := n - nWords
    setBytesBytes s p c n
  else
    setBytesBytes s p c n

/-- src/mem/impls.rs:290-299, the loop of `compare_bytes` from index `i`. -/
def compareBytesFrom (s : St) (a b i n : Nat) : Int × St :=
  if i < n then
    let (x, s) := s.ld8 (a + i)
    let (y, s) := s.ld8 (b + i)
    if x ≠ y then ((x.toNat : Int) - (y.toNat : Int), s)
    else compareBytesFrom s a b (i + 1) n
  else (0, s)
termination_by n - i

/-- src/mem/impls.rs:289-300 `compare_bytes`. -/
def compareBytes (s : St) (a b n : Nat) : Int × St := compareBytesFrom s a b 0 n

/-- src/mem/impls.rs:305-309, the loop of `c_string_length` (`fuel`: see `Small.lenFrom`). -/
def cStringLengthLoop : (fuel : Nat) → St → (p n : Nat) → Option (Nat × St)
  | 0, _, _, _ => none
  | fuel + 1, s, p, n =>
    let (b, s) := s.ld8 p
    if b ≠ 0 then cStringLengthLoop fuel s (p + 1) (n + 1) else some (n, s)

/-- src/mem/impls.rs:303-310 `c_string_length`. -/
def cStringLength (fuel : Nat) (s : St) (p : Nat) : Option (Nat × St) := cStringLengthLoop fuel s p 0

end Origin.Impls
